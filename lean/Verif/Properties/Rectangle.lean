import Verif.Properties.Interval
import Verif.Model.Rectangle
import Mathlib.Order.Bounds.Basic
import Mathlib.Tactic.Positivity
import Mathlib.Tactic.LinearCombination
import Mathlib.Tactic.IntervalCases
/-!
# C22 – C25: rectangles and comparators
-/
namespace Verif.Properties.Rectangle
open Verif.Isotropy Verif.Interval Verif.Rectangle Verif.Spec Verif.Transform
open Verif.Properties.Interval

/-! ## Specification: a rectangle is a set of rational points of the plane -/

/-- Both sides well-formed. -/
def WF2 (r : Rect) : Prop := WF r.h ∧ WF r.v
/-- Closed rectangle. -/
def Mem2 (r : Rect) (p : ℚ × ℚ) : Prop := Mem r.h p.1 ∧ Mem r.v p.2
/-- Open rectangle. -/
def Inside2 (r : Rect) (p : ℚ × ℚ) : Prop := Inside r.h p.1 ∧ Inside r.v p.2
/-- Both sides of positive length. -/
def Pos2 (r : Rect) : Prop := r.h.lo < r.h.hi ∧ r.v.lo < r.v.hi
/-- An integer point as a point of the plane. -/
def toQ (p : Int × Int) : ℚ × ℚ := (p.1, p.2)

private theorem mem_of_lo {i : Ivl} (h : WF i) : Mem i (i.lo : ℚ) := ⟨le_refl _, by exact_mod_cast h⟩

/-! ## C22 -/

/-- C22: `contains(rectangle, point)` is membership (closed, or open without touching). -/
theorem C22_contains_point (r : Rect) (p : Int × Int) :
    (containsPt r p true = true ↔ Mem2 r (toQ p)) ∧
    (containsPt r p false = true ↔ Inside2 r (toQ p)) := by
  simp only [containsPt, Bool.and_eq_true, (C20_contains_value _ _).1, (C20_contains_value _ _).2]
  exact ⟨Iff.rfl, Iff.rfl⟩

/-- C22: `contains(rectangle, rectangle)` is inclusion of point sets. -/
theorem C22_contains_rect (r c : Rect) (hc : WF2 c) :
    (containsRect r c true = true ↔ ∀ p, Mem2 c p → Mem2 r p) ∧
    (containsRect r c false = true ↔ ∀ p, Mem2 c p → Inside2 r p) := by
  simp only [containsRect, Bool.and_eq_true, (C20_contains_interval _ _ hc.1).1,
    (C20_contains_interval _ _ hc.2).1, (C20_contains_interval _ _ hc.1).2,
    (C20_contains_interval _ _ hc.2).2]
  constructor
  · constructor
    · rintro ⟨h1, h2⟩ p hp
      exact ⟨h1 _ hp.1, h2 _ hp.2⟩
    · intro h
      exact ⟨fun x hx => (h (x, (c.v.lo : ℚ)) ⟨hx, mem_of_lo hc.2⟩).1,
        fun y hy => (h ((c.h.lo : ℚ), y) ⟨mem_of_lo hc.1, hy⟩).2⟩
  · constructor
    · rintro ⟨h1, h2⟩ p hp
      exact ⟨h1 _ hp.1, h2 _ hp.2⟩
    · intro h
      exact ⟨fun x hx => (h (x, (c.v.lo : ℚ)) ⟨hx, mem_of_lo hc.2⟩).1,
        fun y hy => (h ((c.h.lo : ℚ), y) ⟨mem_of_lo hc.1, hy⟩).2⟩

/-- C22: `intersects` with touching: the closed rectangles share a point; without touching
(rectangles of positive size): the interiors share a point. -/
theorem C22_intersects (r b : Rect) (hr : WF2 r) (hb : WF2 b) :
    (intersectsRect r b true = true ↔ ∃ p, Mem2 r p ∧ Mem2 b p) ∧
    (Pos2 r → Pos2 b → (intersectsRect r b false = true ↔ ∃ p, Inside2 r p ∧ Inside2 b p)) := by
  constructor
  · simp only [intersectsRect, Bool.and_eq_true, C20_intersects_touch _ _ hr.1 hb.1,
      C20_intersects_touch _ _ hr.2 hb.2]
    constructor
    · rintro ⟨⟨x, h1, h2⟩, y, h3, h4⟩
      exact ⟨(x, y), ⟨h1, h3⟩, h2, h4⟩
    · rintro ⟨p, ⟨h1, h3⟩, h2, h4⟩
      exact ⟨⟨_, h1, h2⟩, _, h3, h4⟩
  · intro pr pb
    simp only [intersectsRect, Bool.and_eq_true, C20_intersects_no_touch_interiors _ _ pr.1 pb.1,
      C20_intersects_no_touch_interiors _ _ pr.2 pb.2]
    constructor
    · rintro ⟨⟨x, h1, h2⟩, y, h3, h4⟩
      exact ⟨(x, y), ⟨h1, h3⟩, h2, h4⟩
    · rintro ⟨p, ⟨h1, h3⟩, h2, h4⟩
      exact ⟨⟨_, h1, h2⟩, _, h3, h4⟩

/-- C22: `intersect` with touching returns whether the closed rectangles meet, then holds
exactly the common points, and otherwise leaves the rectangle unchanged. -/
theorem C22_intersect_touch (r b : Rect) (hr : WF2 r) (hb : WF2 b) :
    ((intersectRect r b true).2 = true ↔ ∃ p, Mem2 r p ∧ Mem2 b p) ∧
    ((intersectRect r b true).2 = true →
      WF2 (intersectRect r b true).1 ∧
      ∀ p, Mem2 (intersectRect r b true).1 p ↔ Mem2 r p ∧ Mem2 b p) ∧
    ((intersectRect r b true).2 = false → (intersectRect r b true).1 = r) := by
  have key := (C22_intersects r b hr hb).1
  by_cases hi : intersectsRect r b true = true
  · obtain ⟨p, hp, hq⟩ := key.mp hi
    obtain ⟨a1, a2, -⟩ := C20_intersect_touch r.h b.h hr.1 hb.1
    obtain ⟨b1, b2, -⟩ := C20_intersect_touch r.v b.v hr.2 hb.2
    have hh := a1.mpr ⟨_, hp.1, hq.1⟩
    have hv := b1.mpr ⟨_, hp.2, hq.2⟩
    have e : intersectRect r b true =
        (⟨(intersect r.h b.h true).1, (intersect r.v b.v true).1⟩, true) := by
      simp [intersectRect, hi, intersectIvl, Rect.get, Rect.set, HORIZONTAL, VERTICAL, hh, hv]
    rw [e]
    refine ⟨by simp [← key, hi], fun _ => ⟨⟨(a2 hh).1, (b2 hv).1⟩, fun q => ?_⟩, by simp⟩
    simp only [Mem2, (a2 hh).2, (b2 hv).2]
    tauto
  · have e : intersectRect r b true = (r, false) := by
      simp [intersectRect, hi]
    rw [e]
    refine ⟨by simp [← key, hi], by simp, fun _ => rfl⟩

/-- C22 (violation): without touching, `intersect` can return true although the interiors do
not meet, leaving a rectangle that is not the intersection. -/
theorem C22_intersect_no_touch_violated :
    ∃ r b, Pos2 r ∧ Pos2 b ∧ (intersectRect r b false).2 = true ∧
      (¬ ∃ p, Inside2 r p ∧ Inside2 b p) ∧
      ¬ ∀ p, Mem2 (intersectRect r b false).1 p ↔ Mem2 r p ∧ Mem2 b p := by
  refine ⟨⟨⟨0, 10⟩, ⟨0, 10⟩⟩, ⟨⟨10, 20⟩, ⟨0, 10⟩⟩, ⟨by decide, by decide⟩, ⟨by decide, by decide⟩,
    by decide, ?_, ?_⟩
  · rw [← (C22_intersects _ _ ⟨by decide, by decide⟩ ⟨by decide, by decide⟩).2
      ⟨by decide, by decide⟩ ⟨by decide, by decide⟩]
    decide
  · have e : (intersectRect ⟨⟨0, 10⟩, ⟨0, 10⟩⟩ ⟨⟨10, 20⟩, ⟨0, 10⟩⟩ false).1 = ⟨⟨0, 10⟩, ⟨0, 10⟩⟩ := by decide
    rw [e]
    intro h
    have := (h (0, 0)).mp ⟨⟨by norm_num, by norm_num⟩, ⟨by norm_num, by norm_num⟩⟩
    have h2 := this.2.1.1
    norm_num at h2

/-- C22 (partial): without touching, when the interiors do meet `intersect` returns true and
holds exactly the common points. Missing: returning false when they do not meet (violated). -/
theorem C22_intersect_no_touch_partial (r b : Rect)
    (hm : ∃ p, Inside2 r p ∧ Inside2 b p) :
    (intersectRect r b false).2 = true ∧
      ∀ p, Mem2 (intersectRect r b false).1 p ↔ Mem2 r p ∧ Mem2 b p := by
  obtain ⟨p, hp, hq⟩ := hm
  obtain ⟨a1, a2, -⟩ := C20_intersect_no_touch r.h b.h
  obtain ⟨b1, b2, -⟩ := C20_intersect_no_touch r.v b.v
  have hh := a1.mpr ⟨_, hp.1, hq.1⟩
  have hv := b1.mpr ⟨_, hp.2, hq.2⟩
  have wr : WF2 r := ⟨by exact_mod_cast (hp.1.1.trans hp.1.2).le, by exact_mod_cast (hp.2.1.trans hp.2.2).le⟩
  have wb : WF2 b := ⟨by exact_mod_cast (hq.1.1.trans hq.1.2).le, by exact_mod_cast (hq.2.1.trans hq.2.2).le⟩
  have hi : intersectsRect r b true = true :=
    (C22_intersects r b wr wb).1.mpr
      ⟨p, ⟨⟨hp.1.1.le, hp.1.2.le⟩, hp.2.1.le, hp.2.2.le⟩, ⟨hq.1.1.le, hq.1.2.le⟩, hq.2.1.le, hq.2.2.le⟩
  have e : intersectRect r b false =
      (⟨(intersect r.h b.h false).1, (intersect r.v b.v false).1⟩, true) := by
    simp [intersectRect, hi, intersectIvl, Rect.get, Rect.set, HORIZONTAL, VERTICAL, hh, hv]
  rw [e]
  refine ⟨rfl, fun q => ?_⟩
  simp only [Mem2, (a2 hh).2, (b2 hv).2]
  tauto

/-- C22: `boundaries_intersect` with touching: the closed rectangles meet and neither lies
inside the other's interior. -/
theorem C22_boundaries_intersect (r b : Rect) (hr : WF2 r) (hb : WF2 b) :
    boundariesIntersectRect r b true = true ↔
      (∃ p, Mem2 r p ∧ Mem2 b p) ∧ ¬ (∀ p, Mem2 b p → Inside2 r p) ∧
        ¬ (∀ p, Mem2 r p → Inside2 b p) := by
  rw [← (C22_intersects r b hr hb).1, ← (C22_contains_rect r b hb).2, ← (C22_contains_rect b r hr).2]
  simp [boundariesIntersectRect, and_assoc]

/-- C22: `abuts` on rectangles of positive size: they touch but their interiors do not
overlap. -/
theorem C22_abuts (r b : Rect) (hr : Pos2 r) (hb : Pos2 b) :
    abutsRect r b = true ↔
      (∃ p, Mem2 r p ∧ Mem2 b p) ∧ ¬ ∃ p, Inside2 r p ∧ Inside2 b p := by
  have wr : WF2 r := ⟨hr.1.le, hr.2.le⟩
  have wb : WF2 b := ⟨hb.1.le, hb.2.le⟩
  rw [← (C22_intersects r b wr wb).1, ← (C22_intersects r b wr wb).2 hr hb]
  obtain ⟨⟨rhl, rhh⟩, ⟨rvl, rvh⟩⟩ := r
  obtain ⟨⟨bhl, bhh⟩, ⟨bvl, bvh⟩⟩ := b
  simp only [Pos2] at hr hb
  simp [abutsRect, abutsOrient, abuts, abutsDir, intersectsRect, intersects, Rect.get, perpendicular,
    HORIZONTAL, VERTICAL, HIGH, LOW]
  omega

/-- C22: `abuts` in a direction: the named side of `r` lies on the opposite side of `b`. -/
theorem C22_abuts_dir (r b : Rect) (d : Nat) (hd : d < 4) :
    abutsDir2 r b d = true ↔ r.side d = b.side (dir2Backward d) ∧
      intersects (r.get (perpendicular (orientOfDir2 d))) (b.get (perpendicular (orientOfDir2 d))) true
        = true := by
  interval_cases d <;>
    simp [abutsDir2, abutsDir, Rect.side, Rect.get, Ivl.get, orientOfDir2, dir1OfDir2, dir2Backward,
      perpendicular] <;> intro _ <;> constructor <;> exact Eq.symm

/-- C22: `set_points` gives the least rectangle containing both points. -/
theorem C22_set_points (p q : Int × Int) :
    WF2 (setPoints p q) ∧ Mem2 (setPoints p q) (toQ p) ∧ Mem2 (setPoints p q) (toQ q) ∧
    ∀ c, Mem2 c (toQ p) → Mem2 c (toQ q) → ∀ x, Mem2 (setPoints p q) x → Mem2 c x := by
  have e1 : setPoints p q = ⟨⟨min p.1 q.1, max p.1 q.1⟩, ⟨min p.2 q.2, max p.2 q.2⟩⟩ := by
    simp only [setPoints, construct]
    congr 1 <;> split <;> congr 1 <;> omega
  rw [e1]
  simp only [WF2, WF, Mem2, Mem, toQ]
  push_cast
  refine ⟨⟨by simp, by simp⟩, ⟨⟨by simp, by simp⟩, by simp, by simp⟩, ⟨⟨by simp, by simp⟩, by simp, by simp⟩, ?_⟩
  rintro c ⟨⟨h1, h2⟩, h3, h4⟩ ⟨⟨k1, k2⟩, k3, k4⟩ x ⟨⟨l1, l2⟩, l3, l4⟩
  exact ⟨⟨(le_min h1 k1).trans l1, l2.trans (max_le h2 k2)⟩, (le_min h3 k3).trans l3, l4.trans (max_le h4 k4)⟩

/-- C22: `encompass` grows to the least rectangle containing both, and reports whether the
rectangle changed. -/
theorem C22_encompass (r b : Rect) (hr : WF2 r) (hb : WF2 b) :
    WF2 (encompassRect r b).1 ∧
    (∀ p, Mem2 r p ∨ Mem2 b p → Mem2 (encompassRect r b).1 p) ∧
    (∀ c : Rect, (∀ p, Mem2 r p ∨ Mem2 b p → Mem2 c p) → ∀ p, Mem2 (encompassRect r b).1 p → Mem2 c p) ∧
    ((encompassRect r b).2 = true ↔ (encompassRect r b).1 ≠ r) := by
  obtain ⟨a1, a2, a3, a4⟩ := C20_encompass r.h b.h hr.1 hb.1
  obtain ⟨b1, b2, b3, b4⟩ := C20_encompass r.v b.v hr.2 hb.2
  have e : encompassRect r b = (⟨(encompass r.h b.h).1, (encompass r.v b.v).1⟩,
      (encompass r.h b.h).2 || (encompass r.v b.v).2) := by
    have c1 : (encompass r.h b.h).2 = false → (encompass r.h b.h).1 = r.h := by
      intro h; by_contra hne; rw [← ne_eq, ← a4, h] at hne; cases hne
    have c2 : (encompass r.v b.v).2 = false → (encompass r.v b.v).1 = r.v := by
      intro h; by_contra hne; rw [← ne_eq, ← b4, h] at hne; cases hne
    rcases h1 : (encompass r.h b.h).2 with _ | _ <;> rcases h2 : (encompass r.v b.v).2 with _ | _ <;>
      simp [encompassRect, encompassIvl, Rect.get, Rect.set, HORIZONTAL, VERTICAL, h1, h2, c1, c2]
  rw [e]
  refine ⟨⟨a1, b1⟩, ?_, ?_, ?_⟩
  · rintro p (hp | hp)
    · exact ⟨a2 _ (Or.inl hp.1), b2 _ (Or.inl hp.2)⟩
    · exact ⟨a2 _ (Or.inr hp.1), b2 _ (Or.inr hp.2)⟩
  · intro c hc p hp
    refine ⟨a3 c.h (fun x hx => ?_) _ hp.1, b3 c.v (fun y hy => ?_) _ hp.2⟩
    · rcases hx with hx | hx
      · exact (hc (x, (r.v.lo : ℚ)) (Or.inl ⟨hx, mem_of_lo hr.2⟩)).1
      · exact (hc (x, (b.v.lo : ℚ)) (Or.inr ⟨hx, mem_of_lo hb.2⟩)).1
    · rcases hy with hy | hy
      · exact (hc ((r.h.lo : ℚ), y) (Or.inl ⟨mem_of_lo hr.1, hy⟩)).2
      · exact (hc ((b.h.lo : ℚ), y) (Or.inr ⟨mem_of_lo hb.1, hy⟩)).2
  · obtain ⟨rh, rv⟩ := r
    simp only [Bool.or_eq_true, a4, b4, ne_eq, Rect.mk.injEq]
    tauto

/-- C22: `encompass(rectangle, point)` is `encompass` with the point's degenerate rectangle. -/
theorem C22_encompass_point (r : Rect) (hr : WF2 r) (p : Int × Int) :
    encompassPt r p = encompassRect r ⟨⟨p.1, p.1⟩, ⟨p.2, p.2⟩⟩ := by
  obtain ⟨-, -, -, a4⟩ := C20_encompass r.h ⟨p.1, p.1⟩ hr.1 (le_refl _)
  obtain ⟨-, -, -, b4⟩ := C20_encompass r.v ⟨p.2, p.2⟩ hr.2 (le_refl _)
  have c1 : (encompass r.h ⟨p.1, p.1⟩).2 = false → (encompass r.h ⟨p.1, p.1⟩).1 = r.h := by
    intro h; by_contra hne; rw [← ne_eq, ← a4, h] at hne; cases hne
  have c2 : (encompass r.v ⟨p.2, p.2⟩).2 = false → (encompass r.v ⟨p.2, p.2⟩).1 = r.v := by
    intro h; by_contra hne; rw [← ne_eq, ← b4, h] at hne; cases hne
  rcases h1 : (encompass r.h ⟨p.1, p.1⟩).2 with _ | _ <;>
    rcases h2 : (encompass r.v ⟨p.2, p.2⟩).2 with _ | _ <;>
    simp [encompassPt, C20_encompass_value, encompassRect, encompassIvl, Rect.get, Rect.set,
      HORIZONTAL, VERTICAL, h1, h2, c1, c2]

example : WF2 ⟨⟨0, 4⟩, ⟨0, 4⟩⟩ ∧ Pos2 ⟨⟨4, 8⟩, ⟨2, 9⟩⟩ ∧
    abutsRect ⟨⟨0, 4⟩, ⟨0, 4⟩⟩ ⟨⟨4, 8⟩, ⟨2, 9⟩⟩ = true ∧
    intersectRect ⟨⟨0, 4⟩, ⟨0, 4⟩⟩ ⟨⟨2, 8⟩, ⟨2, 9⟩⟩ true = (⟨⟨2, 4⟩, ⟨2, 4⟩⟩, true) := by
  refine ⟨⟨?_, ?_⟩, ⟨?_, ?_⟩, ?_, ?_⟩ <;> decide

/-! ## C23: distances -/

private theorem distVal_spec (i : Ivl) (h : WF i) (p : Int) :
    ∃ d : Int, distVal i p = some d ∧ 0 ≤ d ∧
      (∃ x, Mem i x ∧ |x - p| = d) ∧ (∀ x, Mem i x → (d : ℚ) ≤ |x - p|) := by
  have h' : (i.lo : ℚ) ≤ i.hi := by exact_mod_cast h
  unfold WF at h
  by_cases c1 : i.lo - p > 0
  · refine ⟨i.lo - p, ?_, by omega, ⟨i.lo, ⟨le_refl _, h'⟩, ?_⟩, ?_⟩
    · rw [distVal, distPick, decide_eq_true (by omega), decide_eq_false (by omega)]; rfl
    · push_cast; apply abs_of_nonneg; have : (0 : ℚ) < ((i.lo - p : Int) : ℚ) := by exact_mod_cast c1
      push_cast at this; linarith
    · intro x hx; push_cast; exact le_trans (by linarith [hx.1]) (le_abs_self _)
  · by_cases c2 : p - i.hi > 0
    · refine ⟨p - i.hi, ?_, by omega, ⟨i.hi, ⟨h', le_refl _⟩, ?_⟩, ?_⟩
      · rw [distVal, distPick, decide_eq_false (by omega), decide_eq_true (by omega)]; rfl
      · rw [abs_sub_comm]; push_cast; apply abs_of_nonneg
        have : (0 : ℚ) < ((p - i.hi : Int) : ℚ) := by exact_mod_cast c2
        push_cast at this; linarith
      · intro x hx; rw [abs_sub_comm]; push_cast; exact le_trans (by linarith [hx.2]) (le_abs_self _)
    · refine ⟨0, ?_, le_refl _, ⟨p, ⟨by exact_mod_cast (by omega : i.lo ≤ p), by exact_mod_cast (by omega : p ≤ i.hi)⟩, by simp⟩, ?_⟩
      · rw [distVal, distPick, decide_eq_false (by omega), decide_eq_false (by omega)]; rfl
      · intro x _; push_cast; exact abs_nonneg _

private theorem distIvl_spec (a b : Ivl) (ha : WF a) (hb : WF b) :
    ∃ d : Int, distIvl a b = some d ∧ 0 ≤ d ∧
      (∃ x y, Mem a x ∧ Mem b y ∧ |x - y| = d) ∧ (∀ x y, Mem a x → Mem b y → (d : ℚ) ≤ |x - y|) := by
  have ha' : (a.lo : ℚ) ≤ a.hi := by exact_mod_cast ha
  have hb' : (b.lo : ℚ) ≤ b.hi := by exact_mod_cast hb
  unfold WF at ha hb
  by_cases c1 : a.lo - b.hi > 0
  · refine ⟨a.lo - b.hi, ?_, by omega, ⟨a.lo, b.hi, ⟨le_refl _, ha'⟩, ⟨hb', le_refl _⟩, ?_⟩, ?_⟩
    · rw [distIvl, distPick, decide_eq_true (by omega), decide_eq_false (by omega)]; rfl
    · push_cast; apply abs_of_nonneg
      have : (0 : ℚ) < ((a.lo - b.hi : Int) : ℚ) := by exact_mod_cast c1
      push_cast at this; linarith
    · intro x y hx hy; push_cast; exact le_trans (by linarith [hx.1, hy.2]) (le_abs_self _)
  · by_cases c2 : b.lo - a.hi > 0
    · refine ⟨b.lo - a.hi, ?_, by omega, ⟨a.hi, b.lo, ⟨ha', le_refl _⟩, ⟨le_refl _, hb'⟩, ?_⟩, ?_⟩
      · rw [distIvl, distPick, decide_eq_false (by omega), decide_eq_true (by omega)]; rfl
      · rw [abs_sub_comm]; push_cast; apply abs_of_nonneg
        have : (0 : ℚ) < ((b.lo - a.hi : Int) : ℚ) := by exact_mod_cast c2
        push_cast at this; linarith
      · intro x y hx hy; rw [abs_sub_comm]; push_cast
        exact le_trans (by linarith [hx.2, hy.1]) (le_abs_self _)
    · refine ⟨0, ?_, le_refl _, ⟨((max a.lo b.lo : Int) : ℚ), ((max a.lo b.lo : Int) : ℚ), ⟨?_, ?_⟩, ⟨?_, ?_⟩, by simp⟩, ?_⟩
      · rw [distIvl, distPick, decide_eq_false (by omega), decide_eq_false (by omega)]; rfl
      · exact_mod_cast (by omega)
      · exact_mod_cast (by omega)
      · exact_mod_cast (by omega)
      · exact_mod_cast (by omega)
      · intro x y _ _; push_cast; exact abs_nonneg _

/-- C23: interval–position and interval–interval distances never read outside the three
element table and are the minimum distances. -/
theorem C23_interval_distance (a b : Ivl) (ha : WF a) (hb : WF b) (p : Int) :
    (∃ d : Int, distVal a p = some d ∧ IsLeast {q : ℚ | ∃ x, Mem a x ∧ q = |x - p|} d) ∧
    (∃ d : Int, distIvl a b = some d ∧ IsLeast {q : ℚ | ∃ x y, Mem a x ∧ Mem b y ∧ q = |x - y|} d) := by
  constructor
  · obtain ⟨d, h1, -, ⟨x, hx, hd⟩, h3⟩ := distVal_spec a ha p
    exact ⟨d, h1, ⟨x, hx, hd.symm⟩, by rintro q ⟨y, hy, rfl⟩; exact h3 y hy⟩
  · obtain ⟨d, h1, -, ⟨x, y, hx, hy, hd⟩, h3⟩ := distIvl_spec a b ha hb
    exact ⟨d, h1, ⟨x, y, hx, hy, hd.symm⟩, by rintro q ⟨y, z, hy, hz, rfl⟩; exact h3 y z hy hz⟩

/-- C23: rectangle–point Manhattan and squared Euclidean distances are the minimum over all
points of the rectangle. -/
theorem C23_rect_point_distance (r : Rect) (hr : WF2 r) (p : Int × Int) :
    (∃ d : Int, manDistPt r p = some d ∧
      IsLeast {q : ℚ | ∃ x, Mem2 r x ∧ q = |x.1 - p.1| + |x.2 - p.2|} d) ∧
    (∃ d : Int, sqDistPt r p = some d ∧
      IsLeast {q : ℚ | ∃ x, Mem2 r x ∧ q = (x.1 - p.1) ^ 2 + (x.2 - p.2) ^ 2} d) := by
  obtain ⟨d, hd, d0, ⟨x, hx, dx⟩, hdm⟩ := distVal_spec r.h hr.1 p.1
  obtain ⟨e, he, e0, ⟨y, hy, ey⟩, hem⟩ := distVal_spec r.v hr.2 p.2
  have d0' : (0 : ℚ) ≤ d := by exact_mod_cast d0
  have e0' : (0 : ℚ) ≤ e := by exact_mod_cast e0
  constructor
  · refine ⟨d + e, by simp [manDistPt, hd, he], ⟨(x, y), ⟨hx, hy⟩, by push_cast; rw [dx, ey]⟩, ?_⟩
    rintro q ⟨z, hz, rfl⟩
    push_cast
    exact add_le_add (hdm _ hz.1) (hem _ hz.2)
  · refine ⟨d * d + e * e, by simp [sqDistPt, hd, he], ⟨(x, y), ⟨hx, hy⟩, ?_⟩, ?_⟩
    · push_cast
      rw [← sq_abs (x - _), ← sq_abs (y - _), dx, ey]; ring
    · rintro q ⟨z, hz, rfl⟩
      push_cast
      have h1 := hdm _ hz.1
      have h2 := hem _ hz.2
      rw [← sq_abs (z.1 - _), ← sq_abs (z.2 - _)]
      nlinarith

/-- C23: rectangle–rectangle Manhattan and squared Euclidean distances are the minimum over
all pairs of points, and zero exactly when the closed rectangles share a point. -/
theorem C23_rect_rect_distance (r b : Rect) (hr : WF2 r) (hb : WF2 b) :
    (∃ d : Int, manDistRect r b = some d ∧
      IsLeast {q : ℚ | ∃ x y, Mem2 r x ∧ Mem2 b y ∧ q = |x.1 - y.1| + |x.2 - y.2|} d ∧
      (d = 0 ↔ ∃ p, Mem2 r p ∧ Mem2 b p)) ∧
    (∃ d : Int, sqDistRect r b = some d ∧
      IsLeast {q : ℚ | ∃ x y, Mem2 r x ∧ Mem2 b y ∧ q = (x.1 - y.1) ^ 2 + (x.2 - y.2) ^ 2} d ∧
      (d = 0 ↔ ∃ p, Mem2 r p ∧ Mem2 b p)) := by
  obtain ⟨d, hd, d0, ⟨x, x', hx, hx', dx⟩, hdm⟩ := distIvl_spec r.h b.h hr.1 hb.1
  obtain ⟨e, he, e0, ⟨y, y', hy, hy', ey⟩, hem⟩ := distIvl_spec r.v b.v hr.2 hb.2
  have d0' : (0 : ℚ) ≤ d := by exact_mod_cast d0
  have e0' : (0 : ℚ) ≤ e := by exact_mod_cast e0
  have key : (d = 0 ∧ e = 0) ↔ ∃ p, Mem2 r p ∧ Mem2 b p := by
    constructor
    · rintro ⟨rfl, rfl⟩
      simp only [Int.cast_zero, abs_eq_zero, sub_eq_zero] at dx ey
      subst dx; subst ey
      exact ⟨(x, y), ⟨hx, hy⟩, hx', hy'⟩
    · rintro ⟨p, hp, hq⟩
      have h1 := hdm _ _ hp.1 hq.1
      have h2 := hem _ _ hp.2 hq.2
      simp only [sub_self, abs_zero] at h1 h2
      have h1' : d ≤ 0 := by exact_mod_cast h1
      have h2' : e ≤ 0 := by exact_mod_cast h2
      omega
  constructor
  · refine ⟨d + e, by simp [manDistRect, hd, he],
      ⟨⟨(x, y), (x', y'), ⟨hx, hy⟩, ⟨hx', hy'⟩, by push_cast; rw [dx, ey]⟩, ?_⟩, ?_⟩
    · rintro q ⟨z, w, hz, hw, rfl⟩
      push_cast
      exact add_le_add (hdm _ _ hz.1 hw.1) (hem _ _ hz.2 hw.2)
    · rw [← key]; omega
  · refine ⟨d * d + e * e, by simp [sqDistRect, hd, he],
      ⟨⟨(x, y), (x', y'), ⟨hx, hy⟩, ⟨hx', hy'⟩, ?_⟩, ?_⟩, ?_⟩
    · push_cast
      rw [← sq_abs (x - _), ← sq_abs (y - _), dx, ey]; ring
    · rintro q ⟨z, w, hz, hw, rfl⟩
      push_cast
      have h1 := hdm _ _ hz.1 hw.1
      have h2 := hem _ _ hz.2 hw.2
      rw [← sq_abs (z.1 - _), ← sq_abs (z.2 - _)]
      nlinarith
    · rw [← key]
      constructor
      · intro h
        have : d * d = 0 := by nlinarith [mul_self_nonneg d, mul_self_nonneg e]
        have : e * e = 0 := by nlinarith [mul_self_nonneg d, mul_self_nonneg e]
        exact ⟨mul_self_eq_zero.mp ‹d * d = 0›, mul_self_eq_zero.mp this⟩
      · rintro ⟨rfl, rfl⟩; rfl

/-- C23 (violation): `euclidean_distance(rectangle, rectangle)` truncates the squared
distance to `int` before the square root: for rectangles 65536 apart it takes the root of 0. -/
theorem C23_euclidean_rect_rect_violated :
    ∃ r b, WF2 r ∧ WF2 b ∧ (¬ ∃ p, Mem2 r p ∧ Mem2 b p) ∧
      sqDistRect r b = some (65536 ^ 2) ∧ eucDistRectArg r b = some 0 := by
  refine ⟨⟨⟨0, 1⟩, ⟨0, 1⟩⟩, ⟨⟨65537, 65538⟩, ⟨0, 1⟩⟩, ⟨by decide, by decide⟩, ⟨by decide, by decide⟩, ?_,
    by decide, by decide⟩
  rw [← (C22_intersects _ _ ⟨by decide, by decide⟩ ⟨by decide, by decide⟩).1]
  decide

/-- C23 (partial): the argument of the square root is the squared distance whenever that is
below 2^31. Missing: larger distances (violated above). -/
theorem C23_euclidean_rect_rect_partial (r b : Rect) (d : Int) (h : sqDistRect r b = some d)
    (h0 : 0 ≤ d) (h1 : d < 2 ^ 31) : eucDistRectArg r b = some d := by
  simp only [eucDistRectArg, h, Option.map_some, toInt32, Option.some.injEq]
  omega

example : sqDistRect ⟨⟨0, 1⟩, ⟨0, 1⟩⟩ ⟨⟨4, 5⟩, ⟨5, 6⟩⟩ = some 25 ∧
    manDistPt ⟨⟨0, 1⟩, ⟨0, 1⟩⟩ (4, -5) = some 8 := by decide

/-! ## C24: rectangle algebra -/

/-- C24: `convolve` is the Minkowski sum of the point sets, `reflected_convolve` the
Minkowski difference, and the de-convolutions undo them. -/
theorem C24_convolve (r c : Rect) (hr : WF2 r) (hc : WF2 c) (p : ℚ × ℚ) :
    (Mem2 (convolveRect r c) p ↔ ∃ x y, Mem2 r x ∧ Mem2 c y ∧ p = x + y) ∧
    (Mem2 (reflectedConvolveRect r c) p ↔ ∃ x y, Mem2 r x ∧ Mem2 c y ∧ p = x - y) ∧
    deconvolveRect (convolveRect r c) c = r ∧
    reflectedDeconvolveRect (reflectedConvolveRect r c) c = r := by
  refine ⟨?_, ?_, ?_, ?_⟩
  · simp only [Mem2, convolveRect, C21_convolve _ _ hr.1 hc.1, C21_convolve _ _ hr.2 hc.2]
    constructor
    · rintro ⟨⟨x, x', h1, h2, h3⟩, y, y', h4, h5, h6⟩
      exact ⟨(x, y), (x', y'), ⟨h1, h4⟩, ⟨h2, h5⟩, Prod.ext h3 h6⟩
    · rintro ⟨x, y, h1, h2, rfl⟩
      exact ⟨⟨_, _, h1.1, h2.1, rfl⟩, _, _, h1.2, h2.2, rfl⟩
  · simp only [Mem2, reflectedConvolveRect, C21_reflected_convolve _ _ hr.1 hc.1,
      C21_reflected_convolve _ _ hr.2 hc.2]
    constructor
    · rintro ⟨⟨x, x', h1, h2, h3⟩, y, y', h4, h5, h6⟩
      exact ⟨(x, y), (x', y'), ⟨h1, h4⟩, ⟨h2, h5⟩, Prod.ext h3 h6⟩
    · rintro ⟨x, y, h1, h2, rfl⟩
      exact ⟨⟨_, _, h1.1, h2.1, rfl⟩, _, _, h1.2, h2.2, rfl⟩
  · simp [deconvolveRect, convolveRect, (C21_deconvolve _ _ 0).1]
  · simp [reflectedDeconvolveRect, reflectedConvolveRect, (C21_deconvolve _ _ 0).2.2.1]

/-- C24: the area is the product of the side lengths, non-negative, zero exactly for a
degenerate rectangle, additive over the two halves of `get_half` in any direction; the
perimeter is twice the sum of the side lengths. -/
theorem C24_area (r : Rect) (hr : WF2 r) (d : Nat) (hd : d < 4) :
    area r = (r.h.hi - r.h.lo) * (r.v.hi - r.v.lo) ∧ 0 ≤ area r ∧
    (area r = 0 ↔ r.h.lo = r.h.hi ∨ r.v.lo = r.v.hi) ∧
    area (getHalfRect r d) + area (getHalfRect r (dir2Backward d)) = area r ∧
    perimeter r = 2 * (r.h.hi - r.h.lo) + 2 * (r.v.hi - r.v.lo) := by
  have e : area r = (r.h.hi - r.h.lo) * (r.v.hi - r.v.lo) := rfl
  have hh := hr.1
  have hv := hr.2
  unfold WF at hh hv
  refine ⟨e, ?_, ?_, ?_, ?_⟩
  · rw [e]; exact mul_nonneg (by omega) (by omega)
  · rw [e, mul_eq_zero]; omega
  · have half : ∀ i : Ivl, WF i → delta (getHalf i 0) + delta (getHalf i 1) = delta i := by
      intro i hi
      obtain ⟨h1, h2, -⟩ := C21_center i hi
      have hc : i.lo + i.hi = i.hi + i.lo := by ring
      simp only [getHalf, construct, Ivl.get, LOW, HIGH, center, if_true, one_ne_zero, if_false, hc,
        delta] at *
      rw [if_neg (by omega), if_neg (by omega)]
      simp
    have a1 := half r.h hr.1
    have a2 := half r.v hr.2
    interval_cases d <;>
      simp only [getHalfRect, area, deltaRect, Rect.set, Rect.get, orientOfDir2, dir1OfDir2,
        dir2Backward, HORIZONTAL, VERTICAL] <;> simp <;> first | linear_combination (delta r.v) * a1 | linear_combination (delta r.h) * a2
  · simp only [perimeter, halfPerimeter, deltaRect, delta, Rect.get, HORIZONTAL, VERTICAL, if_true,
      one_ne_zero, if_false]
    ring

/-- C24: the two halves in opposite directions cover the rectangle. -/
theorem C24_get_half (r : Rect) (hr : WF2 r) (d : Nat) (hd : d < 4) (p : ℚ × ℚ) :
    Mem2 r p ↔ Mem2 (getHalfRect r d) p ∨ Mem2 (getHalfRect r (dir2Backward d)) p := by
  have a1 := (C21_get_half r.h hr.1 p.1).1
  have a2 := (C21_get_half r.v hr.2 p.2).1
  simp only [LOW, HIGH] at a1 a2
  interval_cases d <;>
    simp only [getHalfRect, Rect.set, Rect.get, orientOfDir2, dir1OfDir2, dir2Backward] <;>
    simp [Mem2] <;> tauto

/-- C24: `join_with` succeeds exactly when the rectangles abut along an equal full side, and
then denotes the union; otherwise nothing changes. -/
theorem C24_join_with (r b : Rect) (hr : WF2 r) (hb : WF2 b) :
    ((joinWithRect r b).2 = true → ∀ p, Mem2 (joinWithRect r b).1 p ↔ Mem2 r p ∨ Mem2 b p) ∧
    ((joinWithRect r b).2 = false → (joinWithRect r b).1 = r) ∧
    ((joinWithRect r b).2 = true ↔
      (r.h = b.h ∧ (r.v.hi = b.v.lo ∨ b.v.hi = r.v.lo)) ∨
      (r.v = b.v ∧ (r.h.hi = b.h.lo ∨ b.h.hi = r.h.lo))) := by
  obtain ⟨a1, a2, -⟩ := C21_join_with r.h b.h hr.1 hb.1
  obtain ⟨b1, b2, -⟩ := C21_join_with r.v b.v hr.2 hb.2
  unfold joinWithRect
  by_cases c1 : r.h = b.h ∧ (joinWith r.v b.v).2 = true
  · rw [if_pos (by simp [c1])]
    refine ⟨fun _ p => ?_, by simp, ?_⟩
    · simp only [Mem2, b2 c1.2, ← c1.1]; tauto
    · simp only [true_iff]; left; exact ⟨c1.1, b1.mp c1.2⟩
  · rw [if_neg (by simpa using c1)]
    by_cases c2 : r.v = b.v ∧ (joinWith r.h b.h).2 = true
    · rw [if_pos (by simp [c2])]
      refine ⟨fun _ p => ?_, by simp, ?_⟩
      · simp only [Mem2, a2 c2.2, ← c2.1]; tauto
      · simp only [true_iff]; right; exact ⟨c2.1, a1.mp c2.2⟩
    · rw [if_neg (by simpa using c2)]
      refine ⟨by simp, fun _ => rfl, ?_⟩
      simp only [Bool.false_eq_true, false_iff]
      rw [← a1, ← b1]
      tauto

/-- C24: bloating by `b ≥ 0` gives the points within Chebyshev distance `b`; shrinking gives
the points whose whole `b`-box is inside. -/
theorem C24_bloat_shrink (r : Rect) (hr : WF2 r) (b : Int) (hb : 0 ≤ b) (p : ℚ × ℚ) :
    (Mem2 (bloatRect r b) p ↔ ∃ q, Mem2 r q ∧ |p.1 - q.1| ≤ b ∧ |p.2 - q.2| ≤ b) ∧
    (Mem2 (shrinkRect r b) p ↔ ∀ q : ℚ × ℚ, |q.1 - p.1| ≤ b → |q.2 - p.2| ≤ b → Mem2 r q) := by
  have hb' : (0 : ℚ) ≤ b := by exact_mod_cast hb
  obtain ⟨a1, a2⟩ := C21_bloat_shrink r.h hr.1 b hb p.1
  obtain ⟨b1, b2⟩ := C21_bloat_shrink r.v hr.2 b hb p.2
  have e1 : bloatRect r b = ⟨bloat r.h b, bloat r.v b⟩ := rfl
  have e2 : shrinkRect r b = ⟨shrink r.h b, shrink r.v b⟩ := rfl
  rw [e1, e2]
  constructor
  · simp only [Mem2, a1, b1]
    constructor
    · rintro ⟨⟨x, h1, h2⟩, y, h3, h4⟩
      exact ⟨(x, y), ⟨h1, h3⟩, h2, h4⟩
    · rintro ⟨q, ⟨h1, h3⟩, h2, h4⟩
      exact ⟨⟨_, h1, h2⟩, _, h3, h4⟩
  · simp only [Mem2, a2, b2]
    constructor
    · rintro ⟨h1, h2⟩ q hq1 hq2
      exact ⟨h1 _ hq1, h2 _ hq2⟩
    · intro h
      exact ⟨fun x hx => (h (x, p.2) hx (by simpa using hb')).1,
        fun y hy => (h (p.1, y) (by simpa using hb') hy).2⟩

/-- C24: `scale_up` by a positive factor scales the point set; `transform` by an axis
transformation maps a point into the transformed rectangle exactly when it was in the
rectangle. -/
theorem C24_scale_up_transform (r : Rect) (f : Int) (hf : 0 < f) (p : ℚ × ℚ) (a : Nat)
    (ha : a < 8) (hr : WF2 r) (q : Int × Int) :
    (Mem2 (scaleUpRect r f) p ↔ Mem2 r (p.1 / f, p.2 / f)) ∧
    (containsPt (transformRect r a) (axisTransform a q) true = containsPt r q true) := by
  constructor
  · simp only [Mem2, scaleUpRect, (C21_flip_move_scale _ 0 0 f hf _).2.2]
  · obtain ⟨⟨hl, hh⟩, ⟨vl, vh⟩⟩ := r
    obtain ⟨x, y⟩ := q
    obtain ⟨h1, h2⟩ := hr
    unfold WF at h1 h2
    simp only at h1 h2
    rw [Bool.eq_iff_iff]
    interval_cases a <;>
      simp [containsPt, containsVal, transformRect, setPoints, construct, axisTransform, bit0, bit1,
        bit2, predicatedSwap] <;> split <;> split <;> simp <;> omega

/-- C24: `get_corner` returns the corner on the faced side and on the side one turns to. -/
theorem C24_get_corner (r : Rect) (d t : Nat) (hd : d < 4) (ht : t < 2) :
    (if orientOfDir2 d = 0 then (getCorner r d t).1 else (getCorner r d t).2) = r.side d ∧
    (if orientOfDir2 d = 0 then (getCorner r d t).2 else (getCorner r d t).1)
      = r.side (dir2Turn d t) := by
  interval_cases d <;> interval_cases t <;>
    simp [getCorner, orientOfDir2, dir2Turn]

/-- C24: `guess_orientation` names the direction of the longer side, horizontal for a square. -/
theorem C24_guess_orientation (r : Rect) :
    (guessOrientation r = HORIZONTAL ↔ r.v.hi - r.v.lo ≤ r.h.hi - r.h.lo) ∧
    (guessOrientation r = VERTICAL ↔ r.h.hi - r.h.lo < r.v.hi - r.v.lo) := by
  unfold guessOrientation
  have e1 : deltaRect r HORIZONTAL = r.h.hi - r.h.lo := rfl
  have e2 : deltaRect r VERTICAL = r.v.hi - r.v.lo := rfl
  rw [e1, e2]
  split_ifs with h <;> simp [HORIZONTAL, VERTICAL] <;> omega

example : guessOrientation ⟨⟨0, 3⟩, ⟨0, 4⟩⟩ = VERTICAL ∧ guessOrientation ⟨⟨0, 4⟩, ⟨0, 4⟩⟩ = HORIZONTAL := by decide

/-- C24 (violation): `scale(rectangle, scaling)` collapses every rectangle to the image of its
lower-left corner: even scaling by one turns a unit square into a point. -/
theorem C24_scale_violated : ∃ r, WF2 r ∧ area r ≠ 0 ∧ area (scaleRect r ⟨1, 1⟩) = 0 := by
  refine ⟨⟨⟨0, 1⟩, ⟨0, 1⟩⟩, ⟨by decide, by decide⟩, by decide, ?_⟩
  simp [scaleRect, setPoints, construct, area, deltaRect, delta, Rect.get, HORIZONTAL, VERTICAL]

/-- C24 (partial): in fact the scaled rectangle is *always* the degenerate rectangle at the
scaled lower-left corner; the full property holds only for rectangles that are points. -/
theorem C24_scale_partial (r : Rect) (s : Scale) :
    scaleRect r s = ⟨⟨(s.scale (r.h.lo, r.v.lo)).1, (s.scale (r.h.lo, r.v.lo)).1⟩,
      ⟨(s.scale (r.h.lo, r.v.lo)).2, (s.scale (r.h.lo, r.v.lo)).2⟩⟩ := by
  simp [scaleRect, setPoints, construct]

example : area ⟨⟨0, 3⟩, ⟨0, 4⟩⟩ = 12 ∧ getCorner ⟨⟨0, 3⟩, ⟨0, 4⟩⟩ EAST HIGH = (3, 4) ∧
    joinWithRect ⟨⟨0, 3⟩, ⟨0, 4⟩⟩ ⟨⟨3, 5⟩, ⟨0, 4⟩⟩ = (⟨⟨0, 5⟩, ⟨0, 4⟩⟩, true) := by decide

/-! ## C25: comparators -/

/-- Strict weak order: irreflexive, transitive, and incomparability is transitive
(C++ [alg.sorting]). -/
structure StrictWeak {α : Type} (lt : α → α → Bool) : Prop where
  irrefl : ∀ a, lt a a = false
  trans : ∀ a b c, lt a b = true → lt b c = true → lt a c = true
  incomp : ∀ a b c, lt a b = false → lt b a = false → lt b c = false → lt c b = false →
    lt a c = false ∧ lt c a = false

/-- C25: `point_data::operator<` is a strict weak order whose incomparability is equality. -/
theorem C25_point_less : StrictWeak ptLess ∧ ∀ p q, ptLess p q = false → ptLess q p = false → p = q := by
  refine ⟨⟨?_, ?_, ?_⟩, ?_⟩
  · rintro ⟨a, b⟩; simp [ptLess]
  · rintro ⟨a, b⟩ ⟨c, d⟩ ⟨e, f⟩; simp [ptLess]; omega
  · rintro ⟨a, b⟩ ⟨c, d⟩ ⟨e, f⟩; simp [ptLess]; omega
  · rintro ⟨a, b⟩ ⟨c, d⟩; simp [ptLess]; omega

/-- C25: `interval_data::operator<` likewise. -/
theorem C25_interval_less :
    StrictWeak Ivl.blt ∧ ∀ p q, Ivl.blt p q = false → Ivl.blt q p = false → p = q := by
  have e : ∀ p q : Ivl, Ivl.blt p q = true ↔ p.lo < q.lo ∨ (p.lo = q.lo ∧ p.hi < q.hi) := by
    intro p q; simp only [Ivl.blt]; split <;> simp_all <;> omega
  have e' : ∀ p q : Ivl, Ivl.blt p q = false ↔ ¬ (p.lo < q.lo ∨ (p.lo = q.lo ∧ p.hi < q.hi)) := by
    intro p q; rw [← e, Bool.not_eq_true]
  refine ⟨⟨?_, ?_, ?_⟩, ?_⟩
  · rintro ⟨a, b⟩; rw [e']; omega
  · rintro ⟨a, b⟩ ⟨c, d⟩ ⟨f, g⟩; simp only [e]; omega
  · rintro ⟨a, b⟩ ⟨c, d⟩ ⟨f, g⟩; simp only [e']; omega
  · rintro ⟨a, b⟩ ⟨c, d⟩; simp only [e', Ivl.mk.injEq]; omega

/-- C25: `less_rectangle_concept` in either orientation is a strict weak order, and
incomparable rectangles are equal. -/
theorem C25_rectangle_less (o : Nat) (ho : o < 2) :
    StrictWeak (lessRect o) ∧ ∀ p q, lessRect o p q = false → lessRect o q p = false → p = q := by
  have e : ∀ (o : Nat) (p q : Rect), lessRect o p q = true ↔
      (p.get o).lo < (q.get o).lo ∨ ((p.get o).lo = (q.get o).lo ∧
      ((p.get (perpendicular o)).lo < (q.get (perpendicular o)).lo ∨
      ((p.get (perpendicular o)).lo = (q.get (perpendicular o)).lo ∧
      ((p.get o).hi < (q.get o).hi ∨ ((p.get o).hi = (q.get o).hi ∧
        (p.get (perpendicular o)).hi < (q.get (perpendicular o)).hi))))) := by
    intro o p q
    simp only [lessRect, Ivl.get, LOW, HIGH, if_true, one_ne_zero, if_false]
    split
    · simp; omega
    · split
      · split
        · simp; omega
        · split
          · split
            · simp; omega
            · split
              · simp; omega
              · simp; omega
          · simp; omega
      · simp; omega
  have e' : ∀ (o : Nat) (p q : Rect), lessRect o p q = false ↔ ¬ (lessRect o p q = true) := by
    intro o p q; rw [Bool.not_eq_true]
  interval_cases o <;>
    (refine ⟨⟨?_, ?_, ?_⟩, ?_⟩ <;>
      simp only [e', e, Rect.get, perpendicular] <;>
      simp only [show (0 ^^^ 1 : Nat) = 1 from rfl, show (1 ^^^ 1 : Nat) = 0 from rfl, if_true, one_ne_zero, if_false]
     · intro a; omega
     · intro a b c; omega
     · intro a b c; omega
     · rintro ⟨⟨a1, a2⟩, ⟨a3, a4⟩⟩ ⟨⟨b1, b2⟩, ⟨b3, b4⟩⟩
       simp only [Rect.mk.injEq, Ivl.mk.injEq]; omega)

example : lessRect VERTICAL ⟨⟨0, 3⟩, ⟨0, 4⟩⟩ ⟨⟨0, 3⟩, ⟨0, 5⟩⟩ = true ∧ ptLess (0, 1) (0, 2) = true := by decide

end Verif.Properties.Rectangle
