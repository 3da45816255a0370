import Verif.Model.Resize
import Verif.Properties.RectForm
/-! Helper lemmas for C50. -/
namespace Verif.Resize
open Verif.BooleanOp Verif.Set90 Verif.Isotropy Verif.Interval Verif.Rectangle Verif.RectForm Verif.Spec
open Verif.Properties.RectForm Verif.Properties.Set90

variable {umin umax : Int}

/-- 1 if the rectangle contains the point. -/
def inR (p : ℚ × ℚ) (r : Rect) : Int := if InRect r p then 1 else 0

theorem inR_nonneg (p : ℚ × ℚ) (r : Rect) : 0 ≤ inR p r := by unfold inR; split_ifs <;> simp

theorem sum_inR_pos (p : ℚ × ℚ) (rs : List Rect) : 0 ≤ (rs.map (inR p)).sum ∧ (0 < (rs.map (inR p)).sum ↔ ∃ r ∈ rs, InRect r p) := by
  induction rs with
  | nil => simp
  | cons r t ih =>
    obtain ⟨i1, i2⟩ := ih
    have h0 := inR_nonneg p r
    rw [List.map_cons, List.sum_cons]
    refine ⟨by omega, ?_⟩
    simp only [List.mem_cons, exists_eq_or_imp, ← i2]
    by_cases h : InRect r p
    · have : inR p r = 1 := if_pos h
      simp only [h, true_or, iff_true]; omega
    · have : inR p r = 0 := if_neg h
      simp only [h, false_or]; omega

theorem foldl_insertRect {s : PSet} (h : Valid umin umax s) (hole : Bool) (rs : List Rect) (hr : ∀ r ∈ rs, RectIn umin umax r) :
    Valid umin umax (rs.foldl (fun s r => s.insertRect r hole) s) ∧
    (rs.foldl (fun s r => s.insertRect r hole) s).orient = s.orient ∧
    ∀ p, depth (rs.foldl (fun s r => s.insertRect r hole) s) p = depth s p + (if hole then -1 else 1) * (rs.map (inR p)).sum := by
  induction rs generalizing s with
  | nil => simp [h]
  | cons r t ih =>
    have hr0 := hr r List.mem_cons_self
    obtain ⟨i1, i2, i3⟩ := ih (insertRect_valid h r hole hr0) (fun q hq => hr q (List.mem_cons_of_mem _ hq))
    refine ⟨i1, by rw [List.foldl_cons, i2, insertRect_eq], fun p => ?_⟩
    unfold RectIn at hr0
    rw [List.foldl_cons, i3, insertRect_depth h.orient r hole (by omega) (by omega), List.map_cons, List.sum_cons]
    generalize (t.map (inR p)).sum = S
    have e : inR p r = if (r.h.lo : ℚ) ≤ p.1 ∧ p.1 < r.h.hi ∧ (r.v.lo : ℚ) ≤ p.2 ∧ p.2 < r.v.hi then 1 else 0 := rfl
    rw [e]
    by_cases h4 : (r.h.lo : ℚ) ≤ p.1 ∧ p.1 < r.h.hi ∧ (r.v.lo : ℚ) ≤ p.2 ∧ p.2 < r.v.hi
    · rw [if_pos h4, if_pos h4]
      cases hole <;> simp <;> omega
    · rw [if_neg h4, if_neg h4]
      simp

theorem depth_clear (s : PSet) (p : ℚ × ℚ) : depth s.clear p = 0 := by simp [depth_def, PSet.clear, coverZ]

/-- Convolution of rectangles is the Minkowski sum of half-open rectangle and closed sizing rectangle. -/
theorem convolve_iff (r : Rect) (a b c d : Int) (hab : a ≤ b) (hcd : c ≤ d) (hr : r.h.lo < r.h.hi ∧ r.v.lo < r.v.hi) (p : ℚ × ℚ) :
    InRect (convolveRect r ⟨⟨a, b⟩, ⟨c, d⟩⟩) p ↔
      ∃ q, InRect r q ∧ a ≤ p.1 - q.1 ∧ p.1 - q.1 ≤ b ∧ c ≤ p.2 - q.2 ∧ p.2 - q.2 ≤ d := by
  have one : ∀ (lo hi a b : Int) (x : ℚ), lo < hi → a ≤ b →
      (((lo + a : Int) : ℚ) ≤ x ∧ x < ((hi + b : Int) : ℚ) ↔ ∃ y : ℚ, lo ≤ y ∧ y < hi ∧ a ≤ x - y ∧ x - y ≤ b) := by
    intro lo hi a b x h1 h2
    have h1' : (lo : ℚ) < hi := by exact_mod_cast h1
    have h2' : (a : ℚ) ≤ b := by exact_mod_cast h2
    push_cast
    constructor
    · intro ⟨g1, g2⟩
      by_cases h3 : x - b ≤ lo
      · exact ⟨lo, le_refl _, h1', by linarith, by linarith⟩
      · exact ⟨x - b, by linarith, by linarith, by linarith, by linarith⟩
    · rintro ⟨y, g1, g2, g3, g4⟩
      exact ⟨by linarith, by linarith⟩
  unfold InRect convolveRect convolve
  dsimp only
  rw [← and_assoc, one _ _ _ _ _ hr.1 hab, one _ _ _ _ _ hr.2 hcd]
  constructor
  · rintro ⟨⟨x, h1, h2, h3, h4⟩, ⟨y, g1, g2, g3, g4⟩⟩
    exact ⟨(x, y), ⟨h1, h2, g1, g2⟩, h3, h4, g3, g4⟩
  · rintro ⟨q, ⟨h1, h2, g1, g2⟩, h3, h4, g3, g4⟩
    exact ⟨⟨q.1, h1, h2, h3, h4⟩, ⟨q.2, g1, g2, g3, g4⟩⟩

/-! ### rectangle formation does not look at the sign of the counts -/

/-- Negated count. -/
def negV (v : V) : V := ⟨v.x, v.y, -v.c⟩

theorem formGo_neg (D : List V) (cur : Int) (st : St) : formGo (D.map negV) cur st = formGo D cur st := by
  induction hn : D.length using Nat.strong_induction_on generalizing D cur st with
  | _ n ih =>
    match D with
    | [] => rfl
    | [_] => rfl
    | v :: w :: r =>
      simp only [List.map_cons, formGo]
      have e1 : ∀ cur st, formGo (negV w :: r.map negV) cur st = formGo (w :: r) cur st := fun cur st =>
        ih (r.length + 1) (by simp at hn; omega) (w :: r) cur st rfl
      have e2 : ∀ cur st, formGo (r.map negV) cur st = formGo r cur st := fun cur st =>
        ih r.length (by simp at hn; omega) r cur st rfl
      simp only [e1, e2]
      simp only [negV, Int.natAbs_neg]
      rfl

theorem coverZ_neg (L : List V) (a y : Int) : coverZ (L.map negV) a y = -coverZ L a y := by
  induction L with
  | nil => rfl
  | cons v t ih => rw [List.map_cons, coverZ_cons, coverZ_cons, ih]; simp only [negV]; split_ifs <;> omega

theorem closed_neg {L : List V} (h : Closed L) : Closed (L.map negV) := by
  refine closed_of_cover ?_ ?_
  · obtain ⟨x0, hx⟩ := cover_right h
    exact ⟨x0, fun a y ha => by rw [coverZ_neg, hx a y ha]; rfl⟩
  · obtain ⟨x0, hx⟩ := cover_top h
    exact ⟨x0, fun a y ha => by rw [coverZ_neg, hx a y ha]; rfl⟩

/-- Form rectangles from data that covers 0 or -1 times. -/
theorem formRects_neg (umax : Int) {D : List V} (hs : D.Pairwise VLex) (h1 : ∀ v ∈ D, v.c = 1 ∨ v.c = -1)
    (h2 : ∀ v ∈ D, ∀ w ∈ D, v.x = w.x → v.y = w.y → v.c = w.c) (h3 : ∀ x y, coverZ D x y = 0 ∨ coverZ D x y = -1) (hcl : Closed D) :
    ∃ rs, formRects umax D = some rs ∧ (∀ r ∈ rs, r.pl < r.ph ∧ r.lo < r.hi) ∧ ∀ x y, sm (oc x y) rs = -coverZ D x y := by
  have hs' : (D.map negV).Pairwise VLex := by
    rw [List.pairwise_map]
    refine (List.Pairwise.and_mem.mp hs).imp ?_
    rintro a b ⟨ha, hb, hab⟩
    have := h2 a ha b hb
    unfold VLex at *
    simp only [negV]
    rcases hab with h | ⟨h, h' | ⟨h', h''⟩⟩
    · exact Or.inl h
    · exact Or.inr ⟨h, Or.inl h'⟩
    · exact Or.inr ⟨h, Or.inr ⟨h', by rw [this h h']⟩⟩
  have hf : Flat (D.map negV) := by
    refine ⟨?_, ?_, fun x y => ?_⟩
    · intro v hv
      obtain ⟨w, hw, rfl⟩ := List.mem_map.mp hv
      have := h1 w hw
      simp only [negV]; omega
    · intro v hv v' hv' hx hy
      obtain ⟨w, hw, rfl⟩ := List.mem_map.mp hv
      obtain ⟨w', hw', rfl⟩ := List.mem_map.mp hv'
      simp only [negV] at *
      rw [h2 w hw w' hw' hx hy]
    · rw [cover_eq, coverZ_neg]
      have := h3 ⌊x⌋ ⌊y⌋
      omega
  obtain ⟨rs, e, g1, g2, -⟩ := formRects_spec umax hs' hf (closed_neg hcl)
  refine ⟨rs, ?_, g1, fun x y => by rw [g2, coverZ_neg]⟩
  rw [← e]
  unfold formRects
  rw [formGo_neg]

/-! ### extents -/

theorem extents_facts {s : PSet} (h : Valid umin umax s) :
    ∃ res t, s.extents umax = some (res, t) ∧ s.clean umax = some t ∧ Valid umin umax t ∧ t.orient = s.orient ∧ t.dirty = false ∧
      (∀ p, depth t p = if 0 < depth s p then 1 else 0) ∧ (res = none → ∀ p, ¬ Covers s p) ∧
      ∀ r, res = some r → (∀ p, Covers s p → r.h.lo ≤ p.1 ∧ p.1 ≤ r.h.hi ∧ r.v.lo ≤ p.2 ∧ p.2 ≤ r.v.hi) ∧
        r.h.lo ≤ r.h.hi ∧ r.v.lo ≤ r.v.hi ∧
        (∀ v ∈ t.data, r.h.lo ≤ (pointOf t.orient v).1 ∧ (pointOf t.orient v).1 ≤ r.h.hi ∧
          r.v.lo ≤ (pointOf t.orient v).2 ∧ (pointOf t.orient v).2 ≤ r.v.hi) ∧
        ∀ lo hi : Int, InRange lo hi s.data → RectIn lo hi r := by
  obtain ⟨res, t, e, e1, e2⟩ := C12_extents h
  obtain ⟨t', e', v, o, d, u, c⟩ := clean_spec' h
  obtain ⟨t'', e'', c''⟩ := C03_clean h
  rw [e'] at e''; cases e''
  have ht : t' = t := by
    have e3 := e
    unfold PSet.extents at e3
    rw [e'] at e3
    simp only [Option.bind_eq_bind, Option.bind_some] at e3
    split at e3 <;> · simp at e3; exact e3.2
  subst ht
  refine ⟨res, t', e, e', v, o, d, fun p => c'' p, e1.mp, fun r hr => ?_⟩
  have hcov := fun x1 x2 y1 y2 => e2 r hr x1 x2 y1 y2
  have hbox : BBox r (t'.data.map (pointOf t'.orient)) := by
    have e3 := e
    unfold PSet.extents at e3
    rw [e'] at e3
    simp only [Option.bind_eq_bind, Option.bind_some] at e3
    split at e3
    · simp at e3; rw [hr] at e3; simp at e3
    · rename_i w L hd
      simp at e3
      rw [hr] at e3
      simp only [Option.some.injEq] at e3
      have hb := extents_bbox (v := w) (r := L) (pointOf t'.orient)
      rw [e3] at hb
      rw [hd]; exact hb
  have h1 := (hcov r.h.lo r.h.hi r.v.lo r.v.hi).mpr ⟨le_refl _, le_refl _, le_refl _, le_refl _⟩
  have h2 : ∀ v ∈ t'.data, r.h.lo ≤ (pointOf t'.orient v).1 ∧ (pointOf t'.orient v).1 ≤ r.h.hi ∧
          r.v.lo ≤ (pointOf t'.orient v).2 ∧ (pointOf t'.orient v).2 ≤ r.v.hi := fun v hv =>
    hbox.1 _ (List.mem_map.mpr ⟨v, hv, rfl⟩)
  obtain ⟨q, hq, -⟩ := hbox.2.1
  obtain ⟨w, hw, rfl⟩ := List.mem_map.mp hq
  have h3 := h2 w hw
  refine ⟨h1, by omega, by omega, h2, fun lo hi hin => ?_⟩
  have hv' : Valid lo hi s := ⟨h.orient, h.sorted, h.clean, h.closed, hin⟩
  have := (hcov lo hi lo hi).mp (fun p hp => by
    unfold Covers at hp
    rw [← depth_floor] at hp
    by_contra hn
    have hz := depth_out hv' (a := ⌊p.1⌋) (b := ⌊p.2⌋) (by
      by_contra hm
      push Not at hm
      obtain ⟨m1, m2, m3, m4⟩ := hm
      rw [Int.le_floor] at m1 m3
      rw [Int.floor_lt] at m2 m4
      exact hn ⟨m1, m2.le, m3, m4.le⟩)
    omega)
  obtain ⟨t1, t2, t3, t4⟩ := this
  unfold RectIn
  have t1 : lo ≤ r.h.lo := by exact_mod_cast t1
  have t2 : r.h.hi ≤ hi := by exact_mod_cast t2
  have t3 : lo ≤ r.v.lo := by exact_mod_cast t3
  have t4 : r.v.hi ≤ hi := by exact_mod_cast t4
  omega

/-- The complement of a clean set inside a rectangle strictly around it, as rectangles. -/
theorem complement_rects {t : PSet} (v : Valid umin umax t) (hd : t.dirty = false) {B : Rect} (hB : RectIn umin umax B)
    (hne : B.h.lo < B.h.hi ∧ B.v.lo < B.v.hi)
    (hv : ∀ w ∈ t.data, B.h.lo < (pointOf t.orient w).1 ∧ (pointOf t.orient w).1 < B.h.hi ∧
          B.v.lo < (pointOf t.orient w).2 ∧ (pointOf t.orient w).2 < B.v.hi)
    (hc : ∀ p, Covers t p → InRect B p) :
    ∃ rs, formRects umax (t.insertRect B true).sort.data = some rs ∧
      (∀ r ∈ rs.map (SR.toRect t.orient), r.h.lo < r.h.hi ∧ r.v.lo < r.v.hi) ∧
      ∀ p, (∃ r ∈ rs.map (SR.toRect t.orient), InRect r p) ↔ InRect B p ∧ ¬ Covers t p := by
  have hv1 := insertRect_valid v B true hB
  have hu := hv1.sort
  obtain ⟨f1, f2, f3, f4⟩ := sort_facts (t.insertRect B true)
  have hB' := hB
  unfold RectIn at hB'
  have fl := v.clean hd
  have hdep : ∀ p, depth (t.insertRect B true).sort p = depth t p - inR p B := fun p => by
    rw [sort_depth, insertRect_depth v.orient B true (by omega) (by omega)]
    have e : inR p B = if (B.h.lo : ℚ) ≤ p.1 ∧ p.1 < B.h.hi ∧ (B.v.lo : ℚ) ≤ p.2 ∧ p.2 < B.v.hi then 1 else 0 := rfl
    rw [e]; split_ifs <;> first | omega | contradiction
  have h01 : ∀ p, depth t p = 0 ∨ depth t p = 1 := fun p => by
    unfold depth; split_ifs
    · exact fl.2.2 _ _
    · exact fl.2.2 _ _
  have hval : ∀ p, depth (t.insertRect B true).sort p = 0 ∨ depth (t.insertRect B true).sort p = -1 := fun p => by
    rw [hdep]
    by_cases hp : Covers t p
    · have : inR p B = 1 := if_pos (hc p hp)
      have := h01 p; unfold Covers at hp; omega
    · have := h01 p; unfold Covers at hp
      unfold inR; split_ifs <;> omega
  have mem : ∀ w ∈ (t.insertRect B true).sort.data, w ∈ t.data ∨ w ∈ rectVertices B t.orient true := fun w hw => by
    have := f4.mem_iff.mp hw
    rw [insertRect_eq] at this
    simpa using this
  have ho : (t.insertRect B true).sort.orient = t.orient := by rw [f1, insertRect_eq]
  obtain ⟨rs, e, g1, g2⟩ := formRects_neg umax (hu.sorted f3) (fun w hw => by
      rcases mem w hw with h | h
      · exact fl.1 w h
      · simp [rectVertices] at h
        rcases h with rfl | rfl | rfl | rfl <;> dsimp only <;> omega)
    (fun w hw w' hw' hx hy => by
      have hcorner : ∀ w ∈ t.data, ∀ w' ∈ rectVertices B t.orient true, w.x = w'.x → w.y = w'.y → False := by
        intro w h w' h' hx hy
        have := hv w h
        rcases v.orient with o | o
        all_goals
          simp [rectVertices, o, HORIZONTAL, VERTICAL, perpendicular, Rect.get] at h'
          simp [pointOf, o, HORIZONTAL, VERTICAL] at this
          rcases h' with rfl | rfl | rfl | rfl <;> dsimp only at hx hy <;> omega
      rcases mem w hw with h | h <;> rcases mem w' hw' with h' | h'
      · exact fl.2.1 w h w' h' hx hy
      · exact (hcorner w h w' h' hx hy).elim
      · exact (hcorner w' h' w h hx.symm hy.symm).elim
      · rcases v.orient with o | o
        all_goals
          simp [rectVertices, o, HORIZONTAL, VERTICAL, perpendicular, Rect.get] at h h'
          rcases h with rfl | rfl | rfl | rfl <;> rcases h' with rfl | rfl | rfl | rfl <;> dsimp only at hx hy ⊢ <;> omega)
    (fun x y => by
      have hp := hval (x, y)
      have hp' := hval (y, x)
      rw [depth_def, ho] at hp hp'
      simp only [Int.floor_intCast] at hp hp'
      split_ifs at hp hp'
      · exact hp
      · exact hp') hu.closed
  have hsum : ∀ p : ℚ × ℚ, ((rs.map (SR.toRect t.orient)).map (inC ⌊p.1⌋ ⌊p.2⌋)).sum = inR p B - depth t p := fun p => by
    rw [toRect_sum _ v.orient, g2, g2]
    have := hdep p
    rw [depth_def, ho] at this
    split_ifs at this ⊢ <;> omega
  refine ⟨rs, e, fun r hr => ?_, fun p => ?_⟩
  · obtain ⟨q, hq, rfl⟩ := List.mem_map.mp hr
    have := g1 q hq
    unfold SR.toRect
    split_ifs
    · exact ⟨this.2, this.1⟩
    · exact this
  · have hs := hsum p
    constructor
    · rintro ⟨r, hr, h⟩
      have := inC_pos_of_mem hr ⌊p.1⌋ ⌊p.2⌋
      rw [(inC_iff r p).mpr h, hs] at this
      have := h01 p
      unfold Covers
      by_cases hb : InRect B p
      · refine ⟨hb, ?_⟩
        have : inR p B = 1 := if_pos hb
        omega
      · have : inR p B = 0 := if_neg hb
        omega
    · rintro ⟨hb, hn⟩
      have h1 : inR p B = 1 := if_pos hb
      have := h01 p
      unfold Covers at hn
      obtain ⟨r, hr, h⟩ := exists_of_sum (rs := rs.map (SR.toRect t.orient)) (a := ⌊p.1⌋) (b := ⌊p.2⌋) (by omega)
      exact ⟨r, hr, (inC_iff r p).mp h⟩

end Verif.Resize
