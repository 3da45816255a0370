import Verif.Proofs.CutSnap
import Verif.Proofs.CutDeform
import Mathlib.Data.Real.Archimedean
/-! With exact arithmetic the pieces of different segments meet only in common end points. -/
namespace Verif.Cut
open Verif Verif.Arb Verif.Contains Verif.PolySet Verif.Spec Verif.Spec.Arb Verif.Deform

/-- A lattice point in the real plane. -/
def rp (p : Pt) : ℝ × ℝ := (p.1, p.2)
/-- A rational point in the real plane. -/
def rq (q : ℚ × ℚ) : ℝ × ℝ := (q.1, q.2)
/-- The point of a segment at a parameter. -/
def at' (e : HE) (t : ℝ) : ℝ × ℝ := lin (rp e.1) (rp e.2) t
/-- The corner of a real point. -/
noncomputable def flr (x : ℝ × ℝ) : Pt := (⌊x.1⌋, ⌊x.2⌋)

theorem flr_iff (x : ℝ × ℝ) (p : Pt) : flr x = p ↔ (p.1 : ℝ) ≤ x.1 ∧ x.1 < p.1 + 1 ∧ (p.2 : ℝ) ≤ x.2 ∧ x.2 < p.2 + 1 := by
  unfold flr
  rw [Prod.ext_iff]
  dsimp only
  rw [Int.floor_eq_iff, Int.floor_eq_iff, and_assoc]

/-- The segment meets the unit square of the point at the parameter. -/
def Hit (e : HE) (p : Pt) (t : ℝ) : Prop := 0 ≤ t ∧ t ≤ 1 ∧ flr (at' e t) = p

theorem hit_of {e : HE} {p : Pt} (h : HitsSquare e p) : ∃ t, Hit e p t := by
  obtain ⟨q, ⟨t, t0, t1, hx, hy⟩, x1, x2, y1, y2⟩ := h
  refine ⟨(t : ℝ), by exact_mod_cast t0, by exact_mod_cast t1, ?_⟩
  rw [flr_iff]
  have ex : (at' e (t : ℝ)).1 = ((q.1 : ℚ) : ℝ) := by unfold at' lin rp; rw [hx]; push_cast; ring
  have ey : (at' e (t : ℝ)).2 = ((q.2 : ℚ) : ℝ) := by unfold at' lin rp; rw [hy]; push_cast; ring
  rw [ex, ey]
  exact ⟨by exact_mod_cast x1, by exact_mod_cast x2, by exact_mod_cast y1, by exact_mod_cast y2⟩

/-- Linear conditions with rational coefficients that have a real solution have a rational one. -/
theorem of_hit {e : HE} {p : Pt} {t : ℝ} (h : Hit e p t) : HitsSquare e p := by
  obtain ⟨t0, t1, hf⟩ := h
  rw [flr_iff] at hf
  unfold at' lin rp at hf
  dsimp only at hf
  obtain ⟨x1, x2, y1, y2⟩ := hf
  -- a rational parameter
  suffices ∃ r : ℚ, (0 : ℝ) ≤ r ∧ (r : ℝ) ≤ 1 ∧ (p.1 : ℝ) ≤ e.1.1 + r * (e.2.1 - e.1.1) ∧ (e.1.1 : ℝ) + r * (e.2.1 - e.1.1) < p.1 + 1 ∧
      (p.2 : ℝ) ≤ e.1.2 + r * (e.2.2 - e.1.2) ∧ (e.1.2 : ℝ) + r * (e.2.2 - e.1.2) < p.2 + 1 by
    obtain ⟨r, r0, r1, a1, a2, b1, b2⟩ := this
    exact ⟨((e.1.1 : ℚ) + r * (e.2.1 - e.1.1), (e.1.2 : ℚ) + r * (e.2.2 - e.1.2)),
      ⟨r, by exact_mod_cast r0, by exact_mod_cast r1, rfl, rfl⟩, by exact_mod_cast a1, by exact_mod_cast a2, by exact_mod_cast b1, by exact_mod_cast b2⟩
  by_cases hr : ∃ r : ℚ, (r : ℝ) = t
  · obtain ⟨r, rfl⟩ := hr
    exact ⟨r, t0, t1, x1, x2, y1, y2⟩
  · have ne : ∀ (a b c : Int), b ≠ a → (c : ℝ) ≠ a + t * (b - a) := by
      intro a b c hab h
      apply hr
      refine ⟨((c - a : Int) : ℚ) / ((b - a : Int) : ℚ), ?_⟩
      have : ((b : ℝ) - a) ≠ 0 := by
        have : b - a ≠ 0 := by omega
        exact_mod_cast this
      push_cast
      rw [div_eq_iff this]
      linarith
    have cont : ∀ a b : Int, Continuous (fun s : ℝ => (a : ℝ) + s * (b - a)) := by intro a b; fun_prop
    have lower : ∀ a b c : Int, (c : ℝ) ≤ a + t * (b - a) → ∀ᶠ s in nhds t, (c : ℝ) ≤ a + s * (b - a) := by
      intro a b c h
      by_cases hab : b = a
      · subst hab
        filter_upwards with s
        have : ((b : ℝ) - b) = 0 := by ring
        rw [this] at h ⊢; linarith
      · have hlt : (c : ℝ) < a + t * (b - a) := lt_of_le_of_ne h (ne a b c hab)
        exact ((cont a b).tendsto t).eventually_const_le hlt
    have upper : ∀ a b : Int, ∀ c : ℝ, a + t * (b - a) < c → ∀ᶠ s in nhds t, (a : ℝ) + s * (b - a) < c := by
      intro a b c h
      exact ((cont a b).tendsto t).eventually_lt_const h
    have z0 : ∀ᶠ s : ℝ in nhds t, 0 ≤ s := by
      have hne : (0 : ℝ) ≠ t := fun h => hr ⟨0, by rw [← h]; simp⟩
      exact eventually_ge_nhds (lt_of_le_of_ne t0 hne)
    have z1 : ∀ᶠ s : ℝ in nhds t, s ≤ 1 := by
      have hne : t ≠ (1 : ℝ) := fun h => hr ⟨1, by rw [h]; simp⟩
      exact eventually_le_nhds (lt_of_le_of_ne t1 hne)
    have all := z0.and (z1.and ((lower _ _ _ x1).and ((upper _ _ _ x2).and ((lower _ _ _ y1).and (upper _ _ _ y2)))))
    obtain ⟨r, hr'⟩ := Rat.denseRange_cast.mem_nhds all
    exact ⟨r, hr'.1, hr'.2.1, hr'.2.2.1, hr'.2.2.2.1, hr'.2.2.2.2.1, hr'.2.2.2.2.2⟩

/-- Along a segment the corners move in the direction of the segment. -/
theorem corner_mono {e : HE} (hd : Directed e) {s t : ℝ} (h : s ≤ t) : flr (at' e s) = flr (at' e t) ∨ along e (flr (at' e s)) (flr (at' e t)) := by
  have mono : ∀ a b : Int, a ≤ b → ⌊(a : ℝ) + s * (b - a)⌋ ≤ ⌊(a : ℝ) + t * (b - a)⌋ := by
    intro a b hab
    apply Int.floor_le_floor
    have : (0 : ℝ) ≤ (b : ℝ) - a := by
      have : (a : ℝ) ≤ b := by exact_mod_cast hab
      linarith
    nlinarith
  have anti : ∀ a b : Int, b ≤ a → ⌊(a : ℝ) + t * (b - a)⌋ ≤ ⌊(a : ℝ) + s * (b - a)⌋ := by
    intro a b hab
    apply Int.floor_le_floor
    have : (b : ℝ) - a ≤ 0 := by
      have : (b : ℝ) ≤ a := by exact_mod_cast hab
      linarith
    nlinarith
  have key : flr (at' e s) = (⌊(e.1.1 : ℝ) + s * (e.2.1 - e.1.1)⌋, ⌊(e.1.2 : ℝ) + s * (e.2.2 - e.1.2)⌋) := rfl
  have key' : flr (at' e t) = (⌊(e.1.1 : ℝ) + t * (e.2.1 - e.1.1)⌋, ⌊(e.1.2 : ℝ) + t * (e.2.2 - e.1.2)⌋) := rfl
  rw [key, key']
  have hx := mono e.1.1 e.2.1 (by unfold Spec.Arb.Directed at hd; omega)
  unfold along
  by_cases c : Falls e
  · have hy := anti e.1.2 e.2.2 (by unfold Spec.Arb.Directed at hd; unfold Falls at c; omega)
    generalize ⌊(e.1.1 : ℝ) + s * (e.2.1 - e.1.1)⌋ = a at *
    generalize ⌊(e.1.1 : ℝ) + t * (e.2.1 - e.1.1)⌋ = b at *
    generalize ⌊(e.1.2 : ℝ) + s * (e.2.2 - e.1.2)⌋ = a' at *
    generalize ⌊(e.1.2 : ℝ) + t * (e.2.2 - e.1.2)⌋ = b' at *
    by_cases h1 : a = b ∧ a' = b'
    · left; rw [h1.1, h1.2]
    · right; left; refine ⟨c, ?_⟩; unfold dlt; dsimp only; omega
  · have hy := mono e.1.2 e.2.2 (by unfold Spec.Arb.Directed at hd; unfold Falls at c; omega)
    generalize ⌊(e.1.1 : ℝ) + s * (e.2.1 - e.1.1)⌋ = a at *
    generalize ⌊(e.1.1 : ℝ) + t * (e.2.1 - e.1.1)⌋ = b at *
    generalize ⌊(e.1.2 : ℝ) + s * (e.2.2 - e.1.2)⌋ = a' at *
    generalize ⌊(e.1.2 : ℝ) + t * (e.2.2 - e.1.2)⌋ = b' at *
    by_cases h1 : a = b ∧ a' = b'
    · left; rw [h1.1, h1.2]
    · right; right; refine ⟨c, ?_⟩; unfold plt; dsimp only; omega

/-- Consecutive points of the chain of a segment. -/
structure Piece (E : List HE) (e : HE) (u v : Pt) : Prop where
  mem : e ∈ E
  dir : Directed e
  lt : along e u v
  hu : Hot E u
  hv : Hot E v
  su : HitsSquare e u
  sv : HitsSquare e v
  no : ∀ w, Hot E w → HitsSquare e w → ¬ (along e u w ∧ along e w v)

theorem lin_lin (e : HE) (s t b : ℝ) : lin (at' e s) (at' e t) b = at' e (s + b * (t - s)) := by
  unfold at' lin
  apply Prod.ext
  · dsimp only; ring
  · dsimp only; ring

theorem piece_between {E : List HE} {e : HE} {u v w : Pt} (h : Piece E e u v) {s t b : ℝ} (hs : Hit e u s) (ht : Hit e v t) (hw : Hot E w)
    (b0 : 0 ≤ b) (b1 : b ≤ 1) (hb : flr (lin (at' e s) (at' e t) b) = w) : w = u ∨ w = v := by
  have hst : s ≤ t := by
    by_contra hc
    push Not at hc
    rcases corner_mono h.dir hc.le with g | g
    · rw [hs.2.2, ht.2.2] at g
      have := h.lt; rw [g] at this; exact along_asymm e _ _ this this
    · rw [hs.2.2, ht.2.2] at g; exact along_asymm e _ _ h.lt g
  rw [lin_lin] at hb
  have m1 : s ≤ s + b * (t - s) := by nlinarith
  have m2 : s + b * (t - s) ≤ t := by nlinarith
  have hh : Hit e w (s + b * (t - s)) := ⟨le_trans hs.1 m1, le_trans m2 ht.2.1, hb⟩
  have k1 := corner_mono h.dir m1
  have k2 := corner_mono h.dir m2
  rw [hs.2.2, hb] at k1
  rw [ht.2.2, hb] at k2
  rcases k1 with k1 | k1
  · exact Or.inl k1.symm
  · rcases k2 with k2 | k2
    · exact Or.inr k2
    · exact absurd ⟨k1, k2⟩ (h.no w hw (of_hit hh))

/-- The offset of a hit from the corner. -/
noncomputable def off (e : HE) (u : Pt) (t : ℝ) : ℝ × ℝ := ((at' e t).1 - u.1, (at' e t).2 - u.2)

theorem off_range {e : HE} {u : Pt} {t : ℝ} (h : Hit e u t) : 0 ≤ (off e u t).1 ∧ (off e u t).1 < 1 ∧ 0 ≤ (off e u t).2 ∧ (off e u t).2 < 1 := by
  obtain ⟨_, _, hf⟩ := h
  rw [flr_iff] at hf
  unfold off
  dsimp only
  obtain ⟨h1, h2, h3, h4⟩ := hf
  exact ⟨by linarith, by linarith, by linarith, by linarith⟩

theorem mv_one (e : HE) (u : Pt) (t : ℝ) : mv (rp u) (off e u t) 1 = at' e t := by
  unfold mv rp off; apply Prod.ext
  · dsimp only; ring
  · dsimp only; ring

/-- A hot point that comes to lie on a moving piece is an end of it. -/
theorem piece_touch {E : List HE} {e : HE} {u v w : Pt} (h : Piece E e u v) {s t : ℝ} (hs : Hit e u s) (ht : Hit e v t) (hw : Hot E w) {o : ℝ × ℝ}
    (ho : 0 ≤ o.1 ∧ o.1 < 1 ∧ 0 ≤ o.2 ∧ o.2 < 1) {r : ℝ} (r0 : 0 ≤ r) (r1 : r ≤ 1)
    (hon : On (mv (rp w) o r) (mv (rp u) (off e u s) r) (mv (rp v) (off e v t) r)) : w = u ∨ w = v := by
  obtain ⟨b, b0, b1, hb⟩ := hon
  refine piece_between h hs ht hw b0 b1 ?_
  rw [flr_iff]
  obtain ⟨a1, a2, a3, a4⟩ := off_range hs
  obtain ⟨c1, c2, c3, c4⟩ := off_range ht
  obtain ⟨o1, o2, o3, o4⟩ := ho
  have ex : (lin (at' e s) (at' e t) b).1 = w.1 + (r * o.1 + (1 - r) * ((1 - b) * (off e u s).1 + b * (off e v t).1)) := by
    have := congrArg Prod.fst hb
    unfold mv lin rp at this
    dsimp only at this
    unfold lin
    dsimp only
    have e1 : (at' e s).1 = u.1 + (off e u s).1 := by unfold off; ring
    have e2 : (at' e t).1 = v.1 + (off e v t).1 := by unfold off; ring
    rw [e1, e2]
    linear_combination -this
  have ey : (lin (at' e s) (at' e t) b).2 = w.2 + (r * o.2 + (1 - r) * ((1 - b) * (off e u s).2 + b * (off e v t).2)) := by
    have := congrArg Prod.snd hb
    unfold mv lin rp at this
    dsimp only at this
    unfold lin
    dsimp only
    have e1 : (at' e s).2 = u.2 + (off e u s).2 := by unfold off; ring
    have e2 : (at' e t).2 = v.2 + (off e v t).2 := by unfold off; ring
    rw [e1, e2]
    linear_combination -this
  have conv : ∀ x y : ℝ, 0 ≤ x → x < 1 → 0 ≤ y → y < 1 → ∀ b : ℝ, 0 ≤ b → b ≤ 1 → 0 ≤ (1 - b) * x + b * y ∧ (1 - b) * x + b * y < 1 := by
    intro x y x0 x1 y0 y1 b b0 b1
    constructor
    · have := mul_nonneg (sub_nonneg.2 b1) x0
      have := mul_nonneg b0 y0
      linarith
    · rcases b0.lt_or_eq with g | g
      · nlinarith
      · subst g; linarith
  have mx := conv _ _ a1 a2 c1 c2 b b0 b1
  have my := conv _ _ a3 a4 c3 c4 b b0 b1
  have nx := conv _ _ mx.1 mx.2 o1 o2 r r0 r1
  have ny := conv _ _ my.1 my.2 o3 o4 r r0 r1
  rw [ex, ey]
  exact ⟨by linarith [nx.1], by linarith [nx.2], by linarith [ny.1], by linarith [ny.2]⟩

theorem piece_on {E : List HE} {e : HE} {u v w : Pt} (h : Piece E e u v) (hw : Hot E w) (hon : On (rp w) (rp u) (rp v)) : w = u ∨ w = v := by
  obtain ⟨s, hs⟩ := hit_of h.su
  obtain ⟨t, ht⟩ := hit_of h.sv
  refine piece_touch h hs ht hw (o := (0, 0)) ⟨le_refl _, by norm_num, le_refl _, by norm_num⟩ (r := 0) (le_refl _) zero_le_one ?_
  have : ∀ a o, mv a o 0 = a := by intro a o; unfold mv; ext <;> simp
  rw [this, this, this]; exact hon

/-- The common point of segments with different directions is rational. -/
theorem common_rational {a b : HE} (hc : cr a b ≠ 0) {s t : ℝ} (s0 : 0 ≤ s) (s1 : s ≤ 1) (t0 : 0 ≤ t) (t1 : t ≤ 1) (h : at' a s = at' b t) :
    ∃ q, OnEdge a q ∧ OnEdge b q ∧ rq q = at' a s := by
  have hcr : ((cr a b : Int) : ℝ) ≠ 0 := by exact_mod_cast hc
  have hcq : ((cr a b : Int) : ℚ) ≠ 0 := by exact_mod_cast hc
  unfold at' lin rp at h
  rw [Prod.mk.injEq] at h
  obtain ⟨h1, h2⟩ := h
  dsimp only at h1 h2
  have hs : s = (((b.1.1 - a.1.1) * (b.2.2 - b.1.2) - (b.2.1 - b.1.1) * (b.1.2 - a.1.2) : Int) : ℝ) / ((cr a b : Int) : ℝ) := by
    rw [eq_div_iff hcr]; unfold cr; push_cast
    linear_combination ((b.2.2 : ℝ) - b.1.2) * h1 - ((b.2.1 : ℝ) - b.1.1) * h2
  have ht : t = (((b.1.1 - a.1.1) * (a.2.2 - a.1.2) - (a.2.1 - a.1.1) * (b.1.2 - a.1.2) : Int) : ℝ) / ((cr a b : Int) : ℝ) := by
    rw [eq_div_iff hcr]; unfold cr; push_cast
    linear_combination ((a.2.2 : ℝ) - a.1.2) * h1 - ((a.2.1 : ℝ) - a.1.1) * h2
  obtain ⟨s', hs'⟩ : ∃ s' : ℚ, s = (s' : ℝ) :=
    ⟨(((b.1.1 - a.1.1) * (b.2.2 - b.1.2) - (b.2.1 - b.1.1) * (b.1.2 - a.1.2) : Int) : ℚ) / ((cr a b : Int) : ℚ), by rw [hs]; push_cast; rfl⟩
  obtain ⟨t', ht'⟩ : ∃ t' : ℚ, t = (t' : ℝ) :=
    ⟨(((b.1.1 - a.1.1) * (a.2.2 - a.1.2) - (a.2.1 - a.1.1) * (b.1.2 - a.1.2) : Int) : ℚ) / ((cr a b : Int) : ℚ), by rw [ht]; push_cast; rfl⟩
  clear hs ht
  subst hs' ht'
  refine ⟨((a.1.1 : ℚ) + s' * (a.2.1 - a.1.1), (a.1.2 : ℚ) + s' * (a.2.2 - a.1.2)), ⟨s', by exact_mod_cast s0, by exact_mod_cast s1, rfl, rfl⟩, ?_, ?_⟩
  · exact ⟨t', by exact_mod_cast t0, by exact_mod_cast t1, by dsimp only; exact_mod_cast h1, by dsimp only; exact_mod_cast h2⟩
  · unfold rq at' lin rp; apply Prod.ext
    · dsimp only; push_cast; ring
    · dsimp only; push_cast; ring

theorem flr_rq (q : ℚ × ℚ) : flr (rq q) = fl q := by
  unfold flr rq fl; apply Prod.ext
  · dsimp only; exact Rat.floor_cast _
  · dsimp only; exact Rat.floor_cast _

/-- Pieces that meet have a common end. -/
theorem piece_share {E : List HE} {e f : HE} {u v u' v' : Pt} (h : Piece E e u v) (h' : Piece E f u' v') {x : ℝ × ℝ}
    (hx : On x (rp u) (rp v)) (hx' : On x (rp u') (rp v')) : u = u' ∨ u = v' ∨ v = u' ∨ v = v' := by
  obtain ⟨s, hs⟩ := hit_of h.su
  obtain ⟨t, ht⟩ := hit_of h.sv
  obtain ⟨s', hs'⟩ := hit_of h'.su
  obtain ⟨t', ht'⟩ := hit_of h'.sv
  obtain ⟨a, a0, a1, ha⟩ := hx
  obtain ⟨b, b0, b1, hb⟩ := hx'
  rcases deform (o1 := off e u s) (o2 := off e v t) (o3 := off f u' s') (o4 := off f v' t') a0 a1 b0 b1 (ha.symm.trans hb) with
    ⟨r, r0, r1, hT⟩ | ⟨⟨y, hy, hy'⟩, hd⟩
  · rcases hT with hT | hT | hT | hT
    · have := piece_touch h' hs' ht' h.hu (off_range hs) r0 r1 hT; tauto
    · have := piece_touch h' hs' ht' h.hv (off_range ht) r0 r1 hT; tauto
    · rcases piece_touch h hs ht h'.hu (off_range hs') r0 r1 hT with g | g
      · exact Or.inl g.symm
      · exact Or.inr (Or.inr (Or.inl g.symm))
    · rcases piece_touch h hs ht h'.hv (off_range ht') r0 r1 hT with g | g
      · exact Or.inr (Or.inl g.symm)
      · exact Or.inr (Or.inr (Or.inr g.symm))
  · rw [mv_one, mv_one] at hy hd
    rw [mv_one, mv_one] at hy' hd
    have hc : cr e f ≠ 0 := by
      intro hc
      apply hd
      have hcr : ((cr e f : Int) : ℝ) = 0 := by exact_mod_cast hc
      unfold cr at hcr; push_cast at hcr
      unfold dt at' lin rp
      dsimp only
      linear_combination ((t - s) * (t' - s')) * hcr
    obtain ⟨c, c0, c1, hc1⟩ := hy
    obtain ⟨d, d0, d1, hd1⟩ := hy'
    have range : ∀ {s t b : ℝ}, 0 ≤ s → s ≤ 1 → 0 ≤ t → t ≤ 1 → 0 ≤ b → b ≤ 1 → 0 ≤ s + b * (t - s) ∧ s + b * (t - s) ≤ 1 := by
      intro s t b s0 s1 t0 t1 b0 b1
      constructor
      · nlinarith [mul_nonneg (sub_nonneg.2 b1) s0, mul_nonneg b0 t0]
      · nlinarith [mul_nonneg (sub_nonneg.2 b1) (sub_nonneg.2 s1), mul_nonneg b0 (sub_nonneg.2 t1)]
    have r1 := range hs.1 hs.2.1 ht.1 ht.2.1 c0 c1
    have r2 := range hs'.1 hs'.2.1 ht'.1 ht'.2.1 d0 d1
    obtain ⟨q, q1, q2, q3⟩ := common_rational hc r1.1 r1.2 r2.1 r2.2 (by rw [← lin_lin, ← lin_lin, ← hc1, ← hd1])
    have hot : Hot E (fl q) := Or.inr ⟨e, h.mem, f, h'.mem, by rw [parallel_iff]; exact hc, q, q1, q2, rfl⟩
    rw [← lin_lin] at q3
    have w1 := piece_between h hs ht hot c0 c1 (by rw [← q3, flr_rq])
    have w2 := piece_between h' hs' ht' hot d0 d1 (by rw [← hd1, hc1, ← q3, flr_rq])
    rcases w1 with w1 | w1 <;> rcases w2 with w2 | w2
    · exact Or.inl (w1.symm.trans w2)
    · exact Or.inr (Or.inl (w1.symm.trans w2))
    · exact Or.inr (Or.inr (Or.inl (w1.symm.trans w2)))
    · exact Or.inr (Or.inr (Or.inr (w1.symm.trans w2)))

end Verif.Cut
