import Verif.Proofs.CutFlow
/-! Points on segments, in the order along the segment. -/
namespace Verif.Cut
open Verif Verif.Arb Verif.Contains Verif.PolySet Verif.Spec Verif.Spec.Arb

/-- A lattice point as a point of the plane. -/
def cq (p : Pt) : ℚ × ℚ := (p.1, p.2)

/-- The order by abscissa, then ordinate. -/
def lle (a b : ℚ × ℚ) : Prop := a.1 < b.1 ∨ (a.1 = b.1 ∧ a.2 ≤ b.2)

theorem lle_total (a b : ℚ × ℚ) : lle a b ∨ lle b a := by
  unfold lle
  rcases lt_trichotomy a.1 b.1 with h | h | h
  · exact Or.inl (Or.inl h)
  · rcases le_total a.2 b.2 with k | k
    · exact Or.inl (Or.inr ⟨h, k⟩)
    · exact Or.inr (Or.inr ⟨h.symm, k⟩)
  · exact Or.inr (Or.inl h)

theorem lle_trans {a b c : ℚ × ℚ} (h1 : lle a b) (h2 : lle b c) : lle a c := by
  unfold lle at *
  rcases h1 with h1 | ⟨h1, k1⟩ <;> rcases h2 with h2 | ⟨h2, k2⟩
  · exact Or.inl (h1.trans h2)
  · exact Or.inl (h2 ▸ h1)
  · exact Or.inl (h1 ▸ h2)
  · exact Or.inr ⟨h1.trans h2, k1.trans k2⟩

theorem lle_antisymm {a b : ℚ × ℚ} (h1 : lle a b) (h2 : lle b a) : a = b := by
  unfold lle at *
  rcases h1 with h1 | ⟨h1, k1⟩ <;> rcases h2 with h2 | ⟨h2, k2⟩
  · exact absurd h2 (_root_.not_lt.2 h1.le)
  · exact absurd h1 (by rw [h2]; exact _root_.lt_irrefl _)
  · exact absurd h2 (by rw [h1]; exact _root_.lt_irrefl _)
  · exact Prod.ext h1 (le_antisymm k1 k2)

theorem cq_inj {a b : Pt} (h : cq a = cq b) : a = b := by
  unfold cq at h
  rw [Prod.mk.injEq] at h
  exact Prod.ext (by exact_mod_cast h.1) (by exact_mod_cast h.2)

theorem plt_lle {a b : Pt} (h : plt a b) : lle (cq a) (cq b) := by
  unfold plt at h; unfold lle cq; dsimp only
  rcases h with h | ⟨h, k⟩
  · exact Or.inl (by exact_mod_cast h)
  · exact Or.inr ⟨by exact_mod_cast h, by exact_mod_cast k.le⟩

theorem plt_not {a b : Pt} (h : plt a b) : ¬ lle (cq b) (cq a) := by
  intro hc
  have := cq_inj (lle_antisymm (plt_lle h) hc)
  rw [this] at h; exact plt_asymm _ _ h h

theorem lle_plt {a b : Pt} (h : lle (cq a) (cq b)) : a = b ∨ plt a b := by
  by_cases c : a = b
  · exact Or.inl c
  · right
    have hn : ¬ (a.1 = b.1 ∧ a.2 = b.2) := fun hc => c (Prod.ext hc.1 hc.2)
    unfold lle cq at h; unfold plt
    dsimp only at h
    norm_cast at h; omega

theorem not_lle_plt {a b : Pt} (h : ¬ lle (cq a) (cq b)) : plt b a := by
  rcases lle_plt ((lle_total _ _).resolve_left h) with g | g
  · rw [g] at h; exact absurd (by unfold lle; exact Or.inr ⟨rfl, le_refl _⟩) h
  · exact g

/-- Twice the area of the triangle. -/
def dq (q : ℚ × ℚ) (e : HE) : ℚ := (q.2 - e.1.2) * (e.2.1 - e.1.1) - (e.2.2 - e.1.2) * (q.1 - e.1.1)

theorem dq_cq (p : Pt) (e : HE) : dq (cq p) e = det p e.1 e.2 := by
  unfold dq det cq; push_cast; rfl

theorem onEdge_lex {e : HE} (h : Directed e) (q : ℚ × ℚ) : OnEdge e q ↔ dq q e = 0 ∧ lle (cq e.1) q ∧ lle q (cq e.2) := by
  by_cases c : e.1.1 < e.2.1
  · have hp : (0 : ℚ) < (e.2.1 : ℚ) - e.1.1 := by
      have : (e.1.1 : ℚ) < e.2.1 := by exact_mod_cast c
      linarith
    rw [onEdge_iff c]
    have hl : q.2 = Y e q.1 ↔ dq q e = 0 := by
      unfold Y lineY dq
      constructor
      · intro hq; rw [hq]; field_simp; ring
      · intro hq; field_simp; linarith
    rw [hl]
    unfold lle cq
    dsimp only
    constructor
    · rintro ⟨h1, h2, h3⟩
      refine ⟨h3, ?_, ?_⟩
      · rcases h1.lt_or_eq with g | g
        · exact Or.inl g
        · right; refine ⟨g, ?_⟩
          unfold dq at h3; rw [← g] at h3
          have : (q.2 - e.1.2) * ((e.2.1 : ℚ) - e.1.1) = 0 := by linarith
          rcases mul_eq_zero.1 this with k | k <;> linarith
      · rcases h2.lt_or_eq with g | g
        · exact Or.inl g
        · right; refine ⟨g, ?_⟩
          unfold dq at h3; rw [g] at h3
          have : (q.2 - e.2.2) * ((e.2.1 : ℚ) - e.1.1) = 0 := by linarith
          rcases mul_eq_zero.1 this with k | k <;> linarith
    · rintro ⟨h3, h1, h2⟩
      refine ⟨?_, ?_, h3⟩
      · rcases h1 with g | g
        · exact g.le
        · exact g.1.le
      · rcases h2 with g | g
        · exact g.le
        · exact g.1.le
  · have hv : e.1.1 = e.2.1 ∧ e.1.2 < e.2.2 := by unfold Spec.Arb.Directed at h; omega
    have hx : (e.2.1 : ℚ) = e.1.1 := by exact_mod_cast hv.1.symm
    have hy : (0 : ℚ) < (e.2.2 : ℚ) - e.1.2 := by
      have : (e.1.2 : ℚ) < e.2.2 := by exact_mod_cast hv.2
      linarith
    unfold OnEdge dq lle cq
    dsimp only
    rw [hx]
    constructor
    · rintro ⟨t, h0, h1, k1, k2⟩
      have k1 : q.1 = e.1.1 := by rw [k1]; ring
      rw [k1, k2]
      exact ⟨by ring, Or.inr ⟨rfl, by nlinarith⟩, Or.inr ⟨rfl, by nlinarith⟩⟩
    · rintro ⟨h1, h2, h3⟩
      have k1 : q.1 = e.1.1 := by
        have : ((e.2.2 : ℚ) - e.1.2) * (q.1 - e.1.1) = 0 := by linarith
        rcases mul_eq_zero.1 this with k | k <;> linarith
      rw [k1] at h2 h3
      have h2 := h2.resolve_left (_root_.lt_irrefl _)
      have h3 := h3.resolve_left (_root_.lt_irrefl _)
      refine ⟨(q.2 - e.1.2) / (e.2.2 - e.1.2), div_nonneg (by linarith) hy.le, ?_, ?_, ?_⟩
      · rw [div_le_one hy]; linarith
      · rw [k1]; ring
      · field_simp; ring

/-- Whether two segments are parallel. -/
def cr (a b : HE) : Int := (a.2.1 - a.1.1) * (b.2.2 - b.1.2) - (b.2.1 - b.1.1) * (a.2.2 - a.1.2)

theorem cr_symm (a b : HE) : cr b a = - cr a b := by unfold cr; ring

theorem cr_self (a : HE) : cr a a = 0 := by unfold cr; ring

/-- Lines that are not parallel have one common point. -/
theorem line_unique {a b : HE} (h : cr a b ≠ 0) {q r : ℚ × ℚ} (q1 : dq q a = 0) (q2 : dq q b = 0) (r1 : dq r a = 0) (r2 : dq r b = 0) : q = r := by
  have hc : ((cr a b : Int) : ℚ) ≠ 0 := by exact_mod_cast h
  unfold cr at hc
  push_cast at hc
  unfold dq at *
  have e1 : (q.2 - r.2) * ((a.2.1 : ℚ) - a.1.1) = (a.2.2 - a.1.2) * (q.1 - r.1) := by linarith
  have e2 : (q.2 - r.2) * ((b.2.1 : ℚ) - b.1.1) = (b.2.2 - b.1.2) * (q.1 - r.1) := by linarith
  have k1 : (((a.2.1 : ℚ) - a.1.1) * (b.2.2 - b.1.2) - (b.2.1 - b.1.1) * (a.2.2 - a.1.2)) * (q.1 - r.1) = 0 := by
    linear_combination ((b.2.1 : ℚ) - b.1.1) * e1 - ((a.2.1 : ℚ) - a.1.1) * e2
  have k2 : (((a.2.1 : ℚ) - a.1.1) * (b.2.2 - b.1.2) - (b.2.1 - b.1.1) * (a.2.2 - a.1.2)) * (q.2 - r.2) = 0 := by
    linear_combination ((b.2.2 : ℚ) - b.1.2) * e1 - ((a.2.2 : ℚ) - a.1.2) * e2
  have j1 := (mul_eq_zero.1 k1).resolve_left hc
  have j2 := (mul_eq_zero.1 k2).resolve_left hc
  exact Prod.ext (by linarith) (by linarith)

/-- Parallel segments with a common point have the same line. -/
theorem line_same {a b : HE} (hb : Directed b) (h : cr a b = 0) {q r : ℚ × ℚ} (q1 : dq q a = 0) (q2 : dq q b = 0) (r2 : dq r b = 0) : dq r a = 0 := by
  have hc : ((cr a b : Int) : ℚ) = 0 := by exact_mod_cast h
  unfold cr at hc
  push_cast at hc
  have hd : ((b.2.1 : ℚ) - b.1.1) ≠ 0 ∨ ((b.2.2 : ℚ) - b.1.2) ≠ 0 := by
    unfold Spec.Arb.Directed at hb
    rcases hb with g | ⟨_, g⟩
    · left
      have : (b.1.1 : ℚ) < b.2.1 := by exact_mod_cast g
      linarith
    · right
      have : (b.1.2 : ℚ) < b.2.2 := by exact_mod_cast g
      linarith
  unfold dq at *
  have k1 : ((b.2.1 : ℚ) - b.1.1) * ((r.2 - a.1.2) * (a.2.1 - a.1.1) - (a.2.2 - a.1.2) * (r.1 - a.1.1)) = 0 := by
    linear_combination ((b.2.1 : ℚ) - b.1.1) * q1 + ((a.2.1 : ℚ) - a.1.1) * (r2 - q2) + (r.1 - q.1) * hc
  have k2 : ((b.2.2 : ℚ) - b.1.2) * ((r.2 - a.1.2) * (a.2.1 - a.1.1) - (a.2.2 - a.1.2) * (r.1 - a.1.1)) = 0 := by
    linear_combination ((b.2.2 : ℚ) - b.1.2) * q1 + ((a.2.2 : ℚ) - a.1.2) * (r2 - q2) + (r.2 - q.2) * hc
  rcases hd with g | g
  · exact (mul_eq_zero.1 k1).resolve_left g
  · exact (mul_eq_zero.1 k2).resolve_left g

/-- A piece between two points of the segment. -/
theorem sub_onEdge {a e : HE} (ha : Directed a) (he : Directed e) (h1 : OnEdge a (cq e.1)) (h2 : OnEdge a (cq e.2)) {q : ℚ × ℚ} (hq : OnEdge e q) : OnEdge a q := by
  obtain ⟨_, k1, k2⟩ := (onEdge_lex he q).1 hq
  obtain ⟨t, t0, t1, tx, ty⟩ := hq
  obtain ⟨a1, a2, a3⟩ := (onEdge_lex ha _).1 h1
  obtain ⟨b1, b2, b3⟩ := (onEdge_lex ha _).1 h2
  refine (onEdge_lex ha q).2 ⟨?_, lle_trans a2 k1, lle_trans k2 b3⟩
  unfold dq cq at *
  dsimp only at *
  rw [tx, ty]
  linear_combination (1 - t) * a1 + t * b1

/-! ### Lattice points -/

theorem on_iff {e : HE} (h : Directed e) (p : Pt) : OnEdge e (cq p) ↔ inBox e p = true ∧ det p e.1 e.2 = 0 := by
  rw [onEdge_lex h, inBox_iff]
  rw [dq_cq]
  have hd : ((det p e.1 e.2 : Int) : ℚ) = 0 ↔ det p e.1 e.2 = 0 := by norm_cast
  rw [hd]
  constructor
  · rintro ⟨h1, h2, h3⟩
    have h2 := lle_plt h2
    have h3 := lle_plt h3
    refine ⟨?_, h1⟩
    unfold plt at h2 h3
    unfold Spec.Arb.Directed at h
    unfold det at h1
    by_cases c : e.1.1 < e.2.1
    · have hx : e.1.1 ≤ p.1 ∧ p.1 ≤ e.2.1 := by
        refine ⟨?_, ?_⟩
        · rcases h2 with g | g | g <;> [rw [g]; omega; omega]
        · rcases h3 with g | g | g <;> [rw [g]; omega; omega]
      refine ⟨by omega, by omega, ?_, ?_⟩
      · by_contra hc
        have c1 : p.2 < e.1.2 := by omega
        have c2 : p.2 < e.2.2 := by omega
        nlinarith [mul_pos (show 0 < e.1.2 - p.2 by omega) (show 0 < e.2.1 - e.1.1 by omega), mul_nonneg (show 0 ≤ p.1 - e.1.1 by omega) (show 0 ≤ e.2.2 - p.2 by omega),
          mul_nonneg (show 0 ≤ e.2.1 - p.1 by omega) (show 0 ≤ e.1.2 - p.2 by omega)]
      · by_contra hc
        have c1 : p.2 > e.1.2 := by omega
        have c2 : p.2 > e.2.2 := by omega
        nlinarith [mul_pos (show 0 < p.2 - e.1.2 by omega) (show 0 < e.2.1 - e.1.1 by omega), mul_nonneg (show 0 ≤ p.1 - e.1.1 by omega) (show 0 ≤ p.2 - e.2.2 by omega),
          mul_nonneg (show 0 ≤ e.2.1 - p.1 by omega) (show 0 ≤ p.2 - e.1.2 by omega)]
    · have hv : e.1.1 = e.2.1 ∧ e.1.2 < e.2.2 := by omega
      have q1 : p.1 = e.1.1 := by
        rcases h2 with g | g | g
        · rw [g]
        · rcases h3 with k | k | k
          · rw [← k] at hv; omega
          · omega
          · omega
        · omega
      have q2 : e.1.2 ≤ p.2 := by rcases h2 with g | g | g <;> [rw [g]; omega; omega]
      have q3 : p.2 ≤ e.2.2 := by rcases h3 with g | g | g <;> [rw [g]; omega; omega]
      omega
  · rintro ⟨⟨h1, h2, h3, h4⟩, h5⟩
    refine ⟨h5, ?_, ?_⟩
    · by_contra hc
      have hc := not_lle_plt hc
      unfold plt at hc; unfold Spec.Arb.Directed at h; unfold det at h5
      by_cases c : e.1.1 < e.2.1
      · have : p.1 = e.1.1 := by omega
        rw [this] at h5
        have h6 : (p.2 - e.1.2) * (e.2.1 - e.1.1) = 0 := by linarith
        rcases mul_eq_zero.1 h6 with k | k <;> omega
      · omega
    · by_contra hc
      have hc := not_lle_plt hc
      unfold plt at hc; unfold Spec.Arb.Directed at h; unfold det at h5
      by_cases c : e.1.1 < e.2.1
      · have : p.1 = e.2.1 := by omega
        rw [this] at h5
        have h6 : (p.2 - e.2.2) * (e.2.1 - e.1.1) = 0 := by linarith
        rcases mul_eq_zero.1 h6 with k | k <;> omega
      · omega

theorem between_iff {e : HE} (h : Directed e) (p : Pt) : between p e.1 e.2 = true ↔ plt e.1 p ∧ plt p e.2 := by
  have hl : lessPoint e.1 e.2 = true := (Contains.lessPoint_iff _ _).2 h
  unfold between
  rw [if_pos hl, Bool.and_eq_true, Contains.lessPoint_iff, Contains.lessPoint_iff]
  unfold plt; tauto

theorem equalSlope_iff (p a b : Pt) : Arb.equalSlope p a b = true ↔ det p a b = 0 := by
  unfold Arb.equalSlope
  rw [equalSlopeD_iff]
  unfold det
  constructor <;> intro h <;> linarith

theorem grid_on {e : HE} (h : Directed e) {p : Pt} (hp : OnEdge e (cq p)) : grid p e = true := by
  obtain ⟨h1, h2⟩ := (on_iff h p).1 hp
  obtain ⟨_, h3, h4⟩ := (onEdge_lex h _).1 hp
  unfold grid
  by_cases c1 : p = e.2
  · rw [if_pos c1]
  · rw [if_neg c1]
    by_cases c2 : p = e.1
    · rw [if_pos c2]
    · rw [if_neg c2, if_neg (by simp [h1])]
      by_cases c3 : (isVertical e || isHorizontal e) = true
      · rw [if_pos c3]
      · rw [if_neg c3, if_pos]
        rw [Bool.and_eq_true, equalSlope_iff, between_iff h]
        refine ⟨h2, (lle_plt h3).resolve_left (fun hc => c2 hc.symm), (lle_plt h4).resolve_left c1⟩

end Verif.Cut
