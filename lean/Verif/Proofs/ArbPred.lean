import Verif.Model.Arb
import Verif.Spec.Arb
import Verif.Proofs.Contains
/-! The predicates of the arbitrary-angle scan are exact. -/
namespace Verif.Arb
open Verif.Contains (sgn lessPoint between det lessPoint_iff)

theorem absZ_eq (d : Int) : absZ d = |d| := by
  unfold absZ; split_ifs with h
  · rw [abs_of_neg h]
  · rw [abs_of_nonneg (by omega)]

theorem sgn_mul (a b : Int) (ha : a ≠ 0) (hb : b ≠ 0) : sgn a * sgn b = (a * b).sign := by
  unfold sgn
  rcases lt_or_gt_of_ne ha with ha | ha <;> rcases lt_or_gt_of_ne hb with hb | hb
  · rw [Int.sign_eq_one_of_pos (by nlinarith), if_pos ha, if_pos hb]; rfl
  · rw [Int.sign_eq_neg_one_of_neg (by nlinarith), if_pos ha, if_neg (by omega)]; rfl
  · rw [Int.sign_eq_neg_one_of_neg (by nlinarith), if_pos hb, if_neg (by omega)]; rfl
  · rw [Int.sign_eq_one_of_pos (by nlinarith), if_neg (by omega), if_neg (by omega)]; rfl

theorem equalSlopeD_iff (dx1 dy1 dx2 dy2 : Int) : equalSlopeD dx1 dy1 dx2 dy2 = true ↔ dx2 * dy1 = dx1 * dy2 := by
  unfold equalSlopeD
  simp only [absZ_eq, ← abs_mul, Bool.and_eq_true, beq_iff_eq, Bool.or_eq_true]
  constructor
  · rintro ⟨e, h⟩
    by_cases hz : dx2 * dy1 = 0
    · rw [hz] at e ⊢
      simp at e
      rcases e with e | e <;> simp [e]
    · have hz' : dx1 * dy2 ≠ 0 := by
        intro hz'; rw [hz'] at e; simp at e; rcases e with e | e <;> simp [e] at hz
      rcases h with h | h
      · rw [sgn_mul _ _ (left_ne_zero_of_mul hz) (right_ne_zero_of_mul hz), sgn_mul _ _ (left_ne_zero_of_mul hz') (right_ne_zero_of_mul hz')] at h
        rw [← Int.sign_mul_abs (dx2 * dy1), ← Int.sign_mul_abs (dx1 * dy2), e, h]
      · exact absurd (abs_eq_zero.mp h) hz
  · intro e
    refine ⟨by rw [e], ?_⟩
    by_cases hz : dx2 * dy1 = 0
    · right; rw [hz]; rfl
    · left
      have hz' : dx1 * dy2 ≠ 0 := by rwa [← e]
      rw [sgn_mul _ _ (left_ne_zero_of_mul hz) (right_ne_zero_of_mul hz), sgn_mul _ _ (left_ne_zero_of_mul hz') (right_ne_zero_of_mul hz'), e]

theorem lessSlopeR_iff {dx1 dy1 dx2 dy2 : Int} (p1 : 0 < dx1) (p2 : 0 < dx2) :
    lessSlopeR dx1 dy1 dx2 dy2 = true ↔ dx2 * dy1 < dx1 * dy2 := by
  unfold lessSlopeR
  have e1 : sgn dx1 = 1 := if_neg (by omega)
  have e2 : sgn dx2 = 1 := if_neg (by omega)
  simp only [absZ_eq, ← abs_mul, e1, e2, one_mul]
  by_cases g1 : dy1 < 0 <;> by_cases g2 : dy2 < 0
  · have a1 : dx2 * dy1 < 0 := by nlinarith
    have a2 : dx1 * dy2 < 0 := by nlinarith
    simp only [sgn, g1, g2, if_true, abs_of_neg a1, abs_of_neg a2]
    simp
  · have a1 : dx2 * dy1 < 0 := by nlinarith
    have a2 : 0 ≤ dx1 * dy2 := by nlinarith
    simp only [sgn, g1, g2, if_true, if_false]
    simp; omega
  · have a1 : 0 ≤ dx2 * dy1 := by nlinarith
    have a2 : dx1 * dy2 < 0 := by nlinarith
    simp only [sgn, g1, g2, if_true, if_false]
    simp; omega
  · have a1 : 0 ≤ dx2 * dy1 := by nlinarith
    have a2 : 0 ≤ dx1 * dy2 := by nlinarith
    simp only [sgn, g1, g2, if_false, abs_of_nonneg a1, abs_of_nonneg a2]
    simp

theorem lessSlopeD_iff (dx1 dy1 dx2 dy2 : Int) :
    lessSlopeD dx1 dy1 dx2 dy2 = true ↔ dx1 ≠ 0 ∧ (dx2 = 0 ∨ (dx2 * dy1 - dx1 * dy2) * (dx1 * dx2) < 0) := by
  have fin : ∀ {dx1 dy1 dx2 dy2 : Int}, 0 < dx1 → 0 < dx2 →
      ((dx2 * dy1 - dx1 * dy2) * (dx1 * dx2) < 0 ↔ dx2 * dy1 < dx1 * dy2) := by
    intro a b c d ha hc
    have : 0 < a * c := mul_pos ha hc
    rw [mul_neg_iff]
    constructor
    · rintro (h | h) <;> omega
    · intro h; right; omega
  unfold lessSlopeD
  by_cases z1 : dx1 = 0
  · simp [z1]
  rw [if_neg z1]
  by_cases z2 : dx2 = 0
  · by_cases g1 : dx1 < 0 <;> simp [g1, z1, z2]
  · by_cases g1 : dx1 < 0 <;> by_cases g2 : dx2 < 0 <;>
      simp only [g1, g2, if_true, if_false, if_neg z2] <;>
      rw [lessSlopeR_iff (by omega) (by omega), ← fin (by omega) (by omega)] <;>
      simp only [z1, z2, ne_eq, not_false_eq_true, true_and, false_or] <;>
      rw [show ∀ A B : Int, A = B → (A < 0 ↔ B < 0) from fun A B h => by rw [h]] <;> ring

/-- `on_above_or_below` is symmetric in the end points. -/
theorem between_comm (p a b : Pt) : between p a b = between p b a := by
  unfold between
  by_cases h1 : lessPoint a b = true <;> by_cases h2 : lessPoint b a = true
  · rw [lessPoint_iff] at h1 h2; omega
  · simp [h1, h2]
  · simp [h1, h2]
  · have : a = b := by
      rw [lessPoint_iff] at h1 h2
      ext <;> omega
    subst this; rfl

theorem det_swap (p a b : Pt) : det p b a = - det p a b := by unfold det; ring

/-- The side test, for every point of the plane: the sign of the determinant of the directed edge. -/
theorem oab_eq (p : Pt) {e : HE} (h : Spec.Arb.Directed e) : oab p e = (det p e.1 e.2).sign := by
  obtain ⟨a, b⟩ := e
  unfold oab
  dsimp only
  by_cases h0 : p = a ∨ p = b
  · rw [if_pos h0]
    have : det p a b = 0 := by rcases h0 with rfl | rfl <;> unfold det <;> ring
    rw [this]; rfl
  rw [if_neg h0]
  have e : (b.1 - p.1) * (a.2 - p.2) - (a.1 - p.1) * (b.2 - p.2) = -det p a b := by unfold det; ring
  by_cases hd : det p a b = 0
  · have : equalSlope p a b = true := by
      unfold equalSlope; rw [equalSlopeD_iff]; omega
    rw [if_pos this, hd]; rfl
  have hne : ¬ equalSlope p a b = true := by
    unfold equalSlope; rw [equalSlopeD_iff]; omega
  rw [if_neg hne]
  have hls : lessSlope p a b = true ↔ a.1 - p.1 ≠ 0 ∧ (b.1 - p.1 = 0 ∨ -det p a b * ((a.1 - p.1) * (b.1 - p.1)) < 0) := by
    unfold lessSlope; rw [lessSlopeD_iff, e]
  have hlp : lessPoint b a = false := by
    rw [Bool.eq_false_iff, Ne, lessPoint_iff]
    unfold Spec.Arb.Directed at h; dsimp only at h; omega
  have hlp2 : lessPoint a b = true := by
    rw [lessPoint_iff]; exact h
  have hbt : between p a b = true ↔ (a.1 < p.1 ∨ (a.1 = p.1 ∧ a.2 < p.2)) ∧ (p.1 < b.1 ∨ (p.1 = b.1 ∧ p.2 < b.2)) := by
    unfold between; rw [if_pos hlp2, Bool.and_eq_true, lessPoint_iff, lessPoint_iff]; tauto
  rw [hlp]
  have sg : (det p a b).sign = if det p a b < 0 then -1 else 1 := by
    split_ifs with hz'
    · exact Int.sign_eq_neg_one_of_neg hz'
    · exact Int.sign_eq_one_of_pos (by omega)
  rw [sg]
  -- it remains to see: (less) xor (not between) iff det < 0
  suffices hh : (lessSlope p a b = true ↔ between p a b = true) ↔ det p a b < 0 by
    by_cases k1 : lessSlope p a b = true <;> by_cases k2 : between p a b = true <;> simp [k1, k2] at hh ⊢ <;> simp [hh]
    all_goals (first | (rw [if_neg (by omega)]) | (rw [if_pos (by omega)]))
  rw [hls, hbt]
  obtain ⟨px, py⟩ := p
  obtain ⟨ax, ay⟩ := a
  obtain ⟨bx, yb⟩ := b
  unfold Spec.Arb.Directed at h
  dsimp only at *
  generalize hT : det (px, py) (ax, ay) (bx, yb) = T at *
  have hT' : T = (py - ay) * (bx - ax) - (yb - ay) * (px - ax) := by rw [← hT]; rfl
  by_cases q1 : px = ax
  · subst q1
    have e1 : T = (py - ay) * (bx - px) := by rw [hT']; ring
    have hb : px < bx := by
      rcases h with h | h
      · exact h
      · exfalso; apply hd; rw [e1, ← h.1]; ring
    have : T < 0 ↔ py < ay := by
      rw [e1]; constructor
      · intro h; by_contra hc; nlinarith
      · intro h; nlinarith
    rw [this]
    have hy : py ≠ ay := fun hc => hd (by rw [e1, hc]; ring)
    omega
  · by_cases q2 : px = bx
    · subst q2
      have e1 : T = (py - yb) * (px - ax) := by rw [hT']; ring
      have hpa : ax < px := by omega
      have : T < 0 ↔ py < yb := by
        rw [e1]; constructor
        · intro h; by_contra hc; nlinarith
        · intro h; nlinarith
      have hy : py ≠ yb := fun hc => hd (by rw [e1, hc]; ring)
      rw [this]
      omega
    · by_cases hb : ax < px ∧ px < bx
      · have : (ax - px) * (bx - px) < 0 := by nlinarith
        have c1 : -T * ((ax - px) * (bx - px)) < 0 ↔ T < 0 := by
          rw [mul_neg_iff]; omega
        rw [c1]; omega
      · have : 0 < (ax - px) * (bx - px) := by
          have : (px < ax ∧ px < bx) ∨ (ax < px ∧ bx < px) := by omega
          rcases this with g | g <;> nlinarith
        have c1 : -T * ((ax - px) * (bx - px)) < 0 ↔ 0 < T := by
          rw [mul_neg_iff]; omega
        rw [c1]; omega

theorem oab_swap (p : Pt) (a b : Pt) (hab : a ≠ b) : oab p (b, a) = oab p (a, b) := by
  unfold oab
  dsimp only
  rw [between_comm p b a]
  have e : equalSlope p b a = equalSlope p a b := by
    rw [Bool.eq_iff_iff]; unfold equalSlope; rw [equalSlopeD_iff, equalSlopeD_iff]; constructor <;> intro h <;> linarith
  rw [e]
  by_cases h0 : p = a ∨ p = b
  · rw [if_pos h0, if_pos (by tauto)]
  rw [if_neg h0, if_neg (by tauto)]
  by_cases h1 : equalSlope p a b = true
  · rw [if_pos h1, if_pos h1]
  rw [if_neg h1, if_neg h1]
  have hne : (b.1 - p.1) * (a.2 - p.2) ≠ (a.1 - p.1) * (b.2 - p.2) := by
    intro hc; apply h1; unfold equalSlope; rw [equalSlopeD_iff]; exact hc
  have hls : lessSlope p b a = !lessSlope p a b := by
    rw [Bool.eq_iff_iff]
    simp only [Bool.not_eq_true']
    rw [Bool.eq_false_iff, Ne]
    unfold lessSlope
    rw [lessSlopeD_iff, lessSlopeD_iff]
    by_cases z1 : a.1 - p.1 = 0
    · have z2 : b.1 - p.1 ≠ 0 := fun z2 => hne (by rw [z1, z2]; ring)
      simp [z1, z2]
    · by_cases z2 : b.1 - p.1 = 0
      · simp [z1, z2]
      · simp only [ne_eq, z1, z2, not_false_eq_true, true_and, false_or, not_lt]
        have hm : (a.1 - p.1) * (b.1 - p.1) ≠ 0 := mul_ne_zero z1 z2
        have hA : ((a.1 - p.1) * (b.2 - p.2) - (b.1 - p.1) * (a.2 - p.2)) * ((b.1 - p.1) * (a.1 - p.1)) =
          - (((b.1 - p.1) * (a.2 - p.2) - (a.1 - p.1) * (b.2 - p.2)) * ((a.1 - p.1) * (b.1 - p.1))) := by ring
        rw [hA]
        have hz : ((b.1 - p.1) * (a.2 - p.2) - (a.1 - p.1) * (b.2 - p.2)) * ((a.1 - p.1) * (b.1 - p.1)) ≠ 0 :=
          mul_ne_zero (sub_ne_zero.2 hne) hm
        omega
  have hlp : lessPoint a b = !lessPoint b a := by
    rw [Bool.eq_iff_iff]
    simp only [Bool.not_eq_true']
    rw [Bool.eq_false_iff, Ne, lessPoint_iff, lessPoint_iff]
    have : ¬ (a.1 = b.1 ∧ a.2 = b.2) := fun hc => hab (Prod.ext hc.1 hc.2)
    omega
  rw [hls, hlp]
  cases lessSlope p a b <;> cases lessPoint b a <;> cases between p a b <;> rfl

end Verif.Arb
