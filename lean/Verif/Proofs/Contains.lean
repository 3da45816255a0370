import Verif.Model.Contains
import Verif.Spec.Contains
import Verif.Proofs.Segment
/-! Helper lemmas for C31, C32, C34. -/
namespace Verif.Contains
open Verif.Machine Verif.Segment Verif.Spec

/-- Magnitude bound of a difference of two 32-bit numbers. -/
def D32 (d : Int) : Prop := |d| < 2 ^ 32

theorem d32_sub {a b : Int} (ha : I32 a) (hb : I32 b) : D32 (a - b) := by
  unfold D32 I32 at *; rw [abs_lt]; omega

theorem i64_d {d : Int} (h : D32 d) : i64 d = some d := by
  unfold D32 at h; rw [abs_lt] at h; exact i64_some (by omega)

theorem abs_d {d : Int} (h : D32 d) : absI64 d = some |d| := by
  unfold D32 at h; rw [abs_lt] at h; exact absI64_eq (by omega)

theorem d32_neg {d : Int} (h : D32 d) : D32 (-d) := by unfold D32 at *; rwa [abs_neg]

theorem mul_d {a b : Int} (ha : D32 a) (hb : D32 b) : u64 (u64 |a| * u64 |b|) = |a * b| := by
  unfold D32 at *
  have h1 := abs_nonneg a
  have h2 := abs_nonneg b
  have h3 : |a| * |b| < 2 ^ 32 * 2 ^ 32 := by nlinarith
  rw [u64_id h1 (by omega), u64_id h2 (by omega), u64_id (by positivity) (by omega), abs_mul]

theorem equalSlopeD_eq {dx1 dy1 dx2 dy2 : Int} (h1 : D32 dx1) (h2 : D32 dy1) (h3 : D32 dx2) (h4 : D32 dy2) :
    equalSlopeD dx1 dy1 dx2 dy2 = some (decide (dx2 * dy1 = dx1 * dy2)) := by
  unfold equalSlopeD
  rw [abs_d h1, abs_d h2, abs_d h3, abs_d h4]
  simp only [Option.bind_eq_bind, Option.bind_some]
  rw [mul_d h3 h2, mul_d h1 h4]
  show some _ = some _
  congr 1
  rw [Bool.eq_iff_iff]
  simp only [Bool.and_eq_true, beq_iff_eq, Bool.or_eq_true, decide_eq_true_eq]
  have key : ∀ a b : Int, (a ≠ 0 → b ≠ 0 → (sgn a * sgn b = (a * b).sign)) := by
    intro a b ha hb
    unfold sgn
    rcases lt_or_gt_of_ne ha with ha | ha <;> rcases lt_or_gt_of_ne hb with hb | hb
    · rw [Int.sign_eq_one_of_pos (by nlinarith), if_pos ha, if_pos hb]; rfl
    · rw [Int.sign_eq_neg_one_of_neg (by nlinarith), if_pos ha, if_neg (by omega)]; rfl
    · rw [Int.sign_eq_neg_one_of_neg (by nlinarith), if_pos hb, if_neg (by omega)]; rfl
    · rw [Int.sign_eq_one_of_pos (by nlinarith), if_neg (by omega), if_neg (by omega)]; rfl
  constructor
  · rintro ⟨e, h⟩
    by_cases hz : dx2 * dy1 = 0
    · rw [hz] at e ⊢
      simp at e
      rcases e with e | e <;> simp [e]
    · have hz' : dx1 * dy2 ≠ 0 := by
        intro hz'; rw [hz'] at e; simp at e; rcases e with e | e <;> simp [e] at hz
      rcases h with h | h
      · rw [key _ _ (left_ne_zero_of_mul hz) (right_ne_zero_of_mul hz), key _ _ (left_ne_zero_of_mul hz') (right_ne_zero_of_mul hz')] at h
        rw [← Int.sign_mul_abs (dx2 * dy1), ← Int.sign_mul_abs (dx1 * dy2), e, h]
      · exact absurd (abs_eq_zero.mp h) hz
  · intro e
    refine ⟨by rw [e], ?_⟩
    by_cases hz : dx2 * dy1 = 0
    · right; rw [hz]; rfl
    · left
      have hz' : dx1 * dy2 ≠ 0 := by rwa [← e]
      rw [key _ _ (left_ne_zero_of_mul hz) (right_ne_zero_of_mul hz), key _ _ (left_ne_zero_of_mul hz') (right_ne_zero_of_mul hz'), e]

theorem lessSlopeR_eq {dx1 dy1 dx2 dy2 : Int} (h1 : D32 dx1) (h2 : D32 dy1) (h3 : D32 dx2) (h4 : D32 dy2)
    (p1 : 0 < dx1) (p2 : 0 < dx2) :
    lessSlopeR dx1 dy1 dx2 dy2 = some (decide (dx2 * dy1 < dx1 * dy2)) := by
  unfold lessSlopeR
  rw [abs_d h1, abs_d h2, abs_d h3, abs_d h4]
  simp only [Option.bind_eq_bind, Option.bind_some]
  rw [mul_d h3 h2, mul_d h1 h4]
  have e1 : sgn dx1 = 1 := if_neg (by omega)
  have e2 : sgn dx2 = 1 := if_neg (by omega)
  rw [e1, e2, one_mul, one_mul]
  by_cases g1 : dy1 < 0 <;> by_cases g2 : dy2 < 0
  · have a1 : dx2 * dy1 < 0 := by nlinarith
    have a2 : dx1 * dy2 < 0 := by nlinarith
    simp only [sgn, g1, g2, if_true, abs_of_neg a1, abs_of_neg a2]
    simp
  · have a1 : dx2 * dy1 < 0 := by nlinarith
    have a2 : 0 ≤ dx1 * dy2 := by nlinarith
    simp only [sgn, g1, g2, if_true, if_false]
    simp; omega
  · have a1 : 0 ≤ dx2 * dy1 := by nlinarith
    have a2 : dx1 * dy2 < 0 := by nlinarith
    simp only [sgn, g1, g2, if_true, if_false]
    simp; omega
  · have a1 : 0 ≤ dx2 * dy1 := by nlinarith
    have a2 : 0 ≤ dx1 * dy2 := by nlinarith
    simp only [sgn, g1, g2, if_false, abs_of_nonneg a1, abs_of_nonneg a2]
    simp

theorem lessSlopeD_eq {dx1 dy1 dx2 dy2 : Int} (h1 : D32 dx1) (h2 : D32 dy1) (h3 : D32 dx2) (h4 : D32 dy2) :
    lessSlopeD dx1 dy1 dx2 dy2 =
      some (decide (dx1 ≠ 0 ∧ (dx2 = 0 ∨ (dx2 * dy1 - dx1 * dy2) * (dx1 * dx2) < 0))) := by
  have n : ∀ d, D32 d → i64 (d * -1) = some (-d) := fun d h => by rw [mul_neg_one]; exact i64_d (d32_neg h)
  have fin : ∀ {dx1 dy1 dx2 dy2 : Int}, 0 < dx1 → 0 < dx2 →
      ((dx2 * dy1 - dx1 * dy2) * (dx1 * dx2) < 0 ↔ dx2 * dy1 < dx1 * dy2) := by
    intro a b c d ha hc
    have : 0 < a * c := mul_pos ha hc
    rw [mul_neg_iff]
    constructor
    · rintro (h | h) <;> omega
    · intro h; right; omega
  unfold lessSlopeD
  by_cases z1 : dx1 = 0
  · simp [z1]
  rw [if_neg z1]
  by_cases g1 : dx1 < 0 <;> by_cases z2 : dx2 = 0
  · simp only [g1, z2, if_true, n _ h1, n _ h2, Option.bind_eq_bind, Option.bind_some, Option.pure_def]
    simp [z1]
  · by_cases g2 : dx2 < 0
    · simp only [g1, g2, if_true, n _ h1, n _ h2, n _ h3, n _ h4, if_neg z2, Option.bind_eq_bind, Option.bind_some, Option.pure_def]
      rw [lessSlopeR_eq (d32_neg h1) (d32_neg h2) (d32_neg h3) (d32_neg h4) (by omega) (by omega)]
      congr 2
      rw [eq_iff_iff, ← fin (by omega) (by omega)]
      simp [z1, z2]
    · simp only [g1, g2, if_true, if_false, n _ h1, n _ h2, if_neg z2, Option.bind_eq_bind, Option.bind_some, Option.pure_def]
      rw [lessSlopeR_eq (d32_neg h1) (d32_neg h2) h3 h4 (by omega) (by omega)]
      congr 2
      rw [eq_iff_iff, ← fin (by omega) (by omega)]
      simp only [z1, z2, ne_eq, not_false_eq_true, true_and, false_or]
      rw [show ∀ A B : Int, A = B → (A < 0 ↔ B < 0) from fun A B h => by rw [h]]
      ring
  · simp [z1, z2, g1]
  · by_cases g2 : dx2 < 0
    · simp only [g1, g2, if_true, if_false, n _ h3, n _ h4, if_neg z2, Option.bind_eq_bind, Option.bind_some, Option.pure_def]
      rw [lessSlopeR_eq h1 h2 (d32_neg h3) (d32_neg h4) (by omega) (by omega)]
      congr 2
      rw [eq_iff_iff, ← fin (by omega) (by omega)]
      simp only [z1, z2, ne_eq, not_false_eq_true, true_and, false_or]
      rw [show ∀ A B : Int, A = B → (A < 0 ↔ B < 0) from fun A B h => by rw [h]]
      ring
    · simp only [g1, g2, if_false, if_neg z2, Option.bind_eq_bind, Option.bind_some, Option.pure_def]
      rw [lessSlopeR_eq h1 h2 h3 h4 (by omega) (by omega)]
      congr 2
      rw [eq_iff_iff, ← fin (by omega) (by omega)]
      simp [z1, z2]

theorem equalSlope_eq {p a b : Int × Int} (hp : P32 p) (ha : P32 a) (hb : P32 b) :
    equalSlope p a b = some (decide ((b.1 - p.1) * (a.2 - p.2) = (a.1 - p.1) * (b.2 - p.2))) := by
  unfold equalSlope
  have h1 := d32_sub ha.1 hp.1
  have h2 := d32_sub ha.2 hp.2
  have h3 := d32_sub hb.1 hp.1
  have h4 := d32_sub hb.2 hp.2
  simp only [i64_d h1, i64_d h2, i64_d h3, i64_d h4, Option.bind_eq_bind, Option.bind_some]
  exact equalSlopeD_eq h1 h2 h3 h4

theorem lessSlope_eq {p a b : Int × Int} (hp : P32 p) (ha : P32 a) (hb : P32 b) :
    lessSlope p a b = some (decide (a.1 - p.1 ≠ 0 ∧ (b.1 - p.1 = 0 ∨
      ((b.1 - p.1) * (a.2 - p.2) - (a.1 - p.1) * (b.2 - p.2)) * ((a.1 - p.1) * (b.1 - p.1)) < 0))) := by
  unfold lessSlope
  have h1 := d32_sub ha.1 hp.1
  have h2 := d32_sub ha.2 hp.2
  have h3 := d32_sub hb.1 hp.1
  have h4 := d32_sub hb.2 hp.2
  simp only [i64_d h1, i64_d h2, i64_d h3, i64_d h4, Option.bind_eq_bind, Option.bind_some]
  exact lessSlopeD_eq h1 h2 h3 h4

/-- The determinant deciding on which side of the line the point is. -/
def det (p a b : Int × Int) : Int := (p.2 - a.2) * (b.1 - a.1) - (b.2 - a.2) * (p.1 - a.1)

theorem lt_lineY {p a b : Int × Int} (h : a.1 ≠ b.1) :
    (lineY a b p.1 < p.2 ↔ 0 < det p a b * (b.1 - a.1)) ∧ (lineY a b p.1 = p.2 ↔ det p a b = 0) := by
  have hd : ((b.1 : ℚ) - a.1) ≠ 0 := by
    intro hc; apply h; have : (b.1 : ℚ) = a.1 := by linarith
    exact_mod_cast this.symm
  have e : lineY a b p.1 - p.2 = -((det p a b : Int) : ℚ) / (b.1 - a.1) := by
    unfold lineY det; push_cast; field_simp; ring
  constructor
  · rw [← sub_neg, e, neg_div, neg_lt_zero, div_pos_iff, ← mul_pos_iff]
    rw [show ((det p a b : Int) : ℚ) * ((b.1 : ℚ) - a.1) = ((det p a b * (b.1 - a.1) : Int) : ℚ) by push_cast; ring]
    exact Int.cast_pos
  · rw [← sub_eq_zero, e, neg_div, neg_eq_zero, div_eq_zero_iff]
    simp [hd]

theorem lessPoint_iff (a b : Int × Int) : lessPoint a b = true ↔ a.1 < b.1 ∨ (a.1 = b.1 ∧ a.2 < b.2) := by
  unfold lessPoint; split_ifs <;> simp <;> omega

theorem onAboveOrBelow_eq {p a b : Int × Int} (hp : P32 p) (ha : P32 a) (hb : P32 b) (hab : a.1 ≠ b.1)
    (h1 : min a.1 b.1 ≤ p.1) (h2 : p.1 ≤ max a.1 b.1) :
    onAboveOrBelow p a b = some (det p a b * (b.1 - a.1)).sign := by
  unfold onAboveOrBelow
  by_cases h0 : p = a ∨ p = b
  · rw [if_pos h0]
    have : det p a b = 0 := by
      rcases h0 with rfl | rfl <;> unfold det <;> ring
    rw [this, zero_mul]; rfl
  rw [if_neg h0, equalSlope_eq hp ha hb, lessSlope_eq hp ha hb]
  have e : (b.1 - p.1) * (a.2 - p.2) - (a.1 - p.1) * (b.2 - p.2) = -det p a b := by unfold det; ring
  by_cases hd : det p a b = 0
  · have : (b.1 - p.1) * (a.2 - p.2) = (a.1 - p.1) * (b.2 - p.2) := by rw [hd] at e; omega
    simp [this, hd]
  · have hne : ¬ (b.1 - p.1) * (a.2 - p.2) = (a.1 - p.1) * (b.2 - p.2) := fun h => hd (by omega)
    rw [e]
    simp only [hne, decide_false, Option.bind_eq_bind, Option.bind_some, Bool.false_eq_true, if_false]
    show some _ = some _
    congr 1
    obtain ⟨px, py⟩ := p
    obtain ⟨ax, ay⟩ := a
    obtain ⟨bx, yb⟩ := b
    dsimp only at *
    have hlp : lessPoint (bx, yb) (ax, ay) = decide (bx < ax) := by
      rw [Bool.eq_iff_iff, lessPoint_iff]; simp; omega
    have hlp2 : lessPoint (ax, ay) (bx, yb) = decide (ax < bx) := by
      rw [Bool.eq_iff_iff, lessPoint_iff]; simp; omega
    have hbt : between (px, py) (ax, ay) (bx, yb) = decide ((px ≠ ax ∧ px ≠ bx) ∨ (px = ax ∧ (if ax < bx then ay < py else py < ay)) ∨
        (px = bx ∧ if ax < bx then py < yb else yb < py)) := by
      unfold between
      rw [hlp2, Bool.eq_iff_iff]
      split_ifs with g <;> simp only [Bool.and_eq_true, lessPoint_iff, decide_eq_true_eq] <;> simp at g <;> simp [g] <;> omega
    rw [hlp, hbt]
    set T := det (px, py) (ax, ay) (bx, yb) with hT
    have sg : ∀ z : Int, z ≠ 0 → z.sign = if z < 0 then -1 else 1 := fun z hz => by
      split_ifs with hz'
      · exact Int.sign_eq_neg_one_of_neg hz'
      · exact Int.sign_eq_one_of_pos (by omega)
    have hT0 : T * (bx - ax) ≠ 0 := mul_ne_zero hd (by omega)
    rw [sg _ hT0]
    by_cases q1 : px = ax
    · subst q1
      have e1 : T = (py - ay) * (bx - px) := by rw [hT]; unfold det; ring
      have hy : py ≠ ay := fun h => by simp [h] at h0
      have hlt : T * (bx - px) < 0 ↔ py < ay := by
        rw [e1, mul_assoc]
        have : 0 < (bx - px) * (bx - px) := by
          rcases lt_or_gt_of_ne hab with g | g <;> nlinarith
        constructor
        · intro h; by_contra hc; nlinarith
        · intro h; nlinarith
      simp only [hlt, sub_self, ne_eq, not_true_eq_false, false_and, decide_false, Bool.false_eq_true, if_false, true_and, false_or]
      have hpb : px ≠ bx := hab
      simp only [hpb, false_and, or_false]
      rcases lt_or_gt_of_ne hab with g | g <;> rcases lt_or_gt_of_ne hy with g' | g' <;>
        simp [g, g', not_lt_of_gt g, not_lt_of_gt g']
    · by_cases q2 : px = bx
      · subst q2
        have e1 : T = (py - yb) * (px - ax) := by rw [hT]; unfold det; ring
        have hy : py ≠ yb := fun h => by simp [h] at h0
        have hlt : T * (px - ax) < 0 ↔ py < yb := by
          rw [e1, mul_assoc]
          have : 0 < (px - ax) * (px - ax) := by
            rcases lt_or_gt_of_ne hab with g | g <;> nlinarith
          constructor
          · intro h; by_contra hc; nlinarith
          · intro h; nlinarith
        have hne' : ax - px ≠ 0 := by omega
        simp only [hlt, sub_self, ne_eq, hne', not_false_eq_true, true_or, and_self, decide_true, if_true, q1, false_and, and_false, false_or,
          true_and, not_true_eq_false]
        rcases lt_or_gt_of_ne hab with g | g <;> rcases lt_or_gt_of_ne hy with g' | g' <;>
          simp [g, g', not_lt_of_gt g, not_lt_of_gt g']
      · have n1 : ax - px ≠ 0 := by omega
        have n2 : ¬ bx - px = 0 := by omega
        simp only [ne_eq, n1, n2, q1, q2, not_false_eq_true, true_and, false_or, false_and, or_false, and_self, decide_true, Bool.not_true,
          Bool.false_eq_true, if_false]
        have hprod : (ax - px) * (bx - px) < 0 := by
          rcases lt_or_gt_of_ne hab with g | g
          · have : ax < px ∧ px < bx := by omega
            nlinarith
          · have : bx < px ∧ px < ax := by omega
            nlinarith
        have c1 : -T * ((ax - px) * (bx - px)) < 0 ↔ T < 0 := by
          rw [mul_neg_iff]; omega
        have c2 : T * (bx - ax) < 0 ↔ (T < 0 ↔ ax < bx) := by
          rw [mul_neg_iff]; omega
        simp only [c1, c2]
        rcases lt_or_gt_of_ne hab with g | g <;> rcases lt_or_gt_of_ne hd with g' | g' <;>
          simp [g, g', not_lt_of_gt g, not_lt_of_gt g']

theorem onSeg_iff {p a b : Int × Int} (hab : a.1 ≠ b.1) :
    OnSeg ⟨a, b⟩ ((p.1 : ℚ), (p.2 : ℚ)) ↔ min a.1 b.1 ≤ p.1 ∧ p.1 ≤ max a.1 b.1 ∧ det p a b = 0 := by
  rw [← (lt_lineY hab).2]
  unfold OnSeg lineY
  have hd : ((b.1 : ℚ) - a.1) ≠ 0 := by
    intro hc; apply hab; have : (b.1 : ℚ) = a.1 := by linarith
    exact_mod_cast this.symm
  constructor
  · rintro ⟨t, t0, t1, e1, e2⟩
    dsimp only at e1 e2
    have := span_mem (a := (a.1 : ℚ)) (α := (b.1 : ℚ) - a.1) t0 t1
    rw [← e1, add_sub_cancel] at this
    refine ⟨by exact_mod_cast this.1, by exact_mod_cast this.2, ?_⟩
    rw [e2, e1]; field_simp; ring
  · rintro ⟨h1, h2, h3⟩
    obtain ⟨t, t0, t1, e⟩ := span_param (a := (a.1 : ℚ)) (α := (b.1 : ℚ) - a.1) (X := (p.1 : ℚ))
      (by rw [add_sub_cancel]; exact_mod_cast h1) (by rw [add_sub_cancel]; exact_mod_cast h2)
    refine ⟨t, t0, t1, e.symm, ?_⟩
    dsimp only
    rw [← h3, ← e]; field_simp; ring

theorem onSeg_vert {p a b : Int × Int} (hab : a.1 = b.1) :
    OnSeg ⟨a, b⟩ ((p.1 : ℚ), (p.2 : ℚ)) ↔ p.1 = a.1 ∧ min a.2 b.2 ≤ p.2 ∧ p.2 ≤ max a.2 b.2 := by
  unfold OnSeg
  dsimp only
  constructor
  · rintro ⟨t, t0, t1, e1, e2⟩
    have := span_mem (a := (a.2 : ℚ)) (α := (b.2 : ℚ) - a.2) t0 t1
    rw [← e2, add_sub_cancel] at this
    rw [hab, sub_self, mul_zero, add_zero] at e1
    refine ⟨by rw [hab]; exact_mod_cast e1, by exact_mod_cast this.1, by exact_mod_cast this.2⟩
  · rintro ⟨h1, h2, h3⟩
    obtain ⟨t, t0, t1, e⟩ := span_param (a := (a.2 : ℚ)) (α := (b.2 : ℚ) - a.2) (X := (p.2 : ℚ))
      (by rw [add_sub_cancel]; exact_mod_cast h2) (by rw [add_sub_cancel]; exact_mod_cast h3)
    exact ⟨t, t0, t1, by rw [h1, hab]; simp, e.symm⟩

/-- The edge contributes a crossing. -/
def cb (p : Int × Int) (e : (Int × Int) × (Int × Int)) : Int := if CrossedBelow p e then 1 else 0

theorem cb_one {p a b : Int × Int} (h : min a.1 b.1 ≤ p.1 ∧ p.1 < max a.1 b.1 ∧ lineY a b p.1 < p.2) : cb p (a, b) = 1 :=
  if_pos h

theorem cb_zero {p a b : Int × Int} (h : ¬ (min a.1 b.1 ≤ p.1 ∧ p.1 < max a.1 b.1 ∧ lineY a b p.1 < p.2)) : cb p (a, b) = 0 :=
  if_neg h

open Classical in
theorem edgeStep_eq {p a b : Int × Int} (hp : P32 p) (ha : P32 a) (hb : P32 b) (hab : a ≠ b) (n : Int) :
    edgeStep p a b n = some (if OnSeg ⟨a, b⟩ ((p.1 : ℚ), (p.2 : ℚ)) then none else some (n + cb p (a, b))) := by
  unfold edgeStep
  dsimp only
  by_cases hpb : p = b
  · rw [if_pos hpb, if_pos]
    · rfl
    · subst hpb
      exact ⟨1, by norm_num, le_refl _, by ring, by ring⟩
  rw [if_neg hpb]
  by_cases hx : a.1 = b.1
  · rw [onSeg_vert hx, if_neg (by omega), cb_zero (by omega), add_zero]
    by_cases h1 : p.1 = a.1
    · rw [if_pos (by omega), if_pos (by omega)]
      by_cases h2 : p.2 ≤ max a.2 b.2 ∧ p.2 ≥ min a.2 b.2
      · rw [if_pos h2, if_pos (by omega)]; rfl
      · rw [if_neg h2, if_neg (by omega)]; simp
    · rw [if_neg (by omega), if_neg (by omega)]; simp
  · rw [onSeg_iff hx]
    have hl := (lt_lineY (p := p) hx).1
    have z : det p a b * (b.1 - a.1) = 0 ↔ det p a b = 0 := by
      rw [mul_eq_zero]; omega
    by_cases h1 : p.1 ≥ min a.1 b.1 ∧ p.1 < max a.1 b.1
    · rw [if_pos h1, onAboveOrBelow_eq hp ha hb hx (by omega) (by omega)]
      simp only [Option.bind_eq_bind, Option.bind_some, Int.sign_eq_zero_iff_zero, z]
      by_cases h2 : det p a b = 0
      · rw [if_pos h2, if_pos (by omega)]; rfl
      · simp only [h2, if_false, Int.sign_eq_one_iff_pos, and_false]
        by_cases h3 : 0 < det p a b * (b.1 - a.1)
        · rw [if_pos h3, cb_one ⟨by omega, by omega, hl.mpr h3⟩]; rfl
        · rw [if_neg h3, cb_zero (fun h => h3 (hl.mp h.2.2))]; simp
    · rw [if_neg h1, cb_zero (fun h => h1 ⟨h.1, h.2.1⟩)]
      by_cases h2 : p.1 = max a.1 b.1
      · rw [if_pos h2, if_neg (by omega), onAboveOrBelow_eq hp ha hb hx (by omega) (by omega)]
        simp only [Option.bind_eq_bind, Option.bind_some, Int.sign_eq_zero_iff_zero, z]
        by_cases h3 : det p a b = 0
        · rw [if_pos h3, if_pos (by omega)]; rfl
        · rw [if_neg h3, if_neg (by omega)]; simp
      · rw [if_neg h2, if_neg (by omega)]; simp

/-- Consecutive pairs of a path. -/
def path : Int × Int → List (Int × Int) → List ((Int × Int) × (Int × Int))
  | _, [] => []
  | a, c :: r => (a, c) :: path c r

theorem edges_path (a : Int × Int) (r : List (Int × Int)) : edges (a :: r) = path a (r ++ [a]) := by
  unfold edges
  rw [List.rotate_cons_succ, List.rotate_zero]
  have key : ∀ (b : Int × Int) (r : List (Int × Int)) (l : Int × Int), (b :: r).zip (r ++ [l]) = path b (r ++ [l]) := by
    intro b r
    induction r generalizing b with
    | nil => intro l; rfl
    | cons c r ih => intro l; simp only [List.cons_append, path, List.zip_cons_cons, ← ih c l]
  exact key a r a

theorem cb_self (p a : Int × Int) : cb p (a, a) = 0 := cb_zero (by omega)

open Classical in
theorem containsGo_eq {p first : Int × Int} (hp : P32 p) (hf : P32 first) (touch : Bool) (r : List (Int × Int)) :
    ∀ a n, P32 a → (∀ c ∈ r, P32 c) → containsGo p first touch a r n =
      some (if ∃ e ∈ path a (r ++ [first]), e.1 ≠ e.2 ∧ OnSeg ⟨e.1, e.2⟩ ((p.1 : ℚ), (p.2 : ℚ)) then touch
        else decide ((n + ((path a (r ++ [first])).map (cb p)).sum) % 2 ≠ 0)) := by
  induction r with
  | nil =>
    intro a n ha _
    simp only [containsGo, List.nil_append, path, List.mem_cons, List.not_mem_nil, or_false, exists_eq_left, List.map_cons, List.map_nil,
      List.sum_cons, List.sum_nil, add_zero]
    by_cases h : first = a
    · subst h
      simp [cb_self]
    · rw [if_neg h, edgeStep_eq hp ha hf (Ne.symm h)]
      have h' : a ≠ first := Ne.symm h
      simp only [Option.bind_eq_bind, Option.bind_some, h', ne_eq, not_false_eq_true, true_and]
      split_ifs <;> rfl
  | cons c r ih =>
    intro a n ha hr
    have hc := hr c List.mem_cons_self
    have ih' := fun n => ih c n hc (fun d hd => hr d (List.mem_cons_of_mem _ hd))
    simp only [containsGo, List.cons_append, path, List.mem_cons, exists_eq_or_imp, List.map_cons, List.sum_cons]
    by_cases h : c = a
    · subst h
      rw [if_pos rfl, ih', cb_self]
      simp
    · have h' : a ≠ c := Ne.symm h
      rw [if_neg h, edgeStep_eq hp ha hc h']
      simp only [Option.bind_eq_bind, Option.bind_some, h', ne_eq, not_false_eq_true, true_and]
      by_cases hs : OnSeg ⟨a, c⟩ ((p.1 : ℚ), (p.2 : ℚ))
      · simp [hs]
      · simp only [hs, if_false, false_or]
        rw [ih', add_assoc]

/-- On a path that is not constant, a zero edge adds no boundary point. -/
theorem touch_nonzero {p : Int × Int} {a : Int × Int} {r : List (Int × Int)} (hne : ∃ c ∈ r, c ≠ a)
    (h : ∃ e ∈ edges (a :: r), OnSeg ⟨e.1, e.2⟩ ((p.1 : ℚ), (p.2 : ℚ))) :
    ∃ e ∈ edges (a :: r), e.1 ≠ e.2 ∧ OnSeg ⟨e.1, e.2⟩ ((p.1 : ℚ), (p.2 : ℚ)) := by
  obtain ⟨e, he, hs⟩ := h
  by_cases hz : e.1 = e.2
  · by_contra hcon
    push Not at hcon
    obtain ⟨u, v⟩ := e
    dsimp only at hz hs
    subst hz
    have hpu : p = u := by
      have := (onSeg_vert (p := p) (a := u) (b := u) rfl).mp hs
      exact Prod.ext (by omega) (by omega)
    subst hpu
    have ends : ∀ e ∈ edges (a :: r), (e.1 = p ↔ e.2 = p) := by
      intro e he
      constructor
      · intro h
        by_contra hn
        exact hcon e he (by rw [h]; exact Ne.symm hn) ⟨0, le_refl _, by norm_num, by rw [← h]; simp, by rw [← h]; simp⟩
      · intro h
        by_contra hn
        exact hcon e he (by rw [h]; exact hn) ⟨1, by norm_num, le_refl _, by rw [← h]; simp, by rw [← h]; simp⟩
    rw [edges_path] at ends he
    have all : ∀ (L : List (Int × Int)) (b : Int × Int), (∀ e ∈ path b L, (e.1 = p ↔ e.2 = p)) →
        (∀ c ∈ L, (c = p ↔ b = p)) ∧ ((p, p) ∈ path b L → b = p) := by
      intro L
      induction L with
      | nil => intro b _; simp [path]
      | cons c L ih =>
        intro b hb
        obtain ⟨i1, i2⟩ := ih c (fun e he => hb e (List.mem_cons_of_mem _ he))
        have h0 := hb (b, c) List.mem_cons_self
        dsimp only at h0
        refine ⟨fun d hd => ?_, fun hm => ?_⟩
        · rcases List.mem_cons.mp hd with rfl | hd
          · exact h0.symm
          · rw [i1 d hd]; exact h0.symm
        · rcases List.mem_cons.mp hm with hm | hm
          · exact (Prod.mk.inj hm).1.symm
          · exact h0.mpr (i2 hm)
    obtain ⟨k1, k2⟩ := all _ _ ends
    have ha := k2 he
    obtain ⟨c, hc, hca⟩ := hne
    exact hca (((k1 c (by simp [hc])).mpr ha).trans ha.symm)
  · exact ⟨e, he, hz, hs⟩

theorem sum_cb (p : Int × Int) (E : List ((Int × Int) × (Int × Int))) :
    (E.map (cb p)).sum = (E.countP (fun e => decide (CrossedBelow p e)) : Int) := by
  induction E with
  | nil => rfl
  | cons e E ih =>
    rw [List.map_cons, List.sum_cons, ih, List.countP_cons]
    unfold cb
    by_cases h : CrossedBelow p e <;> simp [h]
    omega

/-! ### Manhattan polygons -/

/-- What the vertical/horizontal edge adds to `full`. -/
def fullE (p : Int × Int) (e : (Int × Int) × (Int × Int)) : Int :=
  if e.1.1 = e.2.1 ∧ e.1.1 ≤ p.1 ∧ p.2 > min e.1.2 e.2.2 ∧ p.2 < max e.1.2 e.2.2 then 1 else 0

/-- What the edge adds to `half`. -/
def halfE (p : Int × Int) (e : (Int × Int) × (Int × Int)) : Int :=
  if e.1.1 = e.2.1 ∧ e.1.1 ≤ p.1 ∧ (p.2 = min e.1.2 e.2.2 ∨ p.2 = max e.1.2 e.2.2) then (if e.1.2 < e.2.2 then 1 else -1) else 0

/-- The loop returns at this edge. -/
def hit90 (p : Int × Int) (e : (Int × Int) × (Int × Int)) : Prop :=
  (e.1.1 = e.2.1 ∧ e.1.1 = p.1 ∧ p.2 > min e.1.2 e.2.2 ∧ p.2 < max e.1.2 e.2.2) ∨
  (e.1.1 ≠ e.2.1 ∧ p.1 ≥ min e.1.1 e.2.1 ∧ p.1 ≤ max e.1.1 e.2.1 ∧ e.1.2 = p.2)

open Classical in
theorem edgeStep90_eq (p a b : Int × Int) (f h : Int) :
    edgeStep90 p a b f h = if hit90 p (a, b) then none else some (f + fullE p (a, b), h + halfE p (a, b)) := by
  unfold edgeStep90 hit90 fullE halfE
  dsimp only
  by_cases h1 : a.1 = b.1
  · by_cases h2 : a.1 > p.1
    · have h2' : ¬ a.1 ≤ p.1 := by omega
      have h2'' : ¬ a.1 = p.1 := by omega
      simp only [h1, h2, if_true, true_and, ne_eq, not_true_eq_false, false_and, or_false, h1 ▸ h2, h1 ▸ h2', h1 ▸ h2'', if_false, add_zero]
    · have h2' : a.1 ≤ p.1 := by omega
      simp only [h1, h1 ▸ h2, h1 ▸ h2', if_true, if_false, true_and, ne_eq, not_true_eq_false, false_and, or_false]
      by_cases h3 : p.2 > min a.2 b.2 ∧ p.2 < max a.2 b.2 ∧ b.1 = p.1
      · rw [if_pos h3, if_pos (by omega)]
      · rw [if_neg h3, if_neg (show ¬ (b.1 = p.1 ∧ p.2 > min a.2 b.2 ∧ p.2 < max a.2 b.2) by omega)]
        refine congrArg some (Prod.ext ?_ ?_) <;> dsimp only
        · by_cases g : p.2 > min a.2 b.2 ∧ p.2 < max a.2 b.2
          · rw [if_pos g, if_pos g]
          · rw [if_neg g, if_neg g, add_zero]
        · by_cases g : p.2 = min a.2 b.2 ∨ p.2 = max a.2 b.2
          · rw [if_pos g, if_pos g]
          · rw [if_neg g, if_neg g, add_zero]
  · simp only [h1, if_false, false_and, ne_eq, not_false_eq_true, true_and, false_or, add_zero]

open Classical in
theorem contains90Go_eq (p first : Int × Int) (touch : Bool) (r : List (Int × Int)) :
    ∀ a f h, contains90Go p first touch (a :: r) f h =
      if ∃ e ∈ path a (r ++ [first]), hit90 p e then touch
      else decide ((f + ((path a (r ++ [first])).map (fullE p)).sum + (h + ((path a (r ++ [first])).map (halfE p)).sum).fdiv 2) % 2 = 1) := by
  induction r with
  | nil =>
    intro a f h
    simp only [contains90Go, List.head?_nil, Option.getD_none, List.nil_append, path, List.mem_cons, List.not_mem_nil, or_false,
      exists_eq_left, List.map_cons, List.map_nil, List.sum_cons, List.sum_nil, add_zero, edgeStep90_eq]
    split_ifs <;> rfl
  | cons c r ih =>
    intro a f h
    rw [contains90Go]
    simp only [List.head?_cons, Option.getD_some, List.cons_append, path, List.mem_cons, exists_eq_or_imp, List.map_cons, List.sum_cons,
      edgeStep90_eq]
    by_cases hs : hit90 p (a, c)
    · simp [hs]
    · simp only [hs, if_false, false_or]
      rw [ih]
      simp only [add_assoc]

/-- The edge crosses the leftward ray. -/
def cl (p : Int × Int) (e : (Int × Int) × (Int × Int)) : Int := if CrossedLeft p e then 1 else 0

/-- The vertex is on the leftward ray. -/
def phi (p v : Int × Int) : Int := if v.2 = p.2 ∧ v.1 < p.1 then 1 else 0

/-- The vertex is in the closed lower left quadrant. -/
def sw (p v : Int × Int) : Int := if v.2 ≤ p.2 ∧ v.1 ≤ p.1 then 1 else 0

theorem cl_one {p a b : Int × Int} (h : a.1 = b.1 ∧ a.1 < p.1 ∧ min a.2 b.2 ≤ p.2 ∧ p.2 < max a.2 b.2) : cl p (a, b) = 1 :=
  if_pos h

theorem cl_zero {p a b : Int × Int} (h : ¬ (a.1 = b.1 ∧ a.1 < p.1 ∧ min a.2 b.2 ≤ p.2 ∧ p.2 < max a.2 b.2)) : cl p (a, b) = 0 :=
  if_neg h

theorem cl_eq (p a b : Int × Int) : cl p (a, b) = if a.1 = b.1 ∧ a.1 < p.1 ∧ min a.2 b.2 ≤ p.2 ∧ p.2 < max a.2 b.2 then 1 else 0 := by
  split_ifs with h
  · exact cl_one h
  · exact cl_zero h

/-- The point is on the edge, which is parallel to an axis. -/
def onE (p : Int × Int) (e : (Int × Int) × (Int × Int)) : Prop :=
  (e.1.1 = e.2.1 ∧ p.1 = e.1.1 ∧ min e.1.2 e.2.2 ≤ p.2 ∧ p.2 ≤ max e.1.2 e.2.2) ∨
  (e.1.2 = e.2.2 ∧ p.2 = e.1.2 ∧ min e.1.1 e.2.1 ≤ p.1 ∧ p.1 ≤ max e.1.1 e.2.1)

theorem onSeg_rect {p a b : Int × Int} (h : a.1 = b.1 ∨ a.2 = b.2) :
    OnSeg ⟨a, b⟩ ((p.1 : ℚ), (p.2 : ℚ)) ↔ onE p (a, b) := by
  unfold onE
  dsimp only
  by_cases hx : a.1 = b.1
  · rw [onSeg_vert hx]
    constructor
    · intro h; left; exact ⟨hx, h⟩
    · rintro (h | h)
      · exact h.2
      · omega
  · have hy := h.resolve_left hx
    rw [onSeg_iff hx]
    have : det p a b = 0 ↔ p.2 = a.2 := by
      unfold det; rw [hy, sub_self, zero_mul, sub_zero, mul_eq_zero]; omega
    rw [this]
    omega

/-- Per-edge accounting of the loop, modulo 4. -/
theorem step90 {p a b : Int × Int} (hr : a.1 = b.1 ∨ a.2 = b.2) (hne : a ≠ b) (hn : ¬ onE p (a, b)) :
    (2 * fullE p (a, b) + halfE p (a, b) - 2 * cl p (a, b) - (phi p b - phi p a)) % 4 = 0 := by
  rw [cl_eq]
  unfold fullE halfE phi
  unfold onE at hn
  obtain ⟨a1, a2⟩ := a
  obtain ⟨b1, b2⟩ := b
  obtain ⟨p1, p2⟩ := p
  dsimp only at *
  have hne' : a1 ≠ b1 ∨ a2 ≠ b2 := by
    by_contra hc; push Not at hc; exact hne (by rw [hc.1, hc.2])
  split_ifs <;> omega

theorem tele (φ : Int × Int → Int) (F : (Int × Int) × (Int × Int) → Int) (m : Int) (L : List (Int × Int)) :
    ∀ a, (∀ e ∈ path a L, (F e - (φ e.2 - φ e.1)) % m = 0) →
      (((path a L).map F).sum - (φ ((a :: L).getLast (by simp)) - φ a)) % m = 0 := by
  induction L with
  | nil => intro a _; simp [path]
  | cons c L ih =>
    intro a h
    have h1 := ih c (fun e he => h e (List.mem_cons_of_mem _ he))
    have h2 := h (a, c) List.mem_cons_self
    dsimp only at h2
    rw [path, List.map_cons, List.sum_cons, List.getLast_cons (by simp)]
    rw [← Int.dvd_iff_emod_eq_zero] at *
    have := Int.dvd_add h1 h2
    convert this using 1
    ring

theorem tele_closed (φ : Int × Int → Int) (F : (Int × Int) × (Int × Int) → Int) (m : Int) (a : Int × Int) (r : List (Int × Int))
    (h : ∀ e ∈ edges (a :: r), (F e - (φ e.2 - φ e.1)) % m = 0) : (((edges (a :: r)).map F).sum) % m = 0 := by
  rw [edges_path] at *
  have := tele φ F m (r ++ [a]) a h
  simpa using this

theorem sum_cl (p : Int × Int) (E : List ((Int × Int) × (Int × Int))) :
    (E.map (cl p)).sum = (E.countP (fun e => decide (CrossedLeft p e)) : Int) := by
  induction E with
  | nil => rfl
  | cons e E ih =>
    rw [List.map_cons, List.sum_cons, ih, List.countP_cons]
    unfold cl
    by_cases h : CrossedLeft p e <;> simp [h]
    omega

/-- The two ways of counting crossings agree modulo 2 off the boundary. -/
theorem stepAgree {p a b : Int × Int} (hr : a.1 = b.1 ∨ a.2 = b.2) (hn : ¬ onE p (a, b)) :
    (cl p (a, b) + cb p (a, b) - (sw p b - sw p a)) % 2 = 0 := by
  have hcb : cb p (a, b) = if a.1 ≠ b.1 ∧ min a.1 b.1 ≤ p.1 ∧ p.1 < max a.1 b.1 ∧ a.2 < p.2 then 1 else 0 := by
    by_cases hx : a.1 = b.1
    · rw [cb_zero (by omega), if_neg (by omega)]
    · have hy := hr.resolve_left hx
      have hl : lineY a b p.1 < p.2 ↔ a.2 < p.2 := by
        unfold lineY; rw [hy]; simp
      split_ifs with h
      · exact cb_one ⟨h.2.1, h.2.2.1, hl.mpr h.2.2.2⟩
      · exact cb_zero (fun h' => h ⟨hx, h'.1, h'.2.1, hl.mp h'.2.2⟩)
  rw [cl_eq, hcb]
  unfold sw
  unfold onE at hn
  obtain ⟨a1, a2⟩ := a
  obtain ⟨b1, b2⟩ := b
  obtain ⟨p1, p2⟩ := p
  dsimp only at *
  split_ifs <;> omega

theorem alt_rect {h : Bool} {E : List ((Int × Int) × (Int × Int))} (hA : AltFrom h E) : ∀ e ∈ E, e.1.1 = e.2.1 ∨ e.1.2 = e.2.2 := by
  induction E generalizing h with
  | nil => simp
  | cons e E ih =>
    intro f hf
    obtain ⟨h1, h2⟩ := hA
    rcases List.mem_cons.mp hf with rfl | hf
    · cases h
      · left; simpa using h1
      · right; simpa using h1
    · exact ih h2 f hf

/-- Every vertex of a path with alternating edges, apart from the ends of a path that begins or ends
with a vertical edge, is an end of a horizontal edge. -/
theorem alt_vertex (L : List (Int × Int)) : ∀ (a : Int × Int) (h : Bool), AltFrom h (path a L) →
    (∀ v ∈ a :: L, (∃ e ∈ path a L, e.1.2 = e.2.2 ∧ (e.1 = v ∨ e.2 = v)) ∨ (v = a ∧ h = false) ∨
      (v = (a :: L).getLast (by simp) ∧ (if Even L.length then h = true else h = false)) ∨ L = []) := by
  induction L with
  | nil => intro a h _ v _; right; right; right; rfl
  | cons c L ih =>
    intro a h hA v hv
    obtain ⟨h1, h2⟩ := hA
    dsimp only at h1
    rcases List.mem_cons.mp hv with rfl | hv
    · cases h
      · right; left; exact ⟨rfl, rfl⟩
      · left; exact ⟨(v, c), List.mem_cons_self, by simpa using h1, Or.inl rfl⟩
    · rcases ih c _ h2 v hv with ⟨e, he, q⟩ | ⟨rfl, q⟩ | ⟨q1, q2⟩ | q
      · left; exact ⟨e, List.mem_cons_of_mem _ he, q⟩
      · left
        cases h
        · simp at q
        · exact ⟨(a, v), List.mem_cons_self, by simpa using h1, Or.inr rfl⟩
      · right; right; left
        refine ⟨q1.trans rfl, ?_⟩
        rw [List.length_cons]
        by_cases ev : Even L.length
        · rw [if_pos ev] at q2
          rw [if_neg (by rw [Nat.even_add_one]; simpa using ev)]
          simpa using q2
        · rw [if_neg ev] at q2
          rw [if_pos (by rw [Nat.even_add_one]; exact ev)]
          simpa using q2
      · subst q
        rcases List.mem_cons.mp hv with rfl | hv
        · cases h
          · right; right; left
            simp
          · left; exact ⟨(a, v), List.mem_cons_self, by simpa using h1, Or.inr rfl⟩
        · simp at hv

theorem vertex_horizontal {P : List (Int × Int)} (hA : Alternating P) (v : Int × Int) (hv : v ∈ P) :
    ∃ e ∈ edges P, e.1.2 = e.2.2 ∧ (e.1 = v ∨ e.2 = v) := by
  obtain ⟨ev, hA⟩ := hA
  cases P with
  | nil => simp at hv
  | cons a r =>
    rw [edges_path] at *
    have hlen : (r ++ [a]).length = (a :: r).length := by simp
    have hne : r ++ [a] ≠ [] := by simp
    rcases hA with hA | hA
    · have key := alt_vertex _ _ _ hA
      have ha : ∃ e ∈ path a (r ++ [a]), e.1.2 = e.2.2 ∧ (e.1 = a ∨ e.2 = a) := by
        cases hr : r ++ [a] with
        | nil => exact absurd hr hne
        | cons c L =>
          rw [hr] at hA
          exact ⟨(a, c), List.mem_cons_self, by simpa using hA.1, Or.inl rfl⟩
      rcases key v (by simp at hv ⊢; tauto) with h | h | ⟨h, _⟩ | h
      · exact h
      · simp at h
      · rw [List.getLast_cons hne, List.getLast_append_singleton] at h
        rw [h]; exact ha
      · exact absurd h hne
    · have key := alt_vertex _ _ _ hA
      have last : ∀ (L : List (Int × Int)) (b : Int × Int) (h : Bool), AltFrom h (path b L) → L ≠ [] →
          (if Even L.length then h = false else h = true) → ∃ e ∈ path b L, e.1.2 = e.2.2 ∧ e.2 = (b :: L).getLast (by simp) := by
        intro L
        induction L with
        | nil => intro b h _ h'; exact absurd rfl h'
        | cons c L ih =>
          intro b h hh _ hp
          obtain ⟨h1, h2⟩ := hh
          by_cases hL : L = []
          · subst hL
            simp at hp
            subst hp
            exact ⟨(b, c), List.mem_cons_self, by simpa using h1, by simp⟩
          · obtain ⟨e, he, q1, q2⟩ := ih c _ h2 hL (by
              rw [List.length_cons] at hp
              by_cases ev : Even L.length
              · rw [if_neg (by rw [Nat.even_add_one]; simpa using ev)] at hp; rw [if_pos ev]; simpa using hp
              · rw [if_pos (by rw [Nat.even_add_one]; exact ev)] at hp; rw [if_neg ev]; simpa using hp)
            exact ⟨e, List.mem_cons_of_mem _ he, q1, q2.trans rfl⟩
      obtain ⟨e, he, q1, q2⟩ := last _ _ _ hA hne (by rw [hlen, if_pos ev])
      rw [List.getLast_cons hne, List.getLast_append_singleton] at q2
      rcases key v (by simp at hv ⊢; tauto) with h | ⟨h, _⟩ | ⟨h, _⟩ | h
      · exact h
      · exact ⟨e, he, q1, Or.inr (by rw [q2, h])⟩
      · rw [List.getLast_cons hne, List.getLast_append_singleton] at h
        exact ⟨e, he, q1, Or.inr (by rw [q2, h])⟩
      · exact absurd h hne

theorem edge_ends {P : List (Int × Int)} {e : (Int × Int) × (Int × Int)} (h : e ∈ edges P) : e.1 ∈ P ∧ e.2 ∈ P := by
  unfold edges at h
  have := List.of_mem_zip (show (e.1, e.2) ∈ _ from h)
  exact ⟨this.1, List.mem_rotate.mp this.2⟩

theorem onBoundary_iff {P : List (Int × Int)} (hR : ∀ e ∈ edges P, e.1.1 = e.2.1 ∨ e.1.2 = e.2.2) (p : Int × Int) :
    OnBoundary P p ↔ ∃ e ∈ edges P, onE p e := by
  unfold OnBoundary
  constructor
  · rintro ⟨e, he, h⟩; exact ⟨e, he, (onSeg_rect (hR e he)).mp h⟩
  · rintro ⟨e, he, h⟩; exact ⟨e, he, (onSeg_rect (hR e he)).mpr h⟩

theorem alt_rect' {P : List (Int × Int)} (hA : Alternating P) : ∀ e ∈ edges P, e.1.1 = e.2.1 ∨ e.1.2 = e.2.2 := by
  rcases hA.2 with h | h <;> exact alt_rect h

theorem hit_iff {P : List (Int × Int)} (hA : Alternating P) (hz : ∀ e ∈ edges P, e.1 ≠ e.2) (p : Int × Int) :
    (∃ e ∈ edges P, hit90 p e) ↔ ∃ e ∈ edges P, onE p e := by
  have hR := alt_rect' hA
  have hne : ∀ e ∈ edges P, ¬ (e.1.1 = e.2.1 ∧ e.1.2 = e.2.2) := fun e he h => hz e he (Prod.ext h.1 h.2)
  constructor
  · rintro ⟨e, he, h⟩
    refine ⟨e, he, ?_⟩
    have := hR e he
    unfold hit90 at h; unfold onE
    omega
  · rintro ⟨e, he, h⟩
    have r := hR e he
    have n := hne e he
    by_cases hv : p = e.1 ∨ p = e.2
    · have hP : p ∈ P := by
        rcases hv with rfl | rfl
        · exact (edge_ends he).1
        · exact (edge_ends he).2
      obtain ⟨g, hg, g1, g2⟩ := vertex_horizontal hA p hP
      refine ⟨g, hg, Or.inr ?_⟩
      have n' := hne g hg
      rcases g2 with rfl | rfl <;> omega
    · refine ⟨e, he, ?_⟩
      obtain ⟨⟨e1, e2⟩, ⟨e3, e4⟩⟩ := e
      obtain ⟨p1, p2⟩ := p
      simp only [Prod.mk.injEq] at hv
      unfold onE at h; unfold hit90
      dsimp only at *
      omega

open Classical in
theorem contains90_eq {P : List (Int × Int)} (hA : Alternating P) (hz : ∀ e ∈ edges P, e.1 ≠ e.2) (p : Int × Int) (touch : Bool) :
    contains90 P p touch = if OnBoundary P p then touch else decide (OddCrossingsLeft P p) := by
  rw [onBoundary_iff (alt_rect' hA)]
  cases P with
  | nil => simp [contains90, edges, OddCrossingsLeft]
  | cons a r =>
    unfold contains90
    simp only
    rw [contains90Go_eq, ← edges_path]
    simp only [hit_iff hA hz]
    by_cases hb : ∃ e ∈ edges (a :: r), onE p e
    · rw [if_pos hb, if_pos hb]
    · rw [if_neg hb, if_neg hb]
      push Not at hb
      have key := tele_closed (phi p) (fun e => 2 * fullE p e + halfE p e - 2 * cl p e) 4 a r
        (fun e he => step90 (alt_rect' hA e he) (hz e he) (hb e he))
      have hs : ∀ E : List ((Int × Int) × (Int × Int)), (E.map (fun e => 2 * fullE p e + halfE p e - 2 * cl p e)).sum =
          2 * (E.map (fullE p)).sum + (E.map (halfE p)).sum - 2 * (E.map (cl p)).sum := by
        intro E
        induction E with
        | nil => rfl
        | cons e E ih => simp only [List.map_cons, List.sum_cons, ih]; ring
      rw [hs, sum_cl] at key
      unfold OddCrossingsLeft
      congr 1
      rw [Int.fdiv_eq_ediv_of_nonneg _ (by norm_num)]
      simp only [zero_add, eq_iff_iff]
      omega

theorem parity_agree {P : List (Int × Int)} (hA : ∀ e ∈ edges P, e.1.1 = e.2.1 ∨ e.1.2 = e.2.2) (p : Int × Int) (hb : ¬ OnBoundary P p) :
    OddCrossingsLeft P p ↔ OddCrossings P p := by
  rw [onBoundary_iff hA] at hb
  push Not at hb
  cases P with
  | nil => simp [edges, OddCrossings, OddCrossingsLeft]
  | cons a r =>
    have key := tele_closed (sw p) (fun e => cl p e + cb p e) 2 a r (fun e he => stepAgree (hA e he) (hb e he))
    have hs : ∀ E : List ((Int × Int) × (Int × Int)), (E.map (fun e => cl p e + cb p e)).sum = (E.map (cl p)).sum + (E.map (cb p)).sum := by
      intro E
      induction E with
      | nil => rfl
      | cons e E ih => simp only [List.map_cons, List.sum_cons, ih]; ring
    rw [hs, sum_cl, sum_cb] at key
    unfold OddCrossings OddCrossingsLeft
    omega

end Verif.Contains
