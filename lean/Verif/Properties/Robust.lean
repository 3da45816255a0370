import Verif.Model.Robust
import Mathlib.Tactic.Ring
import Mathlib.Tactic.LinearCombination
import Mathlib.Tactic.Linarith
import Mathlib.Tactic.FieldSimp
import Mathlib.Tactic.Positivity
import Mathlib.Tactic.NormNum
/-!
# C41, C42: differences of non-negative sums, square-root expressions
-/
namespace Verif.Properties.Robust
open Verif.Robust

/-! ### C41 -/

/-- The ordinary value of a program: every operator read as the field operation. -/
def value {K : Type*} [Field K] : DExpr K → K
  | .zero => 0 | .ofVal v => v | .negate a => -value a
  | .addEqT a v => value a + v | .addEq a b => value a + value b
  | .subEqT a v => value a - v | .subEq a b => value a - value b
  | .mulEqT a v => value a * v | .mulEq a b => value a * value b | .divEqT a v => value a / v
  | .add a b => value a + value b | .addT a v => value a + v | .tAdd v b => v + value b
  | .sub a b => value a - value b | .subT a v => value a - v | .tSub v b => v - value b
  | .mul a b => value a * value b | .mulT a v => value a * v | .tMul v b => v * value b
  | .divT a v => value a / v

/-- C41: any composition of the constructors and operators of `robust_dif` yields a difference of
two non-negative sums whose `dif()` is the value of the expression. -/
theorem C41_robust_dif {K : Type*} [Field K] [LinearOrder K] [IsStrictOrderedRing K] (e : DExpr K) :
    0 ≤ e.run.pos ∧ 0 ≤ e.run.neg ∧ e.run.dif = value e := by
  induction e with
  | zero => simp [DExpr.run, Dif.zero, Dif.dif, value]
  | ofVal v =>
    simp only [DExpr.run, Dif.ofVal, Dif.dif, value]
    rcases lt_trichotomy v 0 with h | h | h
    · simp [h, h.le, not_lt.2 h.le]
    · simp [h]
    · simp [h, h.le, not_lt.2 h.le]
  | negate a ih => obtain ⟨h1, h2, h3⟩ := ih; exact ⟨h2, h1, by simp only [DExpr.run, value, Dif.negate, ← h3, Dif.dif]; ring⟩
  | addEq a b ih1 ih2 | add a b ih1 ih2 =>
    obtain ⟨h1, h2, h3⟩ := ih1; obtain ⟨k1, k2, k3⟩ := ih2
    simp only [DExpr.run, value, Dif.addEq, Dif.add, ← h3, ← k3, Dif.dif]
    exact ⟨by positivity, by positivity, by ring⟩
  | subEq a b ih1 ih2 | sub a b ih1 ih2 =>
    obtain ⟨h1, h2, h3⟩ := ih1; obtain ⟨k1, k2, k3⟩ := ih2
    simp only [DExpr.run, value, Dif.subEq, Dif.sub, ← h3, ← k3, Dif.dif]
    exact ⟨by positivity, by positivity, by ring⟩
  | mulEq a b ih1 ih2 | mul a b ih1 ih2 =>
    obtain ⟨h1, h2, h3⟩ := ih1; obtain ⟨k1, k2, k3⟩ := ih2
    simp only [DExpr.run, value, Dif.mulEq, Dif.mul, ← h3, ← k3, Dif.dif]
    exact ⟨by positivity, by positivity, by ring⟩
  | addEqT a v ih | addT a v ih | tAdd v a ih | subEqT a v ih | subT a v ih | tSub v a ih =>
    obtain ⟨h1, h2, h3⟩ := ih
    simp only [DExpr.run, value, Dif.addEqT, Dif.addT, Dif.tAdd, Dif.subEqT, Dif.subT, Dif.tSub, ← h3, Dif.dif]
    split_ifs with h
    · exact ⟨by simp only; linarith, by simp only; linarith, by simp only; ring⟩
    · exact ⟨by simp only; linarith, by simp only; linarith, by simp only; ring⟩
  | mulEqT a v ih | mulT a v ih | tMul v a ih =>
    obtain ⟨h1, h2, h3⟩ := ih
    simp only [DExpr.run, value, Dif.mulEqT, Dif.mulT, Dif.tMul, ← h3, Dif.dif]
    split_ifs with h
    · exact ⟨by simp only; nlinarith, by simp only; nlinarith, by simp only; ring⟩
    · exact ⟨by simp only; nlinarith, by simp only; nlinarith, by simp only; ring⟩
  | divEqT a v ih | divT a v ih =>
    obtain ⟨h1, h2, h3⟩ := ih
    simp only [DExpr.run, value, Dif.divEqT, Dif.divT, ← h3, Dif.dif]
    split_ifs with h
    · have e1 := div_nonneg h1 (neg_pos.2 h).le; have e2 := div_nonneg h2 (neg_pos.2 h).le
      refine ⟨?_, ?_, by simp only [div_neg, neg_div]; ring⟩ <;> simp only [neg_div] <;> simp only [div_neg] at * <;> assumption
    · have := div_nonneg h1 (not_lt.1 h); have := div_nonneg h2 (not_lt.1 h)
      exact ⟨by assumption, by assumption, by simp only; ring⟩

example : (DExpr.run (.tSub (-2) (.mulT (.add (.ofVal 3) (.ofVal (-5))) (-4))) : Dif ℚ).dif = -10 ∧
    (DExpr.run (.tSub (-2) (.mulT (.add (.ofVal 3) (.ofVal (-5))) (-4))) : Dif ℚ).pos = 12 := by decide +kernel

/-! ### C42 -/

theorem divE_of {x y z : ℝ} (hy : y ≠ 0) (h : x = z * y) : divE x y = some z := by
  unfold divE; rw [if_neg hy, h, mul_div_cancel_right₀ _ hy]

theorem diff_ne {a b : ℝ} (h : ¬ sameSide a b) : a - b ≠ 0 := by
  unfold sameSide at h
  push Not at h
  intro e
  have : a = b := by linarith
  subst this
  rcases le_total 0 a with h0 | h0
  · exact absurd (h.1 h0) (not_lt.2 h0)
  · exact absurd (h.2 h0) (not_lt.2 h0)

/-- C42, one term. -/
theorem C42_eval1 (A B : Int) : eval1 A B = A * Real.sqrt B := rfl

/-- C42: two terms, for all integers `A` and all non-negative integers `B`: no division by zero and
the exact value. -/
theorem C42_eval2 (A0 B0 A1 B1 : Int) (h0 : 0 ≤ B0) (h1 : 0 ≤ B1) :
    eval2 A0 B0 A1 B1 = some (A0 * Real.sqrt B0 + A1 * Real.sqrt B1) := by
  unfold eval2
  by_cases h : sameSide (eval1 A0 B0) (eval1 A1 B1)
  · simp only [if_pos h]; rfl
  · simp only [if_neg h]
    refine divE_of (diff_ne h) ?_
    simp only [eval1]
    have e0 : Real.sqrt B0 * Real.sqrt B0 = B0 := Real.mul_self_sqrt (by exact_mod_cast h0)
    have e1 : Real.sqrt B1 * Real.sqrt B1 = B1 := Real.mul_self_sqrt (by exact_mod_cast h1)
    push_cast
    linear_combination -(A0 : ℝ) * A0 * e0 + A1 * A1 * e1

/-- C42: three terms. -/
theorem C42_eval3 (A0 B0 A1 B1 A2 B2 : Int) (h0 : 0 ≤ B0) (h1 : 0 ≤ B1) (h2 : 0 ≤ B2) :
    eval3 A0 B0 A1 B1 A2 B2 = some (A0 * Real.sqrt B0 + A1 * Real.sqrt B1 + A2 * Real.sqrt B2) := by
  unfold eval3
  rw [C42_eval2 _ _ _ _ h0 h1, C42_eval2 _ _ _ _ (by norm_num) (mul_nonneg h0 h1)]
  simp only [Option.bind_eq_bind, Option.bind_some]
  by_cases h : sameSide (A0 * Real.sqrt B0 + A1 * Real.sqrt B1) (eval1 A2 B2)
  · simp only [if_pos h]; rfl
  · simp only [if_neg h]
    refine divE_of (diff_ne h) ?_
    simp only [eval1]
    have e0 : Real.sqrt B0 * Real.sqrt B0 = B0 := Real.mul_self_sqrt (by exact_mod_cast h0)
    have e1 : Real.sqrt B1 * Real.sqrt B1 = B1 := Real.mul_self_sqrt (by exact_mod_cast h1)
    have e2 : Real.sqrt B2 * Real.sqrt B2 = B2 := Real.mul_self_sqrt (by exact_mod_cast h2)
    have e01 : Real.sqrt ((B0 * B1 : Int) : ℝ) = Real.sqrt B0 * Real.sqrt B1 := by
      push_cast; exact Real.sqrt_mul (by exact_mod_cast h0) _
    rw [e01]
    push_cast
    rw [Real.sqrt_one]
    linear_combination -(A0 : ℝ) * A0 * e0 - A1 * A1 * e1 + A2 * A2 * e2

/-- C42: four terms. -/
theorem C42_eval4 (A0 B0 A1 B1 A2 B2 A3 B3 : Int) (h0 : 0 ≤ B0) (h1 : 0 ≤ B1) (h2 : 0 ≤ B2) (h3 : 0 ≤ B3) :
    eval4 A0 B0 A1 B1 A2 B2 A3 B3 =
      some (A0 * Real.sqrt B0 + A1 * Real.sqrt B1 + A2 * Real.sqrt B2 + A3 * Real.sqrt B3) := by
  unfold eval4
  rw [C42_eval2 _ _ _ _ h0 h1, C42_eval2 _ _ _ _ h2 h3,
    C42_eval3 _ _ _ _ _ _ (by norm_num) (mul_nonneg h0 h1) (mul_nonneg h2 h3)]
  simp only [Option.bind_eq_bind, Option.bind_some]
  split_ifs with h
  · simp only [Option.pure_def]; congr 1; ring
  · refine divE_of (diff_ne h) ?_
    have e0 : Real.sqrt B0 * Real.sqrt B0 = B0 := Real.mul_self_sqrt (by exact_mod_cast h0)
    have e1 : Real.sqrt B1 * Real.sqrt B1 = B1 := Real.mul_self_sqrt (by exact_mod_cast h1)
    have e2 : Real.sqrt B2 * Real.sqrt B2 = B2 := Real.mul_self_sqrt (by exact_mod_cast h2)
    have e3 : Real.sqrt B3 * Real.sqrt B3 = B3 := Real.mul_self_sqrt (by exact_mod_cast h3)
    have e01 : Real.sqrt ((B0 * B1 : Int) : ℝ) = Real.sqrt B0 * Real.sqrt B1 := by
      push_cast; exact Real.sqrt_mul (by exact_mod_cast h0) _
    have e23 : Real.sqrt ((B2 * B3 : Int) : ℝ) = Real.sqrt B2 * Real.sqrt B3 := by
      push_cast; exact Real.sqrt_mul (by exact_mod_cast h2) _
    rw [e01, e23]
    push_cast
    rw [Real.sqrt_one]
    linear_combination -(A0 : ℝ) * A0 * e0 - A1 * A1 * e1 + A2 * A2 * e2 + A3 * A3 * e3

-- total cancellation goes through the dividing branch: `2*sqrt 2 - sqrt 8 = 0`
example : eval2 2 2 (-1) 8 = some 0 := by
  rw [C42_eval2 _ _ _ _ (by norm_num) (by norm_num)]
  have : Real.sqrt (8 : ℝ) = 2 * Real.sqrt 2 := by
    rw [show (8 : ℝ) = 2 ^ 2 * 2 by norm_num, Real.sqrt_mul (by norm_num), Real.sqrt_sq (by norm_num)]
  push_cast; rw [this]; congr 1; ring

end Verif.Properties.Robust
