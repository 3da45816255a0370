import Verif.Model.VoronoiCircle
import Verif.Properties.Robust
/-!
# The nested square-root expressions of circle events have their algebraic values
-/
namespace Verif.CircleProofs
open Verif.Robust Verif.Voronoi Verif.Properties.Robust

theorem divE_some {x y : ℝ} (hy : y ≠ 0) : divE x y = some (x / y) := by
  unfold divE; rw [if_neg hy]

theorem sqrt_self {B : Int} (h : 0 ≤ B) : Real.sqrt B * Real.sqrt B = B := Real.mul_self_sqrt (by exact_mod_cast h)

theorem sqrt_mul' {B C : Int} (h : 0 ≤ B) : Real.sqrt ((B * C : Int) : ℝ) = Real.sqrt B * Real.sqrt C := by
  push_cast; exact Real.sqrt_mul (by exact_mod_cast h) _

theorem pss3_eq (A0 B0 A1 B1 A2 A3 : Int) (h0 : 0 ≤ B0) (h1 : 0 ≤ B1) :
    pss3 A0 B0 A1 B1 A2 1 A3 (B0 * B1) =
      some (A0 * Real.sqrt B0 + A1 * Real.sqrt B1 + A2 + A3 * (Real.sqrt B0 * Real.sqrt B1)) := by
  unfold pss3
  rw [C42_eval2 _ _ _ _ h0 h1, C42_eval2 _ _ _ _ (by norm_num) (mul_nonneg h0 h1), C42_eval2 _ _ _ _ (by norm_num) (mul_nonneg h0 h1)]
  simp only [Option.bind_eq_bind, Option.bind_some, sqrt_mul' h0, Int.cast_one, Real.sqrt_one, mul_one]
  split_ifs with h
  · simp only [Option.pure_def]; congr 1; ring
  · refine divE_of (diff_ne h) ?_
    have e0 := sqrt_self h0
    have e1 := sqrt_self h1
    push_cast
    linear_combination -(A0 : ℝ) * A0 * e0 - A1 * A1 * e1 + (A3 : ℝ) * A3 * (Real.sqrt B1 * Real.sqrt B1 * e0 + B0 * e1)

/-- The value of the nested expression. -/
theorem pss4_eq (A0 B0 A1 B1 A2 B2 A3 B3 : Int) (h0 : 0 ≤ B0) (h1 : 0 ≤ B1) (h3 : 0 ≤ B3)
    (hq : 0 ≤ Real.sqrt B0 * Real.sqrt B1 + B2) :
    pss4 A0 B0 A1 B1 A2 B2 A3 B3 =
      some (A0 * Real.sqrt B0 + A1 * Real.sqrt B1 + A3 +
        A2 * (Real.sqrt B3 * Real.sqrt (Real.sqrt B0 * Real.sqrt B1 + B2))) := by
  have e0 := sqrt_self h0
  have e1 := sqrt_self h1
  have e3 := sqrt_self h3
  have eq := Real.mul_self_sqrt hq
  unfold pss4
  rw [C42_eval2 _ _ _ _ (mul_nonneg h0 h1) (by norm_num), C42_eval2 _ _ _ _ h0 h1, C42_eval2 _ _ _ _ (by norm_num) (mul_nonneg h0 h1),
    C42_eval3 _ _ _ _ _ _ h0 h1 (by norm_num), pss3_eq _ _ _ _ _ _ h0 h1]
  simp only [Option.bind_eq_bind, Option.bind_some, sqrt_mul' h0, Int.cast_one, Real.sqrt_one, mul_one, one_mul]
  by_cases hz : A3 = 0
  · rw [if_pos hz]
    subst hz
    by_cases h : sameSide (A0 * Real.sqrt B0 + A1 * Real.sqrt B1) (eval1 A2 B3 * Real.sqrt (Real.sqrt B0 * Real.sqrt B1 + B2))
    · rw [if_pos h, Option.pure_def]; congr 1; simp only [eval1]; push_cast; ring
    · rw [if_neg h]
      refine divE_of (diff_ne h) ?_
      simp only [eval1]
      clear h
      generalize Real.sqrt (Real.sqrt B0 * Real.sqrt B1 + B2) = q at *
      generalize Real.sqrt (B0 : ℝ) = s0 at *
      generalize Real.sqrt (B1 : ℝ) = s1 at *
      generalize Real.sqrt (B3 : ℝ) = s3 at *
      push_cast
      linear_combination -(A0 : ℝ) * A0 * e0 - A1 * A1 * e1 + (A2 : ℝ) * A2 * (q * q * e3 + B3 * eq)
  · rw [if_neg hz]
    by_cases h : sameSide (A0 * Real.sqrt B0 + A1 * Real.sqrt B1 + A3) (eval1 A2 B3 * Real.sqrt (Real.sqrt B0 * Real.sqrt B1 + B2))
    · rw [if_pos h, Option.pure_def]; congr 1; simp only [eval1]; ring
    · rw [if_neg h]
      refine divE_of (diff_ne h) ?_
      simp only [eval1]
      clear h
      generalize Real.sqrt (Real.sqrt B0 * Real.sqrt B1 + B2) = q at *
      generalize Real.sqrt (B0 : ℝ) = s0 at *
      generalize Real.sqrt (B1 : ℝ) = s1 at *
      generalize Real.sqrt (B3 : ℝ) = s3 at *
      push_cast
      linear_combination -(A0 : ℝ) * A0 * e0 - A1 * A1 * e1 + (A2 : ℝ) * A2 * (q * q * e3 + B3 * eq)

end Verif.CircleProofs
