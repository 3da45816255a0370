import Mathlib.Data.Rat.Defs
import Mathlib.Algebra.Order.Field.Rat
import Mathlib.Data.Set.Card
/-!
# IEEE 754 binary64: the number a bit pattern stands for
-/
namespace Verif.Spec.Double

/-- The biased exponent: bits 52 to 62. -/
def expo (w : Nat) : Nat := w / 2 ^ 52 % 2 ^ 11
/-- The fraction: bits 0 to 51. -/
def frac (w : Nat) : Nat := w % 2 ^ 52
/-- The sign bit. -/
def sign (w : Nat) : Nat := w / 2 ^ 63

/-- The pattern of a finite double: 64 bits, biased exponent not 2047. -/
def IsFinite (w : Nat) : Prop := w < 2 ^ 64 ∧ expo w ≠ 2047

/-- The value: `(-1)^s * 0.f * 2^-1022` if the biased exponent is zero, and
`(-1)^s * 1.f * 2^(e - 1023)` otherwise. -/
def val (w : Nat) : ℚ :=
  (-1) ^ sign w *
    (if expo w = 0 then (frac w : ℚ) / 2 ^ 52 * (2 : ℚ) ^ (-1022 : Int)
     else (1 + (frac w : ℚ) / 2 ^ 52) * (2 : ℚ) ^ ((expo w : Int) - 1023))

/-- The finite doubles (as numbers) greater than `x` and not greater than `y`: the steps from `x` up
to `y`. -/
def steps (x y : ℚ) : Set ℚ := {v | (∃ w, IsFinite w ∧ val w = v) ∧ x < v ∧ v ≤ y}

end Verif.Spec.Double
