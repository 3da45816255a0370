import Mathlib.Data.Rat.Defs
import Mathlib.Algebra.Order.Ring.Rat
/-!
# Specification: the least rectangle around a region
-/
namespace Verif.Spec

/-- The rectangle from `(xl, yl)` to `(xh, yh)` contains every point of the region, and lies in every rectangle that does. -/
def IsExtents (R : ℚ × ℚ → Prop) (xl yl xh yh : Int) : Prop :=
  (∀ q, R q → (xl ≤ q.1 ∧ q.1 ≤ xh) ∧ yl ≤ q.2 ∧ q.2 ≤ yh) ∧
  ∀ a b c d : ℚ, (∀ q, R q → (a ≤ q.1 ∧ q.1 ≤ c) ∧ b ≤ q.2 ∧ q.2 ≤ d) → (a ≤ xl ∧ xh ≤ c) ∧ b ≤ yl ∧ yh ≤ d

end Verif.Spec
