import Verif.Model.Interval
import Mathlib.Data.Rat.Cast.Order
import Mathlib.Algebra.Order.Field.Rat
/-!
# Point-set specifications for intervals

An interval denotes a set of rational points of the line; nothing of the code's
predicates is used here.
-/
namespace Verif.Spec
open Verif.Interval

/-- Well-formed interval: `low ≤ high` (what `construct` guarantees). -/
def WF (i : Ivl) : Prop := i.lo ≤ i.hi
/-- `x` belongs to the closed interval. -/
def Mem (i : Ivl) (x : ℚ) : Prop := (i.lo : ℚ) ≤ x ∧ x ≤ (i.hi : ℚ)
/-- `x` belongs to the open interval. -/
def Inside (i : Ivl) (x : ℚ) : Prop := (i.lo : ℚ) < x ∧ x < (i.hi : ℚ)

instance (i : Ivl) : Decidable (WF i) := inferInstanceAs (Decidable (_ ≤ _))

end Verif.Spec
