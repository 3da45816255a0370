import Mathlib.Data.Rat.Defs
import Mathlib.Algebra.Order.Ring.Rat
import Mathlib.Data.List.Rotate
/-!
# Specification for `simplify`: distance to a segment and to a line

Nothing here refers to the model.
-/
namespace Verif.Spec.Simplify

/-- `b` is within `len` of the point `q`. -/
def Within (len : ℚ) (b q : ℚ × ℚ) : Prop := (b.1 - q.1) ^ 2 + (b.2 - q.2) ^ 2 ≤ len ^ 2

/-- `b` is within `len` of some point of the segment from `a` to `c`. -/
def NearSegment (len : ℚ) (a b c : ℚ × ℚ) : Prop :=
  ∃ t : ℚ, 0 ≤ t ∧ t ≤ 1 ∧ Within len b (a.1 + t * (c.1 - a.1), a.2 + t * (c.2 - a.2))

/-- `b` is within `len` of some point of the infinite line through `a` and `c`. -/
def NearLine (len : ℚ) (a b c : ℚ × ℚ) : Prop :=
  ∃ t : ℚ, Within len b (a.1 + t * (c.1 - a.1), a.2 + t * (c.2 - a.2))

/-- The vertices of `d` are, in cyclic order, some of the vertices of `s`. -/
def CyclicSublist {α : Type} (d s : List α) : Prop := ∃ k, d.Sublist (s.rotate k)

end Verif.Spec.Simplify
