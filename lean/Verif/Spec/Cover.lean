import Verif.Model.BooleanOp
import Mathlib.Data.Rat.Cast.Order
import Mathlib.Algebra.Order.Field.Rat
/-!
# Specification: the region a list of scanline vertices stands for

A vertex `(x, y, c)` adds `c` to every point that is neither left of it nor below it; the
number of times a vertex list covers a point is the sum of these contributions. Nothing of
the scanline algorithm is used here. For a rectangle the four corner vertices
`+1, -1, -1, +1` add up to one inside and zero outside (proved in `Properties/Set90.lean`,
`C07_insert_rectangle`), which is what ties this reading of the data to plain geometry.
-/
namespace Verif.Spec
open Verif.BooleanOp

/-- How many times (with sign) the vertex list covers the rational point `(x, y)`. -/
def cover (L : List V) (x y : ℚ) : ℤ :=
  (L.map (fun v => if (v.x : ℚ) ≤ x ∧ (v.y : ℚ) ≤ y then v.c else 0)).sum

end Verif.Spec
