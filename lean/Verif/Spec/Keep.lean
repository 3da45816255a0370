import Verif.Spec.PolyForm
import Verif.Spec.Extents
import Mathlib.Algebra.BigOperators.Intervals
import Mathlib.Data.Int.Interval
/-!
# Specification: the size of a polygon
-/
namespace Verif.Spec

/-- The polygon holds `n` unit cells. -/
def HasCells (P : List (Int × Int)) (n : Int) : Prop :=
  ∃ lo hi : Int, (∀ p ∈ P, lo ≤ p.1 ∧ p.1 ≤ hi ∧ lo ≤ p.2 ∧ p.2 ≤ hi) ∧
    ∑ x ∈ Finset.Ico lo hi, ∑ y ∈ Finset.Ico lo hi, (if wind P (x, y) = 0 then 0 else 1) = n

/-- The polygon is `w` wide and `h` high: that is the size of the least rectangle around its vertices. -/
def HasSize (P : List (Int × Int)) (w h : Int) : Prop :=
  ∃ xl yl xh yh : Int, IsExtents (fun q => ∃ p ∈ P, q = ((p.1 : ℚ), (p.2 : ℚ))) xl yl xh yh ∧ xh - xl = w ∧ yh - yl = h

/-- The area of a counterclockwise outline with clockwise holes, by the shoelace formula. -/
def HasArea (outer : List (Int × Int)) (holes : List (List (Int × Int))) (a : ℚ) : Prop :=
  2 * a = shoelace outer + (holes.map (fun l => (shoelace l : ℚ))).sum

end Verif.Spec
