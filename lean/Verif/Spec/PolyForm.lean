import Verif.Spec.ResizePoly
import Verif.Spec.Region
import Verif.Model.PolyForm
/-!
# Specification: the boundaries a program reads from a Manhattan polygon set
-/
namespace Verif.Spec
open Verif.PolyForm Verif.Polygon Verif.Set90

/-- The vertices of a polygon with holes, as its point iterators give them. -/
def pts (p : Poly) : List (Int × Int) × List (List (Int × Int)) := (expand p.outer, p.holes.map expand)

/-- The set after inserting each of the polygons with holes. -/
def insertAll (s : PSet) (ps : List (List (Int × Int) × List (List (Int × Int)))) : PSet :=
  ps.foldl (fun s p => s.insertPolyHoles p.1 p.2 false) s

/-- A proper Manhattan boundary: at least four vertices, edges alternately horizontal and vertical,
none of them of length zero. -/
structure Proper (P : List (Int × Int)) : Prop where
  four : 4 ≤ P.length
  alternating : Alternating P
  noZero : NoZeroEdge P

/-- Counter-clockwise, going round every point at most once. -/
def OnceCCW (P : List (Int × Int)) : Prop := ∀ q, wind P q = 0 ∨ wind P q = 1

/-- Clockwise, going round every point at most once. -/
def OnceCW (P : List (Int × Int)) : Prop := ∀ q, wind P q = 0 ∨ wind P q = -1

/-- In a polygon with holes: inside the outer boundary and in none of the holes. -/
def InPoly (p : List (Int × Int) × List (List (Int × Int))) (q : ℚ × ℚ) : Prop := wind p.1 q ≠ 0 ∧ ∀ h ∈ p.2, wind h q = 0

/-- The edge runs along the unit piece of the grid from `(x, y)` to `(x + 1, y)`. -/
def AlongH (x y : Int) (e : (Int × Int) × (Int × Int)) : Prop :=
  e.1.2 = y ∧ e.2.2 = y ∧ min e.1.1 e.2.1 ≤ x ∧ x < max e.1.1 e.2.1

/-- The edge runs along the unit piece of the grid from `(x, y)` to `(x, y + 1)`. -/
def AlongV (x y : Int) (e : (Int × Int) × (Int × Int)) : Prop :=
  e.1.1 = x ∧ e.2.1 = x ∧ min e.1.2 e.2.2 ≤ y ∧ y < max e.1.2 e.2.2

instance (x y : Int) : DecidablePred (AlongH x y) := fun _ => inferInstanceAs (Decidable (_ ∧ _))
instance (x y : Int) : DecidablePred (AlongV x y) := fun _ => inferInstanceAs (Decidable (_ ∧ _))

/-- The middle of the unit cell whose lower left corner is `(x, y)`. -/
def cell (x y : Int) : ℚ × ℚ := (x + 1 / 2, y + 1 / 2)

/-- All edges of a list of polygons with holes. -/
def boundaryEdges (polys : List (List (Int × Int) × List (List (Int × Int)))) : List ((Int × Int) × (Int × Int)) :=
  (boundaries polys).flatMap edges

end Verif.Spec
