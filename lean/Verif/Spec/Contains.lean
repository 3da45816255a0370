import Verif.Spec.Segment
import Verif.Spec.Polygon
/-!
# Specification of point-in-polygon: boundary and even-odd crossing count
-/
namespace Verif.Spec
open Verif.Segment

/-- The ordinate, at the abscissa `x`, of the line through `a` and `b` (which have different
abscissae). -/
def lineY (a b : Int × Int) (x : ℚ) : ℚ := a.2 + (b.2 - a.2) * (x - a.1) / (b.1 - a.1)

/-- The edge spans the abscissa of `p` (counting its left end, not its right end) and passes
strictly below `p`: the downward vertical ray from `p` crosses it. -/
def CrossedBelow (p : Int × Int) (e : (Int × Int) × (Int × Int)) : Prop :=
  min e.1.1 e.2.1 ≤ p.1 ∧ p.1 < max e.1.1 e.2.1 ∧ lineY e.1 e.2 p.1 < p.2

instance (p : Int × Int) (e : (Int × Int) × (Int × Int)) : Decidable (CrossedBelow p e) :=
  inferInstanceAs (Decidable (_ ∧ _))

/-- The point is on the boundary: on some edge (end points included). -/
def OnBoundary (P : List (Int × Int)) (p : Int × Int) : Prop :=
  ∃ e ∈ edges P, OnSeg ⟨e.1, e.2⟩ ((p.1 : ℚ), (p.2 : ℚ))

/-- The downward vertical ray from the point crosses an odd number of edges. -/
def OddCrossings (P : List (Int × Int)) (p : Int × Int) : Prop :=
  (edges P).countP (fun e => decide (CrossedBelow p e)) % 2 = 1

/-- The vertical edge is strictly left of `p` and spans its ordinate (counting its lower end, not
its upper end): the leftward horizontal ray from `p` crosses it. -/
def CrossedLeft (p : Int × Int) (e : (Int × Int) × (Int × Int)) : Prop :=
  e.1.1 = e.2.1 ∧ e.1.1 < p.1 ∧ min e.1.2 e.2.2 ≤ p.2 ∧ p.2 < max e.1.2 e.2.2

instance (p : Int × Int) (e : (Int × Int) × (Int × Int)) : Decidable (CrossedLeft p e) :=
  inferInstanceAs (Decidable (_ ∧ _))

/-- The leftward horizontal ray from the point crosses an odd number of vertical edges of the
rectilinear polygon. -/
def OddCrossingsLeft (P : List (Int × Int)) (p : Int × Int) : Prop :=
  (edges P).countP (fun e => decide (CrossedLeft p e)) % 2 = 1

end Verif.Spec
