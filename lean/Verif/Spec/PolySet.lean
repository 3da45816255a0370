import Verif.Spec.Arb
/-!
# Specification: the winding number of a polygon with edges at any angle
-/
namespace Verif.Spec.Arb
open Verif.Spec

/-- What one directed edge adds to the winding number: the downward ray from the point meets it going right
(+1) or left (-1); the span of an edge includes its left end and not its right one. -/
def crossing (q : ℚ × ℚ) (e : Edge) : Int :=
  if (e.1.1 : ℚ) ≤ q.1 ∧ q.1 < e.2.1 ∧ lineY e.1 e.2 q.1 ≤ q.2 then 1
  else if (e.2.1 : ℚ) ≤ q.1 ∧ q.1 < e.1.1 ∧ lineY e.1 e.2 q.1 ≤ q.2 then -1 else 0

/-- The winding number of the closed polygon around the point, counter-clockwise positive. -/
def windAt (P : List (Int × Int)) (q : ℚ × ℚ) : Int := ((edges P).map (crossing q)).sum

/-- +1 for polygons listed counter-clockwise, -1 otherwise. -/
def orient (P : List (Int × Int)) : Int := if 0 < shoelace P then 1 else -1

/-- What an object adds to the depth: the winding number of its outer polygon, taken counter-clockwise, minus
those of its holes. -/
def objDepth (P : List (Int × Int)) (H : List (List (Int × Int))) (q : ℚ × ℚ) : Int :=
  orient P * windAt P q - (H.map (fun h => orient h * windAt h q)).sum

end Verif.Spec.Arb
