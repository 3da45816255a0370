import Verif.Model.ArbGet
import Verif.Model.Form45
import Verif.Model.Polygon
import Verif.Model.Transform
/-!
# Model of the motions of polygons and polygon sets

`PT` is `/repo/include/boost/polygon/polygon_traits.hpp`, `PSD` is `polygon_set_data.hpp` and `PS45` is `polygon_45_set_data.hpp`. Coordinates are
unbounded integers, so nothing overflows.
-/
namespace Verif.SetTransform
open Verif Verif.Transform Verif.PolySet Verif.Set45
open Verif.ArbForm (Poly)

/-- `transform` of a polygon without holes, PT 653-664: every point, in order. -/
def transformPts (t : Transformation) (P : List (Int × Int)) : List (Int × Int) := P.map t.transform

/-- `transform` of a polygon with holes, PT 668-684. -/
def transformPoly (t : Transformation) (P : Poly) : Poly := ⟨transformPts t P.outer, P.holes.map (transformPts t)⟩

/-- `convolve` with a point, PT 603-615. -/
def convolvePts (d : Int × Int) (P : List (Int × Int)) : List (Int × Int) := P.map (fun p => (p.1 + d.1, p.2 + d.2))

/-- `convolve` of a polygon with holes with a point, PT 623-638. -/
def convolvePoly (d : Int × Int) (P : Poly) : Poly := ⟨convolvePts d P.outer, P.holes.map (convolvePts d)⟩

/-- `move`, PT 643-647. -/
def move (orient : Nat) (d : Int) (P : Poly) : Poly :=
  if orient = Isotropy.HORIZONTAL then convolvePoly (d, 0) P else convolvePoly (0, d) P

/-- `scale_up`, PT 686-697. -/
def scaleUpPts (k : Int) (P : List (Int × Int)) : List (Int × Int) := P.map (fun p => (p.1 * k, p.2 * k))

/-- `scale_up` of a polygon with holes, PT 700-716. -/
def scaleUpPoly (k : Int) (P : Poly) : Poly := ⟨scaleUpPts k P.outer, P.holes.map (scaleUpPts k)⟩

/-- `transform` of a set at any angle, PSD 361-373. -/
def transformSet (fp : Cut.FP) (umin umax : Int) (t : Transformation) (S : Data) : Option Data := do
  let polys ← ArbForm.getPolys fp umin umax S
  some (polys.foldl (fun D P => let P := transformPoly t P; insertHoles D P.outer P.holes false) [])

/-- The insertion of the moved polygons into the cleared set, PS45 1166-1175; the flags are set at the end. -/
def refill (t : Transformation) (polys : List Poly) : S45 :=
  let polys := polys.map (transformPoly t)
  let s := polys.foldl (fun s P => s.insertHoles P.outer P.holes false) S45.new
  { s with dirty := true, unsorted := true }

/-- `transform` of a 45-degree set, PS45 1161-1177. -/
def transform45 (umin umax : Int) (t : Transformation) (s : S45) : Out :=
  match s.clean umin umax with
  | .ok u => (match Form45.get umin umax u with | .polys out => .ok (refill t out) | .undefined => .undef | .fail e => .fail e)
  | e => e

/-- `scale_up` of a 45-degree set, PS45 1180-1183 and 451-456. -/
def scaleUp45 (k : Int) (s : S45) : S45 := { s with data := s.data.map (fun v => ((v.1.1 * k, v.1.2 * k), v.2)) }

end Verif.SetTransform
