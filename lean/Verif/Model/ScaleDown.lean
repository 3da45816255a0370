import Verif.Model.Transform
import Verif.Model.PolySet
import Verif.Model.ArbForm
/-!
# Model of `scale_down` of polygons and polygon sets at any angle

`PT` is `/repo/include/boost/polygon/polygon_traits.hpp`, `PSD` `polygon_set_data.hpp`, `PC` `point_concept.hpp`. Coordinates are unbounded integers and the
division, which the code does in double precision, is exact.
-/
namespace Verif.ScaleDown
open Verif.PolySet

/-- One coordinate of `scale_down` of a point, PC 401-407. -/
def down (f x : Int) : Int := Transform.roundHalfUp ((x : Rat) / f)

/-- `scale_down` of a polygon outside the 45-degree domain, PT 722-738: every point, in order. -/
def scalePts (f : Int) (P : List (Int × Int)) : List (Int × Int) := P.map (fun p => (down f p.1, down f p.2))

/-- `scale_down` of a polygon with holes, PT 877-894. -/
def scalePoly (f : Int) (P : ArbForm.Poly) : ArbForm.Poly := ⟨scalePts f P.outer, P.holes.map (scalePts f)⟩

/-- `scale_down` of a set, PSD 385-399. The flags it sets make every later use of the set clean it first. -/
def scaleSet (f : Int) (D : Data) : Data := PolySet.scaleDown (down f) D

end Verif.ScaleDown
