import Verif.Model.ArbGet
import Verif.Model.Form45
import Verif.Model.Polygon
/-!
# Model of the area of a polygon set

The area of a set is that of the polygons with holes read from it. The code adds in `long double`; the model is exact.
-/
namespace Verif.SetArea
open Verif

/-- The loop over the polygons, `polygon_set_concept.hpp` 145-149 and `polygon_45_set_concept.hpp` 139-143. -/
def sumAreas (polys : List ArbForm.Poly) : ℚ := polys.foldl (fun r P => r + Polygon.areaHolesQ P.outer P.holes) 0

/-- `area(polygon_set)`, `polygon_set_concept.hpp` 136-150: the polygons with holes of the set are read (`assign(polys, polygon_set)`, line 144) and
their areas added. `none` if the edges cannot be read, as in `getPolys`. -/
def area (fp : Cut.FP) (umin umax : Int) (S : PolySet.Data) : Option ℚ := (ArbForm.getPolys fp umin umax S).map sumAreas

/-- `area(polygon_45_set)`, `polygon_45_set_concept.hpp` 129-144. `none` if reading the polygons throws. -/
def area45 (umin umax : Int) (s : Set45.S45) : Option ℚ :=
  match Form45.get umin umax s with
  | .polys out => some (sumAreas out)
  | _ => none

end Verif.SetArea
