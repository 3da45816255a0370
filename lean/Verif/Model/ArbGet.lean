import Verif.Model.Cut
import Verif.Model.ArbForm
/-!
# Model of `get` of `polygon_set_data.hpp` for polygons with holes

`PSD` is `/repo/include/boost/polygon/polygon_set_data.hpp`.
-/
namespace Verif.ArbForm
open Verif.Cut

/-- `get` of a dirty set into a container of polygons with holes, PSD lines 234-237, 785-802: the set is cleaned, then
the polygons are formed. `D` is the data after `sort()`. -/
def getPolys (fp : FP) (umin umax : Int) (D : PolySet.Data) : Option (List Poly) := do form (← clean fp umin umax D)

end Verif.ArbForm
