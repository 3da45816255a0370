import Verif.Model.ArbGet
import Verif.Model.Extents
/-!
# Model of `keep` for polygon sets at any angle

`CON` is `/repo/include/boost/polygon/polygon_set_concept.hpp`, `TRA` is `polygon_set_traits.hpp`, `PSD` is `polygon_set_data.hpp`. The functions are
templates over everything that counts as a polygon set; they are modelled for `polygon_set_data` with data that is dirty. `srt` is `sort()`,
PSD 318-324, which puts the data into some order.
-/
namespace Verif.ArbKeep
open Verif.PolySet Verif.Polygon Verif.Isotropy Verif.Rectangle Verif.Cut Verif.ArbForm

/-- `assign` of a set to a list of polygons with holes, CON 47-61 and TRA 79-87: the set is cleaned (TRA 125), a new set takes its edges and is
read. -/
def polysOf (fp : FP) (umin umax : Int) (srt : Data → Data) (S : Data) : Option (List ArbForm.Poly) := do
  let C ← clean fp umin umax (srt S)
  getPolys fp umin umax (srt (PolySet.insertSet [] C false))

/-- `assign` of a list of polygons with holes to a set, CON 47-61 and TRA 103-110: a new set takes the polygons and is cleaned, the set takes its
edges (PSD 325-332). -/
def assignPolys (fp : FP) (umin umax : Int) (srt : Data → Data) (ps : List ArbForm.Poly) : Option Data := do
  let C ← clean fp umin umax (srt (ps.foldl (fun D P => insertHoles D P.outer P.holes false) []))
  return PolySet.insertSet [] C false

/-- The tests of the loop of `keep`, CON 284-298. The limits have unsigned and floating-point types in the code and are exact here. `extents`
takes the points of the outer outline; without points the rectangle is the default one (`rectangle_data.hpp` 22). -/
def keepTest (minArea maxArea : ℚ) (minWidth maxWidth minHeight maxHeight : Int) (p : ArbForm.Poly) : Bool :=
  let bbox := (Extents.polyExtents p.outer).getD ⟨⟨0, 0⟩, ⟨0, 0⟩⟩
  let pwidth := deltaRect bbox HORIZONTAL
  if pwidth > minWidth && pwidth ≤ maxWidth then
    let pheight := deltaRect bbox VERTICAL
    if pheight > minHeight && pheight ≤ maxHeight then
      let parea := areaHolesQ p.outer p.holes
      parea ≤ maxArea && parea ≥ minArea
    else false
  else false

/-- `keep`, CON 265-302. -/
def keep (fp : FP) (umin umax : Int) (srt : Data → Data) (minArea maxArea : ℚ) (minWidth maxWidth minHeight maxHeight : Int) (S : Data) : Option Data := do
  let polys ← polysOf fp umin umax srt S
  assignPolys fp umin umax srt (polys.filter (keepTest minArea maxArea minWidth maxWidth minHeight maxHeight))

end Verif.ArbKeep
