import Verif.Model.ResizeGet
import Verif.Model.Extents
/-!
# Model of the free functions on Manhattan polygon sets

`CON` is `/repo/include/boost/polygon/polygon_90_set_concept.hpp`, `TRA` is `polygon_90_set_traits.hpp`. The functions are templates over
everything that counts as a polygon set; they are modelled for `polygon_90_set_data`.
-/
namespace Verif.Concept90
open Verif.Set90 Verif.Polygon Verif.PolyForm Verif.ResizePoly Verif.Isotropy Verif.Rectangle

/-- `assign` of a set to a list or vector of polygons without holes, CON 46-56 and TRA 278-300: a new set of the orientation of the
argument takes its vertices, is cleaned, and is read (TRA 259-262). The argument itself is not cleaned. -/
def polysOf (umax : Int) (s : PSet) : Option (List Poly) := do
  let (ps, _) ← ((PSet.mk0 s.orient).insertSet s).getPolys true umax
  return ps

/-- `assign` of a list of polygons to a set, CON 46-56 and TRA 307-313: `clear`, then `insert` for every polygon
(polygon_90_set_data.hpp 106-115, 134-139). -/
def assignPolys (s : PSet) (ps : List Poly) : PSet := ps.foldl (fun s p => s.insertPoly (expand p.outer) false) s.clear

/-- The tests of the loop of `keep`, CON 530-540. `extents` and `area` take the points of the polygon; without points the rectangle is the
default one (`rectangle_data.hpp` 22). -/
def keepTest (minArea maxArea minWidth maxWidth minHeight maxHeight : Int) (p : Poly) : Bool :=
  let bbox := (Extents.polyExtents (expand p.outer)).getD ⟨⟨0, 0⟩, ⟨0, 0⟩⟩
  let pwidth := deltaRect bbox HORIZONTAL
  if pwidth > minWidth && pwidth ≤ maxWidth then
    let pheight := deltaRect bbox VERTICAL
    if pheight > minHeight && pheight ≤ maxHeight then
      let parea := areaHoles90 (expand p.outer) []
      parea ≤ maxArea && parea ≥ minArea
    else false
  else false

/-- `keep`, CON 509-546. The six limits have an unsigned type in the code and are integers here. -/
def keep (umax minArea maxArea minWidth maxWidth minHeight maxHeight : Int) (s : PSet) : Option PSet := do
  let polys ← polysOf umax s
  return assignPolys s.clear (polys.filter (keepTest minArea maxArea minWidth maxWidth minHeight maxHeight))

end Verif.Concept90
