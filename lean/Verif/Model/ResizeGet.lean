import Verif.Model.ResizePoly
import Verif.Model.PolyForm
/-!
# Model of bloating and shrinking a Manhattan polygon set in one direction

Line numbers refer to `/repo/include/boost/polygon/polygon_90_set_data.hpp`.
-/
namespace Verif.ResizePoly
open Verif.Set90 Verif.Polygon Verif.PolyForm

/-- The polygons of the list `get` fills: a `polygon_45_data` copies the vertices the point iterators of the
Manhattan polygon give (polygon_45_data.hpp lines 29-33). -/
def verticesOf (p : Poly) : PolyHoles := (expand p.outer, p.holes.map expand)

/-- `bloat(dir, amount)` on a set, lines 665-674 and 489-553: `get`, `clear`, then polygon by polygon. -/
def _root_.Verif.Set90.PSet.bloatIn (umax : Int) (dir : Nat) (d : Int) (s : PSet) : Option PSet := do
  let (ps, t) ← s.getPolys false umax
  bloatDir dir d t.clear (ps.map verticesOf)

/-- `shrink(dir, amount)` on a set, lines 654-663 and 555-622. -/
def _root_.Verif.Set90.PSet.shrinkIn (umax : Int) (dir : Nat) (d : Int) (s : PSet) : Option PSet := do
  let (ps, t) ← s.getPolys false umax
  shrinkDir dir d t.clear (ps.map verticesOf)

end Verif.ResizePoly
