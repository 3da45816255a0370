import Verif.Model.Touch
import Verif.Model.PolyForm
/-!
# Model of `polygon_90_set_data::interact`

Line numbers refer to `/repo/include/boost/polygon/polygon_90_set_data.hpp`.
-/
namespace Verif.Interact
open Verif.Set90 Verif.Polygon Verif.PolyForm Verif.Touch

/-- The loop of lines 797-802: polygon `i` of the set, as a cleaned set of its own, is given the number `i + 1`
(`i` counts from `n` here). -/
def addPolys (umax : Int) (orient : Nat) : Nat → Data → List Poly → Option Data
  | _, d, [] => some d
  | n, d, p :: r => do
    let ps ← ((PSet.mk0 orient).insertPoly (expand p.outer) false).clean umax
    addPolys umax orient (n + 1) (populate umax d ps.data (n + 1)) r

/-- The loop of lines 805-807 over the neighbours `graph[0]`, a set of numbers in increasing order, with `n`
the number of polygons passed. -/
def keepPolys (g : Graph) : Nat → PSet → List Poly → PSet
  | _, s, [] => s
  | n, s, p :: r => keepPolys g (n + 1) (if (0, n + 1) ∈ g then s.insertPoly (expand p.outer) false else s) r

/-- `interact`, lines 789-810, for two distinct objects. The argument is cleaned, and thereby sorted, only when
its dirty flag is set (line 791). The dirty flag of the result is cleared without cleaning (line 808). -/
def _root_.Verif.Set90.PSet.interact (umax : Int) (s that : PSet) : Option PSet := do
  let that ← if that.dirty then that.clean umax else some that
  let d := populate umax ⟨[], []⟩ that.data 0
  let (polys, s) ← s.getPolys true umax
  let d ← addPolys umax that.orient 0 d polys
  let g ← touchGo [] .init d.left d.right
  return { keepPolys g 0 s.clear polys with dirty := false }

end Verif.Interact
