import Verif.Model.Concept90
/-!
# Model of the resizing functions of Manhattan polygon sets

`SET` is `/repo/include/boost/polygon/polygon_90_set_data.hpp`, `CON` is `polygon_90_set_concept.hpp`, `TRA` is `polygon_90_set_traits.hpp`.
Amounts have an unsigned type in `bloat` and `shrink` and the coordinate type in `resize`; they are integers here.
-/
namespace Verif.Resize90
open Verif.Set90 Verif.Polygon Verif.PolyForm Verif.ResizePoly Verif.Isotropy Verif.Concept90

/-- The member `bloat(west, east, south, north)`, SET 489-553: `get`, `clear`, then polygon by polygon. -/
def bloatBy (umax w e s n : Int) (set : PSet) : Option PSet := do
  let (ps, t) ← set.getPolys false umax
  bloatPolys w e s n t.clear (ps.map verticesOf)

/-- The member `shrink(west, east, south, north)`, SET 555-622. -/
def shrinkBy (umax w e s n : Int) (set : PSet) : Option PSet := do
  let (ps, t) ← set.getPolys false umax
  shrinkPolys w e s n t.clear (ps.map verticesOf)

/-- The member `resize(west, east, south, north)`, SET 887-917. -/
def resizeBy (umax west east south north : Int) (set : PSet) : Option PSet :=
  let set := set.move (-west) (-south)
  let eTotal := west + east
  let nTotal := south + north
  if (decide (eTotal < 0) ^^ decide (nTotal < 0)) = true then
    if eTotal < 0 then do
      let t ← shrinkBy umax 0 (-eTotal) 0 0 set
      if nTotal ≠ 0 then bloatBy umax 0 0 0 nTotal t else return t
    else do
      let t ← shrinkBy umax 0 0 0 (-nTotal) set
      if eTotal ≠ 0 then bloatBy umax 0 eTotal 0 0 t else return t
  else if eTotal < 0 then shrinkBy umax 0 (-eTotal) 0 (-nTotal) set
  else bloatBy umax 0 eTotal 0 nTotal set

/-- `assign` of a set to another one, CON 43-53 and TRA 307-313. -/
def assignSet (s t : PSet) : PSet := s.clear.insertSet t

/-- The free `bloat(set, west, east, south, north)`, CON 252-267. The set used in between has the orientation of the default constructor
(SET 41). -/
def bloatFree (umax w e s n : Int) (set : PSet) : Option PSet := do
  let ps := assignSet (PSet.mk0 HORIZONTAL) set
  let ps ← bloatBy umax w e s n ps
  let ps ← ps.clean umax
  return assignSet set ps

/-- The free `shrink(set, west, east, south, north)`, CON 311-326. -/
def shrinkFree (umax w e s n : Int) (set : PSet) : Option PSet := do
  let ps := assignSet (PSet.mk0 HORIZONTAL) set
  let ps ← shrinkBy umax w e s n ps
  let ps ← ps.clean umax
  return assignSet set ps

/-- The free `bloat(set, orient, low, high)`, CON 225-234; with one amount, CON 215-223, it is the case `low = high`. -/
def bloatAlong (umax : Int) (orient : Nat) (low high : Int) (set : PSet) : Option PSet :=
  if orient = HORIZONTAL then bloatFree umax low high 0 0 set else bloatFree umax 0 0 low high set

/-- The free `shrink(set, orient, low, high)`, CON 285-294. -/
def shrinkAlong (umax : Int) (orient : Nat) (low high : Int) (set : PSet) : Option PSet :=
  if orient = HORIZONTAL then shrinkFree umax low high 0 0 set else shrinkFree umax 0 0 low high set

/-- The free `bloat(set, dir, amount)`, CON 236-250. -/
def bloatTo (umax : Int) (dir : Nat) (d : Int) (set : PSet) : Option PSet :=
  if dir = EAST then bloatFree umax 0 d 0 0 set
  else if dir = WEST then bloatFree umax d 0 0 0 set
  else if dir = SOUTH then bloatFree umax 0 0 d 0 set
  else bloatFree umax 0 0 0 d set

/-- The free `shrink(set, dir, amount)`, CON 296-309. -/
def shrinkTo (umax : Int) (dir : Nat) (d : Int) (set : PSet) : Option PSet :=
  if dir = EAST then shrinkFree umax 0 d 0 0 set
  else if dir = WEST then shrinkFree umax d 0 0 0 set
  else if dir = SOUTH then shrinkFree umax 0 0 d 0 set
  else shrinkFree umax 0 0 0 d set

/-- The free `resize(set, west, east, south, north)`, CON 340-351. -/
def resizeFree (umax west east south north : Int) (set : PSet) : Option PSet := do
  let ps := assignSet (PSet.mk0 HORIZONTAL) set
  let ps ← resizeBy umax west east south north ps
  return assignSet set ps

/-- The free `self_intersect`, CON 182-193, by way of a set of the default orientation. -/
def selfIntersectFree (umin umax : Int) (set : PSet) : Option PSet := do
  let ps ← (assignSet (PSet.mk0 HORIZONTAL) set).selfIntersect umin umax
  return assignSet set ps

/-- The loop of `grow_and`, CON 409-415. -/
def growLoop (umax w e s n : Int) (orient : Nat) : List Poly → PSet → Option PSet
  | [], ps => some ps
  | p :: r, ps => do
    let tmp := (PSet.mk0 orient).insertPoly (expand p.outer) false
    let tmp ← bloatFree umax w e s n tmp
    let tmp ← tmp.clean umax
    growLoop umax w e s n orient r (ps.insertSet tmp)

/-- The free `grow_and(set, west, east, south, north)`, CON 396-419. -/
def growAnd (umin umax w e s n : Int) (set : PSet) : Option PSet := do
  let polys ← polysOf umax set
  let set := set.clear
  let ps ← growLoop umax w e s n set.orient polys (PSet.mk0 set.orient)
  let ps ← selfIntersectFree umin umax ps
  return assignSet set ps

end Verif.Resize90
