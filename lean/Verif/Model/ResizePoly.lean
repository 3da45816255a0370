import Mathlib.Algebra.Order.Group.Unbundled.Int
import Verif.Model.Polygon
/-!
# Model of the polygon-wise resizing of Manhattan polygons

Line numbers refer to `/repo/include/boost/polygon/polygon_90_set_data.hpp`. Coordinates are unbounded.
A vector of points is a list; `none` is an access beyond its end.
-/
namespace Verif.ResizePoly
open Verif.BooleanOp Verif.Set90 Verif.Isotropy Verif.Polygon

/-- `modify_pt`, lines 370-401: the assignments to `pt` in the order of the code. -/
def modifyPt (pt prev cur next : Int × Int) (w e s n : Int) : Int × Int :=
  let pt := if prev.1 < cur.1 then (pt.1, cur.2 - s) else pt
  let pt := if prev.1 > cur.1 then (pt.1, cur.2 + n) else pt
  let pt := if next.1 < cur.1 then (pt.1, cur.2 + n) else pt
  let pt := if next.1 > cur.1 then (pt.1, cur.2 - s) else pt
  let pt := if prev.2 < cur.2 then (cur.1 + e, pt.2) else pt
  let pt := if prev.2 > cur.2 then (cur.1 - w, pt.2) else pt
  let pt := if next.2 < cur.2 then (cur.1 - w, pt.2) else pt
  let pt := if next.2 > cur.2 then (cur.1 + e, pt.2) else pt
  pt

/-- The loop over `poly[2]`, `poly[3]`, ... and the treatment of `poly.back()` and `poly[0]` after it,
lines 411-422 and 437-453: the new values of `poly[1]`, `poly[2]`, ..., `poly.back()`, `poly[0]`. -/
def modifyGo (w e s n : Int) (first second : Int × Int) : Int × Int → Int × Int → List (Int × Int) → List (Int × Int)
  | prev, cur, [] => [modifyPt cur prev cur first w e s n, modifyPt first cur first second w e s n]
  | prev, cur, next :: r => modifyPt cur prev cur next w e s n :: modifyGo w e s n first second cur next r

/-- The vertices after the modification, in the order of the vector. -/
def modifyAll (w e s n : Int) : List (Int × Int) → Option (List (Int × Int))
  | a :: b :: r =>
    let m := modifyGo w e s n a b a b r
    some (m.getLast?.toList ++ m.dropLast)
  | _ => none

/-- The condition of lines 468-469 and 479-480. -/
def colinear (a b c : Int × Int) : Bool := (a.1 == b.1 && a.1 == c.1) || (a.2 == b.2 && a.2 == c.2)

/-- One pass over the vector, lines 461-484. `prev` is `*itr`, `cur` is `*itr2`, `out` the points
before `itr2`, the argument the points from `itr3` on. The result is the vector after `erase`. -/
def collapseGo : Int × Int → Int × Int → List (Int × Int) → List (Int × Int) → List (Int × Int)
  | prev, cur, out, [] => if colinear prev cur (out.headD cur) then out else out ++ [cur]
  | prev, cur, out, c :: r => if colinear prev cur c then collapseGo prev c out r else collapseGo cur c (out ++ [cur]) r

/-- One pass, lines 460-484: `itr` starts at the last element, `itr2` at the first. -/
def collapse : List (Int × Int) → List (Int × Int)
  | [] => []
  | a :: r => collapseGo ((a :: r).getLast (by simp)) a [] r

theorem collapseGo_length (prev cur : Int × Int) (out r : List (Int × Int)) :
    (collapseGo prev cur out r).length ≤ out.length + 1 + r.length := by
  induction r generalizing prev cur out with
  | nil => unfold collapseGo; split <;> simp
  | cons c r ih =>
    unfold collapseGo
    split
    · have := ih prev c out; simp only [List.length_cons]; omega
    · have := ih cur c (out ++ [cur]); simp only [List.length_cons, List.length_append, List.length_nil] at *; omega

theorem collapse_length (P : List (Int × Int)) : (collapse P).length ≤ P.length := by
  cases P with
  | nil => exact Nat.le_refl _
  | cons a r =>
    have := collapseGo_length ((a :: r).getLast (by simp)) a [] r
    simp only [collapse, List.length_cons, List.length_nil] at *
    omega

/-- `remove_colinear_pts`, lines 457-487: the vector left; the function returns whether it has at
least four points. `found_colinear` is true exactly when a point was removed. -/
def removeColinear (P : List (Int × Int)) : List (Int × Int) :=
  if P.length ≥ 4 then
    if (collapse P).length < P.length then removeColinear (collapse P) else collapse P
  else P
termination_by P.length

/-- `resize_poly_up`, lines 402-424. -/
def resizeUp (P : List (Int × Int)) (w e s n : Int) : Option (List (Int × Int)) := do
  return removeColinear (← modifyAll w e s n P)

/-- Smallest and largest value of a list, as `encompass` accumulates them, lines 430-439. -/
def extent (l : List Int) : Int × Int :=
  match l with
  | [] => (0, 0)
  | a :: r => r.foldl (fun m x => (min m.1 x, max m.2 x)) (a, a)

/-- `resize_poly_down`, lines 425-455: what is inserted afterwards, nothing when the function
returns false. -/
def resizeDown (P : List (Int × Int)) (w e s n : Int) : Option (List (Int × Int)) := do
  let m ← modifyAll w e s n P
  let ex := extent (P.map Prod.fst)
  let ey := extent (P.map Prod.snd)
  if ex.2 - ex.1 < |w + e| then return []
  if ey.2 - ey.1 < |n + s| then return []
  let r := removeColinear m
  return if r.length ≥ 4 then r else []

/-! ### Resizing a set polygon by polygon -/

/-- `iterator_geometry_to_set<polygon_90_concept>` with winding override,
detail/iterator_geometry_to_set.hpp lines 96-118 and 126-195. -/
def boundaryVertices (P : List (Int × Int)) (orient : Nat) (isHole : Bool) (winding : Nat) : List V :=
  match P with
  | a :: b :: c :: d :: r =>
    let mult := if winding = LOW then -1 else 1
    let mult := if isHole then mult * -1 else mult
    polyGo orient mult a b a b c (d :: r)
  | _ => []

/-- A polygon with its holes, as `get` returns it. -/
abbrev PolyHoles := List (Int × Int) × List (List (Int × Int))

/-- The hole loop of `bloat`, lines 515-548. -/
def bloatHoles (w e s n : Int) : PSet → List (List (Int × Int)) → Option PSet
  | t, [] => some t
  | t, h :: r => do
    let d ← resizeDown h w e s n
    bloatHoles w e s n (t.insertIter (boundaryVertices d t.orient true LOW) t.orient) r

/-- `bloat(west, east, south, north)` after `get(polys)` and `clear()`, lines 497-550. What `get`
returns is a parameter. -/
def bloatPolys (w e s n : Int) : PSet → List PolyHoles → Option PSet
  | t, [] => some t
  | t, p :: r => do
    let u ← resizeUp p.1 w e s n
    let t' ← bloatHoles w e s n (t.insertIter (boundaryVertices u t.orient false HIGH) t.orient) p.2
    bloatPolys w e s n t' r

/-- The hole loop of `shrink`, lines 582-601. -/
def shrinkHoles (w e s n : Int) : PSet → List (List (Int × Int)) → Option PSet
  | t, [] => some t
  | t, h :: r => do
    let u ← resizeUp h (-w) (-e) (-s) (-n)
    shrinkHoles w e s n (t.insertIter (boundaryVertices u t.orient true LOW) t.orient) r

/-- `shrink(west, east, south, north)` after `get(polys)` and `clear()`, lines 561-618. -/
def shrinkPolys (w e s n : Int) : PSet → List PolyHoles → Option PSet
  | t, [] => some t
  | t, p :: r => do
    let d ← resizeDown p.1 (-w) (-e) (-s) (-n)
    if d = [] then shrinkPolys w e s n t r
    else
      let t' ← shrinkHoles w e s n (t.insertIter (boundaryVertices d t.orient false HIGH) t.orient) p.2
      shrinkPolys w e s n t' r

/-- `bloat(dir, amount)`, lines 665-674. -/
def bloatDir (dir : Nat) (d : Int) (t : PSet) (polys : List PolyHoles) : Option PSet :=
  if dir = WEST then bloatPolys d 0 0 0 t polys
  else if dir = EAST then bloatPolys 0 d 0 0 t polys
  else if dir = SOUTH then bloatPolys 0 0 d 0 t polys
  else bloatPolys 0 0 0 d t polys

/-- `shrink(dir, amount)`, lines 654-663. -/
def shrinkDir (dir : Nat) (d : Int) (t : PSet) (polys : List PolyHoles) : Option PSet :=
  if dir = WEST then shrinkPolys d 0 0 0 t polys
  else if dir = EAST then shrinkPolys 0 d 0 0 t polys
  else if dir = SOUTH then shrinkPolys 0 0 d 0 t polys
  else shrinkPolys 0 0 0 d t polys

end Verif.ResizePoly
