import Verif.Model.Set90
/-!
# Model of `detail/rectangle_formation.hpp` and `get_rectangles`

Line numbers refer to `/repo/include/boost/polygon/detail/rectangle_formation.hpp` unless another
file is named. A rectangle of the scan is kept as its interval along the scanline orientation
(`lo`, `hi`) and its interval perpendicular to it (`pl`, `ph`); `toRect` puts the two in their places.
The `std::set` of rectangles is the list of its elements in order; an iterator is the element it
points to, `none` being `end()`.
-/
namespace Verif.RectForm
open Verif.BooleanOp Verif.Set90 Verif.Isotropy Verif.Interval Verif.Rectangle Verif.Transform

/-- `axis_transformation::SWAP_XY`, transform.hpp line 61. -/
def SWAP_XY : Nat := 4

/-- A rectangle in scan coordinates. -/
structure SR where
  lo : Int
  hi : Int
  pl : Int
  ph : Int
deriving DecidableEq, Repr

/-- The rectangle in the plane: `set(orient, ...)`, `set(orient.get_perpendicular(), ...)`. -/
def SR.toRect (orient : Nat) (r : SR) : Rect :=
  if orient = HORIZONTAL then ⟨⟨r.lo, r.hi⟩, ⟨r.pl, r.ph⟩⟩ else ⟨⟨r.pl, r.ph⟩, ⟨r.lo, r.hi⟩⟩

/-- `less_rectangle_concept`, rectangle_concept.hpp lines 1030-1053, in the orientation of the scan. -/
def less (a b : SR) : Bool :=
  if a.lo > b.lo then false
  else if a.lo = b.lo then
    if a.pl > b.pl then false
    else if a.pl = b.pl then
      if a.hi > b.hi then false
      else if a.hi = b.hi then decide (a.ph < b.ph)
      else true
    else true
  else true

/-- `std::set::insert` (a hint does not change the result); an equivalent element is kept. -/
def insertS (r : SR) : List SR → List SR
  | [] => [r]
  | a :: t => if less a r then a :: insertS r t else if less r a then r :: a :: t else a :: t

/-- `++it` in the set: the next element in order. -/
def nextIt (S : List SR) (r : SR) : Option SR := S.find? (fun a => less r a)

/-- The loop of lines 63-67: step back while the element starts above the edge. `ps` are the
elements before the iterator, last first. -/
def backUp (l : Int) : List SR → Option SR → Option SR
  | [], it => it
  | p :: ps, it =>
    if (match it with | none => true | some r => decide (r.lo > l)) then backUp l ps (some p) else it

/-- The state of `ScanLineToRects`: `scanData_`, `haveCurrentRect_`, `currentRect_`, and the
rectangles written so far. -/
structure St where
  S : List SR
  hv : Bool
  K : SR
  out : List SR
deriving DecidableEq, Repr

/-- Closing edge, lines 75-112. -/
def closeEdge (cur l h : Int) (st : St) (r : SR) : St :=
  let out := if r.pl < cur then st.out ++ [{ r with ph := cur }] else st.out
  let S := st.S.erase r
  let S := if r.lo < l then insertS ⟨r.lo, l, cur, cur⟩ S else S
  let S := if r.hi > h then insertS ⟨h, r.hi, cur, cur⟩ S else S
  { st with S := S, out := out }

/-- Opening edge touching the rectangle `r`, lines 114-171. -/
def openEdge (cur l h : Int) (st : St) (edgeProcessed : Bool) (r : SR) : St :=
  let out := if r.pl < cur then st.out ++ [{ r with ph := cur }] else st.out
  let S := st.S.erase r
  let fresh : SR := ⟨min r.lo l, max r.hi h, cur, cur⟩
  if st.hv then
    if st.K.hi ≥ l then
      if !edgeProcessed && decide (st.K.hi > l) then
        let S := insertS { st.K with hi := l } S
        if st.K.hi > h then ⟨S, true, { st.K with lo := h }, out⟩
        else ⟨S, false, st.K, out⟩
      else ⟨S, true, { st.K with hi := max h r.hi }, out⟩
    else ⟨insertS st.K S, true, fresh, out⟩
  else ⟨S, true, fresh, out⟩

/-- The loop of lines 70-177 from the iterator `it`; returns whether the edge was processed.
`fuel` bounds the iterations, `none` when it runs out. -/
def loop (cur l h : Int) : Nat → Option SR → St → Bool → Option (St × Bool)
  | 0, _, _, _ => none
  | _ + 1, none, st, ep => some (st, ep)
  | fuel + 1, some r, st, ep =>
    if r.lo ≤ h then
      if r.hi ≥ l then
        if containsIvl ⟨r.lo, r.hi⟩ ⟨l, h⟩ true then some (closeEdge cur l h st r, true)
        else loop cur l h fuel (nextIt st.S r) (openEdge cur l h st ep r) true
      else loop cur l h fuel (nextIt st.S r) st ep
    else some (st, ep)

/-- What is done when no rectangle of the set touched the edge, lines 180-215. -/
def finish (cur l h : Int) (st : St) : St :=
  if st.hv && decide (st.K.ph = cur) && decide (st.K.hi ≥ l) then
    if st.K.hi > l then
      let S := insertS { st.K with hi := l } st.S
      if st.K.hi > h then { st with S := S, K := { st.K with lo := h } }
      else { st with S := S, hv := false }
    else { st with K := { st.K with hi := h } }
  else
    let S := if st.hv then insertS st.K st.S else st.S
    { st with S := insertS ⟨l, h, cur, cur⟩ S, hv := false }

/-- `processEdge_`, lines 51-218. -/
def processEdge (cur l h : Int) (st : St) : Option St := do
  let (st, ep) ←
    if st.S = [] then some (st, false)
    else
      let E : SR := ⟨l, h, l, h⟩
      let before := st.S.takeWhile (fun a => less a E)
      let lb := st.S.find? (fun a => !less a E)
      loop cur l h (2 * st.S.length + 2) (backUp l before.reverse lb) st false
  if ep then some st else some (finish cur l h st)

/-- `nextMajorCoordinate`, lines 40-47 (the new current coordinate is passed on by the caller). -/
def nextMajor (st : St) : St := if st.hv then { st with S := insertS st.K st.S, hv := false } else st

/-- The loop of `form_rectangles`, lines 249-262. `cur` is `prevPos`, which is always equal to
`currentCoordinate_`. Dereferencing past the end is `none`. -/
def formGo : List V → Int → St → Option St
  | [], _, st => some st
  | [_], _, _ => none
  | v :: w :: r, cur, st => do
    let st := if v.x ≠ cur then nextMajor st else st
    let st ← processEdge v.x v.y w.y st
    if w.c.natAbs > 1 then formGo (w :: r) v.x st else formGo r v.x st

/-- `form_rectangles`, lines 240-263: the rectangles in scan coordinates. `umax` is
`numeric_limits<Unit>::max()`. -/
def formRects (umax : Int) (D : List V) : Option (List SR) := do
  let st ← formGo D umax ⟨[], false, ⟨0, 0, 0, 0⟩, []⟩
  return st.out

/-- `get_rectangles(output)`, polygon_90_set_data.hpp lines 177-181. Returns the rectangles and what
the set has become. -/
def _root_.Verif.Set90.PSet.getRectangles (umax : Int) (s : PSet) : Option (List Rect × PSet) := do
  let s ← s.clean umax
  let rs ← formRects umax s.data
  return (rs.map (SR.toRect s.orient), s)

/-- `get_rectangles(output, slicing_orientation)`, polygon_90_set_data.hpp lines 183-197. The code
for the other orientation works on a copy; the set itself is not changed. -/
def _root_.Verif.Set90.PSet.getRectanglesO (umax : Int) (s : PSet) (slicing : Nat) : Option (List Rect) := do
  if slicing = s.orient then return (← s.getRectangles umax).1
  else
    let (rs, _) ← (s.transform SWAP_XY).getRectangles umax
    return rs.map (fun r => transformRect r SWAP_XY)

/-- `get_rectangles(output, polygon_set)`, polygon_90_set_concept.hpp lines 79-87, for a
`polygon_90_set_data`: vertical slicing. -/
def getRectanglesV (umax : Int) (s : PSet) : Option (List Rect × PSet) := do
  let s ← s.clean umax
  let (rs, _) ← ((PSet.mk0 VERTICAL).insertRange s.data s.orient).getRectangles umax
  return (rs, s)

/-- `area(polygon_set)`, polygon_90_set_concept.hpp lines 149-165, for a `polygon_90_set_data`:
`assign` to a vector of rectangles (polygon_90_set_traits.hpp lines 291-300 and 253-256) and the sum
of their areas. Arithmetic is unbounded. -/
def _root_.Verif.Set90.PSet.area (umax : Int) (s : PSet) : Option Int := do
  let (rs, _) ← ((PSet.mk0 s.orient).insertRange s.data s.orient).getRectangles umax
  return rs.foldl (fun a r => a + Verif.Rectangle.area r) 0

end Verif.RectForm
