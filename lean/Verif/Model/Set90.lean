import Verif.Model.BooleanOp
import Verif.Model.Rectangle
import Mathlib.Data.List.Sort
/-!
# Model of `polygon_90_set_data` and of the operators on it

Line numbers refer to include/boost/polygon/polygon_90_set_data.hpp unless a file is named.

A set is its four members: scanline orientation (0 = HORIZONTAL, 1 = VERTICAL), vertex data
and the two lazy flags. The data and the flags are `mutable` in C++; an observer therefore
returns the state it leaves behind. `none` is undefined behaviour inside the Boolean scan.
Coordinates are unbounded integers; `umax`/`umin` are `numeric_limits<coordinate>::max/min`
where the code mentions them.
-/
namespace Verif.Set90
open Verif.Isotropy Verif.BooleanOp Verif.Transform Verif.Rectangle

/-- The members, lines 821-825. -/
structure PSet where
  orient : Nat
  data : List V
  dirty : Bool
  unsorted : Bool
deriving DecidableEq

/-- `std::pair` order on vertices (`operator<` of nested pairs), as a `≤`; what
`polygon_sort` (detail/polygon_sort_adaptor.hpp, `std::sort`) sorts by. -/
def vle (a b : V) : Bool :=
  decide (a.x < b.x ∨ (a.x = b.x ∧ (a.y < b.y ∨ (a.y = b.y ∧ a.c ≤ b.c))))

/-- `polygon_sort(data_.begin(), data_.end())`: some sorting function. -/
def sortData (L : List V) : List V := L.insertionSort (fun a b => vle a b = true)

/-- Constructors of lines 42 and 45. -/
def PSet.mk0 (orient : Nat) : PSet := ⟨orient, [], false, false⟩

/-- `std::swap(first, second.first)`. -/
def swapV (v : V) : V := ⟨v.y, v.x, v.c⟩

/-- `insert(vertex, is_hole, orient)`, lines 141-148. -/
def PSet.insertVertex (s : PSet) (v : V) (isHole : Bool) (orient : Nat) : PSet :=
  let v := if orient ≠ s.orient then swapV v else v
  let v := if isHole then ⟨v.x, v.y, v.c * -1⟩ else v
  { s with data := s.data ++ [v], dirty := true, unsorted := true }

/-- `insert(iterator_type, iterator_type, orient)`, lines 93-104, for a range that is not the
set's own data. -/
def PSet.insertRange (s : PSet) (input : List V) (orient : Nat) : PSet :=
  if input = [] then s
  else
    let s := { s with dirty := true, unsorted := true }
    if orient = s.orient then { s with data := s.data ++ input }
    else input.foldl (fun s v => s.insertVertex v false orient) s

/-- `insert(iterator_type, iterator_type, orient)` where the range starts at the set's own first
vertex: line 94 returns (self-insertion). -/
def PSet.insertSelf (s : PSet) : PSet := s

/-- `insert(iT, iT, orient)` template, lines 106-115, for a range of vertices. -/
def PSet.insertIter (s : PSet) (input : List V) (orient : Nat) : PSet :=
  if input = [] then s
  else input.foldl (fun s v => s.insertVertex v false orient) { s with dirty := true, unsorted := true }

/-- `insert(const polygon_90_set_data&)`, lines 117-119, for another set object. -/
def PSet.insertSet (s t : PSet) : PSet := s.insertRange t.data t.orient

/-- `insert(edge, is_hole)`, lines 121-132: end points `p`, `q`, count `c`. -/
def PSet.insertEdge (s : PSet) (p q : Int × Int) (c : Int) (isHole : Bool) : PSet :=
  let c := c * (if isHole then -1 else 1)
  (s.insertVertex ⟨p.1, p.2, c⟩ false VERTICAL).insertVertex ⟨q.1, q.2, c * -1⟩ false VERTICAL

/-- `insert(major_coordinate, edge)`, lines 150-159. -/
def PSet.insertMajor (s : PSet) (major : Int) (e : Interval.Ivl) (c : Int) : PSet :=
  (s.insertVertex ⟨major, e.lo, c⟩ false s.orient).insertVertex ⟨major, e.hi, c * -1⟩ false s.orient

/-- `iterator_geometry_to_set<rectangle_concept>`, detail/iterator_geometry_to_set.hpp 15-72:
the four vertices it runs through. Corner 2 keeps the count of corner 1. -/
def rectVertices (r : Rect) (orient : Nat) (isHole : Bool) : List V :=
  let p := r.get (perpendicular orient)
  let o := r.get orient
  let m := if isHole then -1 else 1
  [⟨p.lo, o.lo, 1 * m⟩, ⟨p.lo, o.hi, -1 * m⟩, ⟨p.hi, o.lo, -1 * m⟩, ⟨p.hi, o.hi, 1 * m⟩]

/-- `insert(geometry, is_hole)`, lines 134-139, for a rectangle. -/
def PSet.insertRect (s : PSet) (r : Rect) (isHole : Bool) : PSet :=
  s.insertIter (rectVertices r s.orient isHole) s.orient

/-- Constructor from an orientation and an iterator pair over vertices, lines 48-54: the
orientation argument has no name in the code and is ignored. -/
def PSet.ofRange (_orient : Nat) (input : List V) : PSet :=
  input.foldl (fun s v => s.insertVertex v false HORIZONTAL) ⟨HORIZONTAL, [], true, true⟩

/-- `set(begin, end, orient)` and `set(value, orient)`, lines 310-325. -/
def PSet.setData (_s : PSet) (input : List V) (orient : Nat) : PSet := ⟨orient, input, true, true⟩

/-- `operator=(geometry)`, lines 86-90, for a rectangle: the flags are not reset. -/
def PSet.assignRect (s : PSet) (r : Rect) : PSet := ({ s with data := [] } : PSet).insertRect r false

/-- `clear`, line 230. -/
def PSet.clear (s : PSet) : PSet := ⟨s.orient, [], false, false⟩

/-- `sort`, lines 303-308. -/
def PSet.sort (s : PSet) : PSet :=
  if s.unsorted then { s with data := sortData s.data, unsorted := false } else s

/-- `clean`, lines 295-301. -/
def PSet.clean (umax : Int) (s : PSet) : Option PSet :=
  let s := s.sort
  if s.dirty then do
    let d ← applyBooleanOr posInt umax s.data
    pure { s with data := d, dirty := false }
  else some s

/-- `operator==`, lines 200-208; the two sets are distinct objects. Returns the answer and
what the two operands have become. -/
def PSet.eq (umax : Int) (s t : PSet) : Option (Bool × PSet × PSet) :=
  if s.orient = t.orient then do
    let s ← s.clean umax
    let t ← t.clean umax
    pure (s.data == t.data, s, t)
  else some (false, s, t)

/-- `empty`, line 233. -/
def PSet.empty (umax : Int) (s : PSet) : Option (Bool × PSet) := do
  let s ← s.clean umax
  pure (s.data.isEmpty, s)

/-- `size`, line 236. -/
def PSet.size (umax : Int) (s : PSet) : Option (Nat × PSet) := do
  let s ← s.clean umax
  pure (s.data.length, s)

/-- The point a stored vertex stands for, as used in lines 331-343. -/
def pointOf (orient : Nat) (v : V) : Int × Int := if orient = HORIZONTAL then (v.y, v.x) else (v.x, v.y)

/-- `extents`, lines 328-346: `none` inside is the `false` return. -/
def PSet.extents (umax : Int) (s : PSet) : Option (Option Rect × PSet) := do
  let s ← s.clean umax
  match s.data with
  | [] => pure (none, s)
  | v :: r =>
    let last := (v :: r).getLast (by simp)
    let init := setPoints (pointOf s.orient v) (pointOf s.orient last)
    -- vertices 1 .. size-2
    pure (some (r.dropLast.foldl (fun e w => (encompassPt e (pointOf s.orient w)).1) init), s)

/-- `move`, lines 679-691. -/
def PSet.move (s : PSet) (dx dy : Int) : PSet :=
  { s with data := s.data.map (fun v =>
      if s.orient = VERTICAL then ⟨v.x + dx, v.y + dy, v.c⟩ else ⟨v.x + dy, v.y + dx, v.c⟩) }

/-- `transform`, lines 693-711, for any transformation object given by its point map and its
`get_directions` (transform.hpp: `axis_transformation` 179-187, 227-234; `transformation`
forwards both). -/
def PSet.transformWith (s : PSet) (f : Int × Int → Int × Int) (dirs : Nat × Nat) : PSet :=
  let sign := dir2Sign dirs.1 * dir2Sign dirs.2
  let data := s.data.map (fun v =>
    if s.orient = VERTICAL then let p := f (v.x, v.y); ⟨p.1, p.2, v.c * sign⟩
    else let p := f (v.y, v.x); ⟨p.2, p.1, v.c * sign⟩)
  { s with data := data,
           unsorted := if dirs.1 ≠ EAST ∨ dirs.2 ≠ NORTH then true else s.unsorted }

/-- `transform(axis_transformation)`, lines 693-711. -/
def PSet.transform (s : PSet) (atr : Nat) : PSet := s.transformWith (axisTransform atr) (getDirections atr)

/-- `transform(transformation)`, lines 693-711: `transformation::get_directions`
(transform.hpp 427-431) is that of the axis part. -/
def PSet.transformT (s : PSet) (t : Transformation) : PSet :=
  s.transformWith t.transform (getDirections t.atr)

/-- `scale_up`, lines 714-721. -/
def PSet.scaleUp (s : PSet) (k : Int) : PSet :=
  { s with data := s.data.map (fun v => ⟨v.x * k, v.y * k, v.c⟩) }

/-- `scale_down`, lines 722-731; the quotient is exact before rounding. -/
def PSet.scaleDown (s : PSet) (k : Int) : PSet :=
  { s with data := s.data.map (fun v => ⟨roundHalfUp ((v.x : Rat) / k), roundHalfUp ((v.y : Rat) / k), v.c⟩),
           unsorted := true }

/-- `scale(double)`, lines 758-767; the product is exact before rounding. -/
def PSet.scaleBy (s : PSet) (k : Rat) : PSet :=
  { s with data := s.data.map (fun v => ⟨roundHalfUp ((v.x : Rat) * k), roundHalfUp ((v.y : Rat) * k), v.c⟩),
           unsorted := true }

/-- `self_xor`, lines 769-776. -/
def PSet.selfXor (umax : Int) (s : PSet) : Option PSet :=
  let s := s.sort
  if s.dirty then do
    let d ← applyBooleanOr posUnary umax s.data
    pure { s with data := d, dirty := false }
  else some s

/-- `self_intersect`, lines 778-787. -/
def PSet.selfIntersect (umin umax : Int) (s : PSet) : Option PSet :=
  let s := s.sort
  if s.dirty then (s.insertRect ⟨⟨umin, umax⟩, ⟨umin, umax⟩⟩ true).clean umax
  else some s

/-! ## Binary operators (detail/polygon_90_set_view.hpp) -/

/-- `insert_into_view_arg`, detail/polygon_90_set_view.hpp 205-213. -/
def insertIntoViewArg (dest : PSet) (arg : PSet) (orient : Nat) : PSet := (dest.insertRange arg.data orient).sort

/-- `compute_90_set_value` for two `polygon_90_set_data`, detail/polygon_90_set_view.hpp 54-93.
Returns the output vertex data and the operands afterwards. -/
def computeValue (f : Int → Int → Bool) (umax : Int) (l r : PSet) (orient : Nat) :
    Option (List V × PSet × PSet) :=
  if orient = l.orient ∧ orient = r.orient then do
    let l := l.sort
    let r := r.sort
    pure (← applyBooleanBinaryOp f umax l.data r.data, l, r)
  else if orient ≠ l.orient ∧ orient ≠ r.orient then do
    let li := insertIntoViewArg (PSet.mk0 orient) l l.orient
    let ri := insertIntoViewArg (PSet.mk0 orient) r r.orient
    pure (← applyBooleanBinaryOp f umax li.data ri.data, l, r)
  else if orient ≠ l.orient then do
    let li := insertIntoViewArg (PSet.mk0 orient) l l.orient
    let r := r.sort
    pure (← applyBooleanBinaryOp f umax li.data r.data, l, r)
  else do
    let ri := insertIntoViewArg (PSet.mk0 orient) r r.orient
    let l := l.sort
    pure (← applyBooleanBinaryOp f umax l.data ri.data, l, r)

/-- A binary operator applied to two `polygon_90_set_data` and stored in a new one:
`operator|,+,&,*,^,-` (detail/polygon_90_set_view.hpp 281-357) build a view whose orientation is
that of the left operand, and the constructor of lines 226-231 / assignment of 216-224 there
stores its vertices with both flags false. -/
def binaryOp (f : Int → Int → Bool) (umax : Int) (l r : PSet) : Option (PSet × PSet × PSet) := do
  let (d, l', r') ← computeValue f umax l r l.orient
  pure (⟨l.orient, d, false, false⟩, l', r')

/-- `self_assignment_boolean_op`, detail/polygon_90_set_view.hpp 245-271 (`|= += &= *= ^= -=`). -/
def assignOp (f : Int → Int → Bool) (umax : Int) (l r : PSet) : Option PSet := do
  let li := insertIntoViewArg (PSet.mk0 l.orient) l l.orient
  let ri := insertIntoViewArg (PSet.mk0 l.orient) r r.orient
  let d ← applyBooleanBinaryOp f umax li.data ri.data
  pure (l.setData d l.orient)

end Verif.Set90
