import Verif.Model.Set90
import Verif.Model.Polygon
/-!
# Model of `detail/polygon_formation.hpp`: the polygons of a Manhattan polygon set

Line numbers refer to `/repo/include/boost/polygon/detail/polygon_formation.hpp` unless another file
is named. The model covers the scan without a vertex threshold (`processEdges`, `get_polygons`).

* An `ActiveTail` is a number; `Heap.tail` gives its members. The chain of linked `PolyLine` objects
  between a tail and its other tail is kept as the sequence of its coordinates, read from the tail
  (`path`); both ends hold the sequence, each read from its own end.
* `std::map` is the list of its entries in order; an iterator is the key it points to, `none` being
  `end()`.
* Memory is not modelled: nothing is freed, and the sizes kept for `reserve` are left out. Likewise
  the `SOLID_TO_RIGHT` bit, which the modelled functions never read.
* `none` is undefined behaviour (null dereference, end iterator) or the `return` that leaves the
  output iterators unset (line 2023).
-/
namespace Verif.PolyForm
open Verif.BooleanOp Verif.Set90 Verif.Isotropy Verif.Interval

/-- The members of `ActiveTail`, lines 318-324, with the chain read from this tail: `vert` tells that
the end coordinate (first in `path`) is an x, i.e. `getOrient() == VERTICAL`, lines 1226-1228. -/
structure Tail where
  path : List Int
  vert : Bool
  other : Nat
  holes : List Nat
deriving DecidableEq, Repr, Inhabited

/-- The allocated tails. -/
structure Heap where
  tail : Nat → Tail
  fresh : Nat

/-- Replace the chain of which `t` is an end, as read from `t`. -/
def Heap.setPath (H : Heap) (t : Nat) (p : List Int) (v : Bool) : Heap :=
  let o := (H.tail t).other
  { H with tail := fun n =>
      if n = t then { H.tail n with path := p, vert := v }
      else if n = o then { H.tail n with path := p.reverse }
      else H.tail n }

/-- Append to the list of holes. -/
def Heap.addHoles (H : Heap) (t : Nat) (hs : List Nat) : Heap :=
  { H with tail := fun n => if n = t then { H.tail n with holes := (H.tail n).holes ++ hs } else H.tail n }

/-- `this->copyHoles(that)`, lines 1213-1216: a splice, `that` keeps no holes. -/
def Heap.copyHoles (H : Heap) (t u : Nat) : Heap :=
  let hs := (H.tail u).holes
  { H with tail := fun n =>
      if n = t then { H.tail n with holes := (H.tail n).holes ++ hs }
      else if n = u then { H.tail n with holes := [] } else H.tail n }

/-- `pushCoordinate`, lines 1231-1248, through `PolyLine::pushPoint`, lines 964-975: a coordinate that
would extend the previous segment in a straight line (or back over it) removes the end coordinate
instead. A chain has at least two coordinates. -/
def Heap.push (H : Heap) (t : Nat) (c : Int) : Option Heap :=
  match (H.tail t).path with
  | l :: p :: r => some (if c = p then H.setPath t (p :: r) (!(H.tail t).vert)
      else H.setPath t (c :: l :: p :: r) (!(H.tail t).vert))
  | _ => none

/-- The two ends of a chain set anew: lines 1461-1462. -/
def Heap.link (H : Heap) (o1 o2 : Nat) (p : List Int) : Heap :=
  { H with tail := fun n =>
      if n = o1 then { H.tail n with path := p, other := o2 }
      else if n = o2 then { H.tail n with path := p.reverse, other := o1 }
      else H.tail n }

/-- `joinChains`, lines 1434-1472: the new heap, the figure pushed to the output, and the result (the
tail of a closed hole). -/
def Heap.joinChains (H : Heap) (at1 at2 : Nat) (solid : Bool) : Heap × List Nat × Option Nat :=
  if (H.tail at1).other = at2 then
    if solid then (H, [], some at1) else (H.copyHoles at1 at2, [at1], none)
  else
    let o1 := (H.tail at1).other
    let o2 := (H.tail at2).other
    let p := (H.tail o1).path ++ (H.tail at2).path
    (((H.link o1 o2 p).copyHoles o1 at1).copyHoles o1 at2, [], none)

/-- `addHole`, lines 1176-1205. The figure cannot be closed by the join in the fracture case (its
output buffer is dropped). -/
def Heap.addHole (H : Heap) (this hole : Nat) (fracture : Bool) : Option (Heap × Nat) :=
  if !fracture then
    let H := H.addHoles this [hole]
    let H := H.copyHoles this hole
    some (H.copyHoles this (H.tail hole).other, this)
  else do
    let other := (H.tail hole).other
    let (h, v) := if (H.tail other).vert then (hole, other) else (other, hole)
    let c ← (H.tail v).path.head?
    let H ← H.push h c
    some ((H.joinChains this h false).1, v)

/-- Two new tails joined head to head, lines 1508-1516 (the first vertical at `x`, the other
horizontal at `y`). -/
def Heap.newPair (H : Heap) (x y : Int) : Heap × Nat × Nat :=
  ({ tail := fun n =>
      if n = H.fresh then ⟨[x, y], true, H.fresh + 1, []⟩
      else if n = H.fresh + 1 then ⟨[y, x], false, H.fresh, []⟩
      else H.tail n,
     fresh := H.fresh + 2 }, H.fresh, H.fresh + 1)

/-- `createActiveTailsAsPair`, lines 1505-1540. -/
def Heap.createPair (H : Heap) (x y : Int) (phole : Option Nat) (fracture : Bool) : Option (Heap × Nat × Nat) :=
  match phole with
  | none => some (H.newPair x y)
  | some hole =>
    if !fracture then do
      let (H, at1, at2) := H.newPair x y
      let (H, _) ← H.addHole at1 hole fracture
      some (H, at1, at2)
    else do
      let at2 := if (H.tail hole).vert then hole else (H.tail hole).other
      let at1 := (H.tail at2).other
      let H ← H.push at1 x
      let H ← H.push at2 y
      some (H, at1, at2)

/-! ### `std::map<Unit, ActiveTail*>` -/

/-- `find`. -/
def mfind (m : List (Int × Nat)) (k : Int) : Option Nat := (m.find? (fun e => e.1 = k)).map (·.2)

/-- `insert` (a hint does not change the result); an existing entry is kept. -/
def minsert (k : Int) (v : Nat) : List (Int × Nat) → List (Int × Nat)
  | [] => [(k, v)]
  | e :: r => if e.1 < k then e :: minsert k v r else if e.1 = k then e :: r else (k, v) :: e :: r

/-- `erase`. -/
def merase (m : List (Int × Nat)) (k : Int) : List (Int × Nat) := m.filter (fun e => e.1 ≠ k)

/-- Assignment to `it->second`. -/
def mset (m : List (Int × Nat)) (k : Int) (v : Nat) : List (Int × Nat) := m.map (fun e => if e.1 = k then (k, v) else e)

/-- `++it`. -/
def mnext (m : List (Int × Nat)) (k : Int) : Option Int := (m.find? (fun e => k < e.1)).map (·.1)

/-- `findAtNext`, lines 1474-1487: the tail of the entry found. -/
def findAtNext (m : List (Int × Nat)) (pos : Option Int) (key : Int) : Option Nat :=
  match pos with
  | none => mfind m key
  | some p => if p < key then mfind m key else if p > key then none else mfind m p

/-! ### `processEdges` -/

/-- The variables of the loop: heap, `tailMap_`, `nextMapItr`, `currentTail`, `outputPolygons_`. -/
structure St where
  H : Heap
  map : List (Int × Nat)
  nm : Option Int
  cur : Option Nat
  out : List Nat

/-- The bottom end of an edge, lines 1979-2014. -/
def bottomEnd (fr : Bool) (x lo : Int) (s : St) : Option St :=
  match findAtNext s.map s.nm lo with
  | some tail =>
    match s.cur with
    | some hole => do
      let (H, t) ← s.H.addHole tail hole fr
      let H ← if fr then some H else H.push t x
      some { s with H := H, cur := some t, nm := mnext s.map lo, map := merase s.map lo }
    | none => do
      let H ← s.H.push tail x
      some { s with H := H, cur := some tail, nm := mnext s.map lo, map := merase s.map lo }
  | none => do
    let (H, a, b) ← s.H.createPair x lo s.cur fr
    some { s with H := H, cur := some a, map := minsert lo b s.map }

/-- The top of an edge where an edge of the other kind begins, lines 2017-2059. -/
def shared (fr trailing : Bool) (x hi : Int) (s : St) : Option St := do
  let tail ← findAtNext s.map s.nm hi
  let c ← s.cur
  if trailing then
    let (H, out, _) := s.H.joinChains c tail false
    let (H, a, b) ← H.createPair x hi none fr
    some { H := H, map := mset s.map hi b, nm := mnext s.map hi, cur := some a, out := s.out ++ out }
  else
    let H ← s.H.push c hi
    let H ← H.push tail x
    some { s with H := H, map := mset s.map hi c, nm := mnext s.map hi, cur := some tail }

/-- A closed hole is handed to the next horizontal edge above when that comes before the next
vertical edges, lines 2075-2096. The entry at `hi` is still in the map. -/
def holeUp (fr haveNext : Bool) (umax leftY rightY : Int) (s : St) (hole : Nat) : Option St :=
  let nextY := s.nm.getD umax
  if !haveNext || (decide (nextY < leftY) && decide (nextY < rightY)) then do
    let k ← s.nm
    let tail ← mfind s.map k
    let (H, t) ← s.H.addHole tail hole fr
    if fr then do
      let H ← H.push t nextY
      some { s with H := H, map := mset s.map k t, cur := none }
    else some { s with H := H, cur := none }
  else some { s with cur := some hole }

/-- The top end of an edge with a gap above, lines 2060-2108. -/
def topEnd (fr haveNext trailing : Bool) (umax leftY rightY hi : Int) (s : St) : Option St := do
  let c ← s.cur
  match findAtNext s.map s.nm hi with
  | some tail =>
    let (H, out, hole) := s.H.joinChains c tail (!trailing)
    let s1 : St := { s with H := H, nm := mnext s.map hi, cur := none, out := s.out ++ out }
    let s2 ← match hole with
      | some h => holeUp fr haveNext umax leftY rightY s1 h
      | none => some s1
    some { s2 with map := merase s2.map hi }
  | none =>
    let H ← s.H.push c hi
    some { s with H := H, map := minsert hi c s.map, cur := none }

/-- One round of the loop of lines 1961-2113 on the remaining left and right edges; `bot` is
`bottomAlreadyProcessed`. Returns its new value and whether the edge was a right edge. -/
def round (fr : Bool) (umax x : Int) (l r : List Ivl) (bot : Bool) (s : St) : Option (St × Bool × Bool) := do
  let e0 := l.headD ⟨umax, umax⟩
  let e1 := r.headD ⟨umax, umax⟩
  let haveNext := !l.isEmpty && !r.isEmpty
  let trailing := decide (e1.lo < e0.lo)
  let edge := if trailing then e1 else e0
  let nextEdge := if trailing then e0 else e1
  let s ← if bot then some s else bottomEnd fr x edge.lo s
  if haveNext && decide (edge.hi = nextEdge.lo) then
    let s ← shared fr trailing x edge.hi s
    some (s, true, trailing)
  else
    let leftY := (l.tail.headD ⟨umax, umax⟩).lo
    let s ← topEnd fr haveNext trailing umax leftY nextEdge.lo edge.hi s
    some (s, false, trailing)

/-- The loop, lines 1961-2113. `fuel` bounds the rounds. -/
def procGo (fr : Bool) (umax x : Int) : Nat → List Ivl → List Ivl → Bool → St → Option St
  | fuel, l, r, bot, s =>
    if l = [] ∧ r = [] then some s
    else match fuel with
      | 0 => none
      | fuel + 1 => do
        let (s, bot, trailing) ← round fr umax x l r bot s
        if trailing then procGo fr umax x fuel l r.tail bot s else procGo fr umax x fuel l.tail r bot s

/-- `processEdges`, lines 1940-2116: heap, map and the figures closed. -/
def processEdges (fr : Bool) (umax x : Int) (l r : List Ivl) (H : Heap) (m : List (Int × Nat)) :
    Option (Heap × List (Int × Nat) × List Nat) := do
  let s ← procGo fr umax x (l.length + r.length) l r false ⟨H, m, m.head?.map (·.1), none, []⟩
  some (s.H, s.map, s.out)

/-! ### output -/

/-- The coordinates an `ActiveTail::iterator` runs through, lines 350-445: of `t` or of its other
tail, skipping the first element (which then comes last) if it has the wrong orientation. -/
def figure (H : Heap) (t : Nat) (isHole : Bool) (orient : Nat) : List Int :=
  let t := if !isHole ^^ (orient == HORIZONTAL) then (H.tail t).other else t
  let p := (H.tail t).path
  if (!(H.tail t).vert) ^^ (orient == HORIZONTAL) then p.tail ++ p.take 1 else p

/-- A polygon with holes, each boundary in compact coordinates. -/
structure Poly where
  outer : List Int
  holes : List (List Int)
deriving DecidableEq, Repr

/-- The polygon assigned from a closed figure. For a polygon without holes the type read from is
`PolyLineHoleData` (lines 600-620, 684-689), whose iterators ask for the direction of a hole;
otherwise `PolyLinePolygonWithHolesData` (lines 622-668). -/
def polyOf (H : Heap) (fr : Bool) (orient : Nat) (t : Nat) : Poly :=
  if fr then ⟨figure H t true orient, []⟩
  else ⟨figure H t false orient, (H.tail t).holes.map (fun h => figure H h true orient)⟩

/-! ### `get_polygons` -/

/-- Lines 2247-2258: append an edge, growing the last one if it touches. -/
def addEdge (L : List Ivl) (e : Ivl) : List Ivl :=
  match L.getLast? with
  | some b => if b.hi = e.lo then L.dropLast ++ [⟨min b.lo e.lo, max b.hi e.hi⟩] else L ++ [e]
  | none => [e]

/-- The variables of `get_polygons`, lines 2202-2210. -/
structure GP where
  prevPos : Int
  prevY : Int
  count : Int
  l : List Ivl
  r : List Ivl
  H : Heap
  map : List (Int × Nat)
  out : List Poly

/-- The call of `processEdges` and the copying of its polygons, lines 2215-2235. -/
def GP.flush (fr : Bool) (orient : Nat) (umax : Int) (g : GP) : Option GP := do
  let (H, m, out) ← processEdges fr umax g.prevPos g.l g.r g.H g.map
  some { g with H := H, map := m, out := g.out ++ out.map (polyOf H fr orient) }

/-- One element of the input, lines 2211-2264. -/
def GP.step (fr : Bool) (orient : Nat) (umax : Int) (g : GP) (v : V) : Option GP :=
  if v.x ≠ g.prevPos then do
    let g ← g.flush fr orient umax
    some { g with l := [], r := [], prevPos := v.x, prevY := v.y, count := v.c }
  else
    let g := if g.count ≠ 0 ∧ v.y ≠ g.prevY then
        if g.count = 1 then { g with l := addEdge g.l ⟨g.prevY, v.y⟩ } else { g with r := addEdge g.r ⟨g.prevY, v.y⟩ }
      else g
    some { g with prevY := v.y, count := g.count + v.c }

/-- The loop of lines 2211-2265. -/
def GP.run (fr : Bool) (orient : Nat) (umax : Int) : List V → GP → Option GP
  | [], g => g.flush fr orient umax
  | v :: D, g => do GP.run fr orient umax D (← g.step fr orient umax v)

/-- `get_polygons`, lines 2188-2284. -/
def formPolys (fr : Bool) (orient : Nat) (umax : Int) (D : List V) : Option (List Poly) := do
  let g ← GP.run fr orient umax D ⟨umax, umax, 0, [], [], ⟨fun _ => default, 0⟩, [], []⟩
  some g.out

/-- `get(output)` for polygons with holes (`fr = false`) or without (`fr = true`),
polygon_90_set_data.hpp lines 161-175 and 834-877. Returns the polygons and what the set has become. -/
def _root_.Verif.Set90.PSet.getPolys (fr : Bool) (umax : Int) (s : PSet) : Option (List Poly × PSet) := do
  let s ← s.clean umax
  let ps ← formPolys fr s.orient umax s.data
  return (ps, s)

end Verif.PolyForm
