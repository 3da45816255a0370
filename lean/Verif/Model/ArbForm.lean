import Verif.Model.Arb
/-!
# Model of `detail/polygon_arbitrary_formation.hpp`: the polygons of a set at any angle

`ABF` is `/repo/include/boost/polygon/detail/polygon_arbitrary_formation.hpp`, `PSD` is
`/repo/include/boost/polygon/polygon_set_data.hpp`. The model covers the formation of polygons with holes
(`fractureHoles_` is false).

* An `active_tail_arbitrary` is a number, and so is a `poly_line_arbitrary`; `Heap` gives their members. Memory is
  not modelled: nothing is freed, and the pointers that `join` sets to null are left.
* `std::map` and `std::vector` are lists. The result of `polygon_sort` is that of an insertion sort; the theorems
  use only that it is sorted.
* `none` is undefined behaviour: a null pointer, an end iterator or an empty list is dereferenced.
-/
namespace Verif.ArbForm
open Verif.Arb Verif.Contains

/-- `vertex_half_edge`, ABF lines 731-736: `pt`, `other_pt` and `count`. -/
abbrev V := HE × Int

/-- The members of `active_tail_arbitrary`, ABF lines 891-895. -/
structure Tail where
  line : Nat
  other : Nat
  holes : List Nat
  head : Bool
deriving DecidableEq, Repr, Inhabited

/-- The allocated tails and lines. -/
structure Heap where
  tail : Nat → Tail
  line : Nat → List Pt
  ft : Nat
  fl : Nat

/-- A polygon with holes. -/
structure Poly where
  outer : List Pt
  holes : List (List Pt)
deriving DecidableEq, Repr, Inhabited

/-! ### Active tails -/

/-- The points of a tail's line set anew. -/
def Heap.setLine (H : Heap) (l : Nat) (ps : List Pt) : Heap := { H with line := fun n => if n = l then ps else H.line n }

/-- The list of holes of a tail set anew. -/
def Heap.setHoles (H : Heap) (t : Nat) (hs : List Nat) : Heap :=
  { H with tail := fun n => if n = t then { H.tail n with holes := hs } else H.tail n }

/-- `this->copyHoles(that)`, ABF line 1042: a splice, `that` keeps no holes. -/
def Heap.copyHoles (H : Heap) (t u : Nat) : Heap :=
  (H.setHoles t ((H.tail t).holes ++ (H.tail u).holes)).setHoles u []

/-- A point put in front of a list, ABF lines 1066-1082: not if it is there and is not the only one. -/
def pushFront (p : Pt) : List Pt → List Pt
  | a :: b :: r => if a ≠ p then p :: a :: b :: r else a :: b :: r
  | l => p :: l

/-- `pushPoint`, ABF lines 1061-1101; at the end of the line it does the same from the other side. -/
def Heap.push (H : Heap) (t : Nat) (p : Pt) : Heap :=
  let l := (H.tail t).line
  if (H.tail t).head then H.setLine l (pushFront p (H.line l)) else H.setLine l (pushFront p (H.line l).reverse).reverse

/-- Two lines joined, ABF lines 1006-1011: a point common to both is kept once. -/
def joinPts (l m : List Pt) : Option (List Pt) :=
  match l.getLast?, m.head? with
  | some a, some b => some (if a = b then l.dropLast ++ m else l ++ m)
  | _, _ => none

/-- The two ends of a line set anew, ABF lines 1013-1016. -/
def Heap.link (H : Heap) (o1 o2 l : Nat) : Heap :=
  { H with tail := fun n =>
      if n = o1 then { H.tail n with line := l, other := o2 }
      else if n = o2 then { H.tail n with line := l, other := o1 }
      else H.tail n }

/-- `a->join(b)`, ABF lines 983-1022. -/
def Heap.join (H : Heap) (a b : Nat) : Option Heap :=
  if b = (H.tail a).other then some H
  else if (H.tail b).head = (H.tail a).head then some H
  else
    let oa := (H.tail a).other
    let ob := (H.tail b).other
    let l1 := if (H.tail a).head then (H.tail b).line else (H.tail a).line
    let l2 := if (H.tail a).head then (H.tail a).line else (H.tail b).line
    let H := if !(H.tail oa).head then (H.copyHoles oa b).copyHoles oa a else (H.copyHoles ob a).copyHoles ob b
    (joinPts (H.line l1) (H.line l2)).map (fun ps => (H.setLine l1 ps).link oa ob l1)

/-- `addHole`, ABF lines 1027-1032. -/
def Heap.addHole (H : Heap) (t hole : Nat) : Heap :=
  let H := H.setHoles t ((H.tail t).holes ++ [hole])
  (H.copyHoles t hole).copyHoles t (H.tail hole).other

/-- The polygon assigned from a closed figure: `poly_line_arbitrary_polygon_data`, ABF lines 2147-2210. -/
def Heap.poly (H : Heap) (t : Nat) : Poly := ⟨H.line (H.tail t).line, (H.tail t).holes.map (fun h => H.line (H.tail h).line)⟩

/-- `joinChains`, ABF lines 1109-1151: the figure written and the tail of a closed hole. -/
def Heap.joinChains (H : Heap) (p : Pt) (a b : Nat) (solid : Bool) : Option (Heap × List Poly × Option Nat) :=
  if (H.tail a).other = b then
    let H := (H.push a p).push b p
    if solid then
      let H := H.copyHoles a (H.tail a).other
      some (H, [H.poly a], none)
    else some (H, [], some a)
  else ((H.push a p).join a b).map (fun H => (H, [], none))

/-- Two new tails of one line, ABF lines 1192-1195. -/
def Heap.newPair (H : Heap) (p : Pt) (solid : Bool) : Heap :=
  { tail := fun n =>
      if n = H.ft then ⟨H.fl, H.ft + 1, [], solid⟩ else if n = H.ft + 1 then ⟨H.fl, H.ft, [], !solid⟩ else H.tail n
    line := fun n => if n = H.fl then [p] else H.line n
    ft := H.ft + 2
    fl := H.fl + 1 }

/-- `createActiveTailsAsPair`, ABF lines 1180-1200. -/
def Heap.createPair (H : Heap) (p : Pt) (solid : Bool) (phole : Option Nat) : Heap × Nat × Nat :=
  let H' := H.newPair p solid
  match phole with
  | none => (H', H.ft, H.ft + 1)
  | some h => (H'.addHole (H.ft + 1) h, H.ft, H.ft + 1)

/-! ### `processPoint_` -/

/-- An element of `counts` with the one of `tails`, ABF lines 1373-1384. -/
abbrev CSlot := Int × Option Nat
/-- An element of `incoming` with the point of `incoming_count`. -/
abbrev ISlot := Int × Pt

/-- The first element with a count, what precedes it and what follows it. -/
def nz {α : Type} : List (Int × α) → Option (List (Int × α) × (Int × α) × List (Int × α))
  | [] => none
  | a :: r => if a.1 ≠ 0 then some ([], a, r) else (nz r).map (fun m => (a :: m.1, m.2))

/-- Heap, `output`, `elements`, `returnValue` and `returnCount`. -/
structure PS where
  H : Heap
  out : List Poly
  els : List (V × Nat)
  ret : Option Nat
  rc : Pt × Int

/-- A tail for a new edge, e.g. ABF lines 1464-1476: that of a vertical edge is returned. `last` tells that the edge is
the last one. -/
def PS.put (s : PS) (p : Pt) (last : Bool) (o : Pt) (c : Int) (r : Int) (t : Nat) : PS :=
  if last && decide (o.1 = p.1) then { s with ret := some t, rc := (p, r) } else { s with els := s.els ++ [(((p, o), c), t)] }

/-- Case 1, ABF lines 1412-1435; the number counts the steps of the loop. -/
def closeSolid (p : Pt) : Nat → List CSlot → PS → Option (List CSlot × PS)
  | 0, L, s => some (L, s)
  | _ + 1, [], s => some ([], s)
  | n + 1, a :: r, s =>
    if a.1 = -1 then
      match nz r with
      | some (r1, b, r2) =>
        if b.1 = 1 then do
          let (H, o, _) ← s.H.joinChains p (← a.2) (← b.2) true
          let (L, s) ← closeSolid p n (r1 ++ (0, none) :: r2) { s with H := H, out := s.out ++ o }
          some ((0, none) :: L, s)
        else (closeSolid p n r s).map (fun m => (a :: m.1, m.2))
      | none => (closeSolid p n r s).map (fun m => (a :: m.1, m.2))
    else (closeSolid p n r s).map (fun m => (a :: m.1, m.2))

/-- Case 2, ABF lines 1438-1485. -/
def openSolid (p : Pt) : Nat → List ISlot → PS → List ISlot × PS
  | 0, L, s => (L, s)
  | _ + 1, [], s => ([], s)
  | n + 1, a :: r, s =>
    if a.1 = 1 then
      match nz r with
      | some (r1, b, r2) =>
        if b.1 = -1 then
          let (H, t, u) := s.H.createPair p true none
          let s := { s with H := H }.put p r2.isEmpty b.2 (-1) 1 t
          let s := { s with els := s.els ++ [(((p, a.2), 1), u)] }
          let (L, s) := openSolid p n (r1 ++ (0, b.2) :: r2) s
          ((0, a.2) :: L, s)
        else let m := openSolid p n r s; (a :: m.1, m.2)
      | none => let m := openSolid p n r s; (a :: m.1, m.2)
    else let m := openSolid p n r s; (a :: m.1, m.2)

/-- Case 3, ABF lines 1490-1525. -/
def passTop (p : Pt) (cs : List CSlot) (inc : List ISlot) (s : PS) : Option (List CSlot × List ISlot × PS) :=
  match nz cs, nz inc.reverse with
  | some (l1, a, l2), some (r1, b, r2) =>
    if a.1 = 1 ∧ b.1 = 1 then do
      let t ← a.2
      let s := { s with H := s.H.push t p }.put p r1.isEmpty b.2 b.1 (-1) t
      some (l1 ++ (0, none) :: l2, (r1 ++ (0, b.2) :: r2).reverse, s)
    else some (cs, inc, s)
  | _, _ => some (cs, inc, s)

/-- Case 4, ABF lines 1528-1563. -/
def passBottom (p : Pt) (cs : List CSlot) (inc : List ISlot) (s : PS) : Option (List CSlot × List ISlot × PS) :=
  match nz cs.reverse, nz inc with
  | some (l1, a, l2), some (r1, b, r2) =>
    if a.1 = -1 ∧ b.1 = -1 then do
      let t ← a.2
      let s := { s with H := s.H.push t p }.put p r2.isEmpty b.2 b.1 1 t
      some ((l1 ++ (0, none) :: l2).reverse, r1 ++ (0, b.2) :: r2, s)
    else some (cs, inc, s)
  | _, _ => some (cs, inc, s)

/-- Case 5, ABF lines 1567-1588. -/
def holeEnd (p : Pt) (cs : List CSlot) (s : PS) : Option (List CSlot × PS) :=
  match nz cs with
  | none => some (cs, s)
  | some (l1, a, l2) =>
    match nz l2 with
    | none => some (cs, s)
    | some (m1, b, m2) => do
      let (H, o, r) ← s.H.joinChains p (← a.2) (← b.2) false
      some (l1 ++ (0, none) :: (m1 ++ (0, none) :: m2), { s with H := H, out := s.out ++ o, ret := r, rc := if r.isSome then (p, s.rc.2) else s.rc })

/-- Case 6, ABF lines 1590-1625; `vb` is `have_vertical_tail_from_below`. Returns the tails and its new value. -/
def holeBegin (p : Pt) (vb : Bool) (cs : List CSlot) (inc : List ISlot) (s : PS) : List CSlot × Bool × PS :=
  match nz inc with
  | none => (cs, vb, s)
  | some (_, a, r) =>
    match nz r with
    | none => (cs, vb, s)
    | some (_, b, r2) =>
      let h := if vb then (cs.getLast?).bind Prod.snd else none
      let (H, t, u) := s.H.createPair p false h
      let s := { s with H := H }.put p r2.isEmpty b.2 b.1 (-1) t
      let s := { s with els := s.els ++ [(((p, a.2), a.1), u)] }
      (if vb then cs.dropLast ++ (cs.drop (cs.length - 1)).map (fun c => (c.1, none)) else cs, false, s)

/-- ABF lines 1626-1633. -/
def lastTail (p : Pt) (vb : Bool) (cs : List CSlot) (s : PS) : PS :=
  if vb then
    match cs.getLast? with
    | some (c, some t) => { s with H := s.H.push t p, ret := some t, rc := (p, c) }
    | _ => s
  else s

/-- `processPoint_`, ABF lines 1368-1634. -/
def processPoint (p : Pt) (from_ : List (V × Nat)) (inc : List (Pt × Int)) (H : Heap) (out : List Poly) (els : List (V × Nat)) : Option PS := do
  let cs : List CSlot := from_.map (fun a => (a.1.2, some a.2))
  let is : List ISlot := inc.map (fun a => (if lessPoint a.1 p then 0 else a.2, a.1))
  let vb := match from_.getLast? with | some a => isVertical a.1.1 | none => false
  let s : PS := ⟨H, out, els, none, ((0, 0), 0)⟩
  let (cs, s) ← closeSolid p (cs.length - 1) cs s
  let (is, s) := openSolid p (is.length - 1) is s
  let (cs, is, s) ← passTop p cs is s
  let (cs, is, s) ← passBottom p cs is s
  let (cs, s) ← holeEnd p cs s
  let (cs, vb, s) := holeBegin p vb cs is s
  some (lastTail p vb cs s)

/-! ### `processEvent_` -/

/-- Insertion into a sorted list. -/
def insSort {α : Type} (lt : α → α → Bool) (a : α) : List α → List α
  | [] => [a]
  | b :: r => if lt b a then b :: insSort lt a r else a :: b :: r

/-- `polygon_sort`. -/
def isort {α : Type} (lt : α → α → Bool) : List α → List α
  | [] => []
  | a :: r => insSort lt a (isort lt r)

/-- `less_incoming_count`, ABF lines 1236-1243. -/
def lessInc (a b : V × Nat) : Bool :=
  lessSlopeD (a.1.1.1.1 - a.1.1.2.1) (a.1.1.1.2 - a.1.1.2.2) (b.1.1.1.1 - b.1.1.2.1) (b.1.1.1.2 - b.1.1.2.2)

/-- `less_half_edge_count`, ABF lines 1216-1218. -/
def lessCount (p : Pt) (a b : Pt × Int) : Bool := lessSlope p a.1 b.1

/-- The sign of a vertical edge is turned, ABF lines 1707-1710. -/
def turnLast (x : Int) (inc : List (Pt × Int)) : List (Pt × Int) :=
  match inc.getLast? with
  | some a => if a.1.1 = x then inc.dropLast ++ [(a.1, a.2 * -1)] else inc
  | none => inc

/-- The variables of `processEvent_`: input, heap, `output`, `elements`, `verticalTail`, `verticalCount` and the keys
of `elementIters`. -/
structure ES where
  evs : List V
  H : Heap
  out : List Poly
  els : List (V × Nat)
  vt : Option Nat
  vc : Pt × Int
  rm : List HE

/-- ABF lines 1720-1760: what happens to a closed hole after a point; `i` is the index of `iter`. -/
def holeUp (x : Int) (sd : List (V × Nat)) (i : Nat) (s : ES) : Option ES :=
  match s.vt with
  | none => some s
  | some h =>
    if s.vc.2 ≠ 0 then some s
    else do
      let now ← match s.evs with
        | [] => some true
        | ev :: _ => if ev.1.1.1 ≠ x then some true else (sd[i]?).map (fun a => decide (oab ev.1.1 a.1.1 ≠ -1))
      if now then do
        let a ← sd[i]?
        some { s with H := s.H.addHole a.2 h, vt := none }
      else some s

/-- One point of the event, ABF lines 1664-1761. -/
def onePoint (x : Int) (sd : List (V × Nat)) (s : ES) : Option ES :=
  match s.evs with
  | [] => none
  | ev :: _ => do
    let p : Pt := (x, ev.1.1.2)
    -- lookUp_, ABF lines 1794-1798
    let i := (sd.takeWhile (fun a => lessHE x true a.1.1 (p, (p.1, p.2 + 1)))).length
    let block := (sd.drop i).takeWhile (fun a => decide (a.1.1.1 = p ∨ a.1.1.2 = p))
    let i := i + block.length
    let group := s.evs.takeWhile (fun e => decide (e.1.1 = p))
    let inc := (isort (lessCount p) (group.map (fun e => (e.1.2, e.2)))).filter (fun a => lessPoint p a.1)
    let from_ := isort lessInc block ++ (match s.vt with | some t => [(((s.vc.1, p), -s.vc.2), t)] | none => [])
    let r ← processPoint p from_ (turnLast x inc) s.H s.out s.els
    holeUp x sd i { evs := s.evs.dropWhile (fun e => decide (e.1.1 = p)), H := r.H, out := r.out, els := r.els, vt := r.ret, vc := r.rc,
                    rm := s.rm ++ block.map (fun a => a.1.1) }

/-- The loop, ABF lines 1663-1761; the number bounds the steps. -/
def points (x : Int) (sd : List (V × Nat)) : Nat → ES → Option ES
  | 0, _ => none
  | n + 1, s =>
    match s.evs with
    | [] => some s
    | ev :: _ => if ev.1.1.1 = x then do points x sd n (← onePoint x sd s) else some s

/-- `scanData_.insert`. -/
def insertEl (x : Int) (sd : List (V × Nat)) (a : V × Nat) : List (V × Nat) :=
  let i := (sd.takeWhile (fun e => lessHE x false e.1.1 a.1.1)).length
  match sd[i]? with
  | none => sd ++ [a]
  | some b => if lessHE x false a.1.1 b.1.1 then sd.take i ++ a :: sd.drop i else sd

/-- `processEvent_`, ABF lines 1650-1789. -/
def processEvent (x : Int) (evs : List V) (sd : List (V × Nat)) (H : Heap) (out : List Poly) :
    Option (List V × List (V × Nat) × Heap × List Poly) := do
  let s ← points x sd (evs.length + 1) ⟨evs, H, out, [], none, ((0, 0), 0), []⟩
  some (s.evs, s.els.foldl (insertEl x) (sd.filter (fun a => !s.rm.contains a.1.1)), s.H, s.out)

/-- `scan`, ABF lines 1352-1364; the number bounds the stops. -/
def scan : Nat → List V → List (V × Nat) → Heap → List Poly → Option (List Poly)
  | _, [], _, _, out => some out
  | 0, _, _, _, _ => none
  | n + 1, ev :: r, sd, H, out => do
    let (evs, sd, H, out) ← processEvent ev.1.1.1 (ev :: r) sd H out
    scan n evs sd H out

/-- `vertex_half_edge::operator<`, ABF lines 745-754. -/
def lessV (a b : V) : Bool :=
  if a.1.1.1 < b.1.1.1 then true
  else if a.1.1.1 = b.1.1.1 then
    if a.1.1.2 < b.1.1.2 then true
    else if a.1.1.2 = b.1.1.2 then lessSlope a.1.1 a.1.2 b.1.2 else false
  else false

/-- Both half edges of every edge, PSD lines 795-799. -/
def halves (D : List V) : List V := D.flatMap (fun e => [(e.1, e.2), ((e.1.2, e.1.1), -1 * e.2)])

/-- The empty heap. -/
def Heap.init : Heap := ⟨fun _ => default, fun _ => [], 0, 0⟩

/-- `get_fracture` with `fracture_holes` false on clean data, PSD lines 790-802. -/
def form (D : List V) : Option (List Poly) :=
  let data := isort lessV (halves D)
  scan data.length data [] Heap.init []

end Verif.ArbForm
