import Verif.Model.ArbForm
import Verif.Model.Set45
/-!
# Model of `detail/polygon_45_formation.hpp`: the polygons of a 45-degree set

`PF` is `/repo/include/boost/polygon/detail/polygon_45_formation.hpp`, `BO` is `detail/boolean_op_45.hpp` and `PS45`
is `polygon_45_set_data.hpp`. The model covers the formation of polygons with holes (`fractureHoles_` is 0).

* An `ActiveTail45` and a `PolyLine45` are numbers; `Heap` gives their members, which are those of the tails at any angle. Memory is
  not modelled: nothing is freed, and the pointers that `join` sets to null are left.
* `std::map` and `std::vector` are lists, `Vertex45Count` and `tails` the list of their four slots.
* `none` is undefined behaviour: a null pointer or an end iterator is dereferenced, or an element is erased twice.
-/
namespace Verif.Form45
open Verif.Deg45 Verif.Set45
open Verif.ArbForm (Tail Heap Poly Heap.setLine Heap.setHoles Heap.copyHoles Heap.link Heap.addHole Heap.poly Heap.newPair Heap.init CSlot nz)

/-! ### Active tails -/

/-- A point put in front of a list, PF 242-267: the first point is replaced if it is on a horizontal or a vertical line with the second
one and the new one. -/
def pushFront (p : P) : List P → List P
  | a :: b :: r => if (b.2 = p.2 ∧ a.2 = p.2) ∨ (b.1 = p.1 ∧ a.1 = p.1) then p :: b :: r else p :: a :: b :: r
  | l => p :: l

/-- `pushPoint`, PF 242-292; at the end of the line it does the same from the other side. -/
def push (H : Heap) (t : Nat) (p : P) : Heap :=
  let l := (H.tail t).line
  if (H.tail t).head then H.setLine l (pushFront p (H.line l)) else H.setLine l (pushFront p (H.line l).reverse).reverse

/-- `a->join(b)`, PF 169-203. -/
def join (H : Heap) (a b : Nat) : Heap :=
  if b = (H.tail a).other then H
  else if (H.tail b).head = (H.tail a).head then H
  else
    let oa := (H.tail a).other
    let ob := (H.tail b).other
    let l1 := if (H.tail a).head then (H.tail b).line else (H.tail a).line
    let l2 := if (H.tail a).head then (H.tail a).line else (H.tail b).line
    let H := if !(H.tail oa).head then (H.copyHoles oa b).copyHoles oa a else (H.copyHoles ob a).copyHoles ob b
    (H.setLine l1 (H.line l1 ++ H.line l2)).link oa ob l1

/-- `joinChains`, PF 300-344: the figure written and the tail of a closed hole. `addHole`, `copyHoles` (PF 208-223) and the polygon assigned
from a closed figure (`PolyLine45PolygonData`, PF 2134-2218) are those at any angle. -/
def joinChains (H : Heap) (p : P) (a b : Nat) (solid : Bool) : Heap × List Poly × Option Nat :=
  if (H.tail a).other = b then
    let H := push (push H a p) b p
    if solid then
      let H := H.copyHoles a (H.tail a).other
      (H, [H.poly a], none)
    else (H, [], some a)
  else (join (push H a p) a b, [], none)

/-- `createActiveTail45sAsPair`, PF 373-394. -/
def createPair (H : Heap) (p : P) (solid : Bool) (phole : Option Nat) : Heap × Nat × Nat :=
  let H' := H.newPair p solid
  match phole with
  | none => (H', H.ft, H.ft + 1)
  | some h => (H'.addHole (H.ft + 1) h, H.ft, H.ft + 1)

/-! ### `processPoint_` -/

/-- A slot of `incoming` with its slope; the slope of the vertical is 2. -/
abbrev ISlot := Int × Int

/-- Heap, `output`, `elements`, `returnValue` and `returnCount`. -/
structure PS where
  H : Heap
  out : List Poly
  els : List (V45 × Nat)
  ret : Option Nat
  rc : Int

/-- A tail for a new edge, e.g. PF 636-645: that of a vertical edge is returned. -/
def PS.put (s : PS) (p : P) (rise c r : Int) (t : Nat) : PS :=
  if rise = 2 then { s with ret := some t, rc := r } else { s with els := s.els ++ [(⟨p, rise, c⟩, t)] }

/-- Case 1, PF 600-621; the number counts the steps of the loop. -/
def closeSolid (p : P) : Nat → List CSlot → PS → Option (List CSlot × PS)
  | 0, L, s => some (L, s)
  | _ + 1, [], s => some ([], s)
  | n + 1, a :: r, s =>
    if a.1 = -1 then
      match nz r with
      | some (r1, b, r2) =>
        if b.1 = 1 then do
          let j := joinChains s.H p (← a.2) (← b.2) true
          let (L, s) ← closeSolid p n (r1 ++ (0, none) :: r2) { s with H := j.1, out := s.out ++ j.2.1 }
          some ((0, none) :: L, s)
        else (closeSolid p n r s).map (fun m => (a :: m.1, m.2))
      | none => (closeSolid p n r s).map (fun m => (a :: m.1, m.2))
    else (closeSolid p n r s).map (fun m => (a :: m.1, m.2))

/-- Case 2, PF 624-657. -/
def openSolid (p : P) : Nat → List ISlot → PS → List ISlot × PS
  | 0, L, s => (L, s)
  | _ + 1, [], s => ([], s)
  | n + 1, a :: r, s =>
    if a.1 = 1 then
      match nz r with
      | some (r1, b, r2) =>
        if b.1 = -1 then
          let (H, t, u) := createPair s.H p true none
          let s := { s with H := H }.put p b.2 (-1) 1 t
          let s := { s with els := s.els ++ [(⟨p, a.2, 1⟩, u)] }
          let (L, s) := openSolid p n (r1 ++ (0, b.2) :: r2) s
          ((0, a.2) :: L, s)
        else let m := openSolid p n r s; (a :: m.1, m.2)
      | none => let m := openSolid p n r s; (a :: m.1, m.2)
    else let m := openSolid p n r s; (a :: m.1, m.2)

/-- Case 3, PF 665-694. -/
def passTop (p : P) (cs : List CSlot) (inc : List ISlot) (s : PS) : Option (List CSlot × List ISlot × PS) :=
  match nz cs, nz inc.reverse with
  | some (l1, a, l2), some (r1, b, r2) =>
    if a.1 = 1 ∧ b.1 = 1 then do
      let t ← a.2
      let s := { s with H := push s.H t p }.put p b.2 b.1 (-1) t
      some (l1 ++ (0, none) :: l2, (r1 ++ (0, b.2) :: r2).reverse, s)
    else some (cs, inc, s)
  | _, _ => some (cs, inc, s)

/-- Case 4, PF 697-724. -/
def passBottom (p : P) (cs : List CSlot) (inc : List ISlot) (s : PS) : Option (List CSlot × List ISlot × PS) :=
  match nz cs.reverse, nz inc with
  | some (l1, a, l2), some (r1, b, r2) =>
    if a.1 = -1 ∧ b.1 = -1 then do
      let t ← a.2
      let s := { s with H := push s.H t p }.put p b.2 b.1 1 t
      some ((l1 ++ (0, none) :: l2).reverse, r1 ++ (0, b.2) :: r2, s)
    else some (cs, inc, s)
  | _, _ => some (cs, inc, s)

/-- Case 5, PF 729-746. -/
def holeEnd (p : P) (cs : List CSlot) (s : PS) : Option (List CSlot × PS) :=
  match nz cs with
  | none => some (cs, s)
  | some (l1, a, l2) =>
    match nz l2 with
    | none => some (cs, s)
    | some (m1, b, m2) => do
      let j := joinChains s.H p (← a.2) (← b.2) false
      some (l1 ++ (0, none) :: (m1 ++ (0, none) :: m2), { s with H := j.1, out := s.out ++ j.2.1, ret := j.2.2 })

/-- Case 6, PF 748-771. The tail of the last slot is that of a closed hole if the slot has no count. -/
def holeBegin (p : P) (cs : List CSlot) (inc : List ISlot) (s : PS) : PS :=
  match nz inc with
  | none => s
  | some (_, a, r) =>
    match nz r with
    | none => s
    | some (_, b, _) =>
      let h := match cs.getLast? with | some c => if c.1 = 0 then c.2 else none | none => none
      let (H, t, u) := createPair s.H p false h
      let s := { s with H := H }.put p b.2 b.1 (-1) t
      { s with els := s.els ++ [(⟨p, a.2, a.1⟩, u)] }

/-- `processPoint_`, PF 585-772, with the slots of `counts` and `tails` and those of `incoming`. -/
def processPoint (p : P) (cs : List CSlot) (is : List ISlot) (H : Heap) (out : List Poly) (els : List (V45 × Nat)) : Option PS := do
  let s : PS := ⟨H, out, els, none, 0⟩
  let (cs, s) ← closeSolid p 3 cs s
  let (is, s) := openSolid p 3 is s
  let (cs, is, s) ← passTop p cs is s
  let (cs, is, s) ← passBottom p cs is s
  let (cs, s) ← holeEnd p cs s
  some (holeBegin p cs is s)

/-! ### `processEvent_` -/

/-- `Vertex45T::evalAtX`, BO 293. -/
def eval (v : V45) (x : Int) : Int := v.pt.2 + v.rise * (x - v.pt.1)

/-- `lessVertex45`, BO 316-329. -/
def less (x : Int) (justBefore : Bool) (a b : V45) : Bool :=
  if eval a x < eval b x then true
  else if eval a x = eval b x then (if justBefore then a.rise > b.rise else a.rise < b.rise)
  else false

/-- The variables of `processEvent_`: input, heap, `output`, `elements`, `verticalTail`, `verticalCount` and the positions
of `elementIters`. -/
structure ES where
  evs : List VC
  H : Heap
  out : List Poly
  els : List (V45 × Nat)
  vt : Option Nat
  vc : Int
  rm : List Nat

/-- PF 829-862: what happens to a closed hole after a point; `i` is the position of `iter`. -/
def holeUp (x : Int) (sd : List (V45 × Nat)) (i : Nat) (s : ES) : Option ES :=
  match s.vt with
  | none => some s
  | some h =>
    if s.vc ≠ 0 then some s
    else do
      let now ← match s.evs with
        | [] => some true
        | ev :: _ => if ev.1.1 ≠ x then some true else (sd[i]?).map (fun a => decide (ev.1.2 ≥ eval a.1 x))
      if now then do
        let a ← sd[i]?
        some { s with H := s.H.addHole a.2 h, vt := none }
      else some s

/-- The slot of a slope, PF 793-801: count and tail of the last element with this slope. -/
def slotOf (block : List (V45 × Nat)) (r : Int) : CSlot :=
  match (block.filter (fun a => a.1.rise = r)).getLast? with
  | some a => (a.1.count, some a.2)
  | none => (0, none)

/-- The last slot, PF 792 and 825-827. -/
def vertSlot (s : ES) : CSlot := match s.vt with | some t => (-s.vc, some t) | none => (0, none)

/-- The counts of the vertices at one point, PF 803-811. -/
def total (group : List VC) : Quad Int := group.foldl (fun q v => q.add v.2) ⟨0, 0, 0, 0⟩

/-- One point of the event, PF 786-863; `i` is the position that `lookUp_` (PF 884-887) finds. -/
def onePoint (x : Int) (sd : List (V45 × Nat)) (s : ES) : Option ES :=
  match s.evs with
  | [] => none
  | ev :: _ => do
    let p : P := (x, ev.1.2)
    let i := (sd.takeWhile (fun a => less x true a.1 ⟨p, 1, 0⟩)).length
    let block := (sd.drop i).takeWhile (fun a => decide (eval a.1 x = p.2))
    let group := s.evs.takeWhile (fun e => decide (e.1 = p))
    let q := total group
    let c0 := slotOf block (-1)
    let c1 := slotOf block 0
    let c2 := slotOf block 1
    let c3 := vertSlot s
    let r ← processPoint p [c0, c1, c2, c3] [(q.n + c0.1, -1), (q.z + c1.1, 0), (q.p + c2.1, 1), (q.v * -1 + c3.1, 2)] s.H s.out s.els
    holeUp x sd (i + block.length)
      { evs := s.evs.dropWhile (fun e => decide (e.1 = p)), H := r.H, out := r.out, els := r.els, vt := r.ret, vc := r.rc
        rm := s.rm ++ (List.range block.length).map (· + i) }

/-- The loop, PF 786-863; the number bounds the steps. -/
def points (x : Int) (sd : List (V45 × Nat)) : Nat → ES → Option ES
  | 0, _ => none
  | n + 1, s =>
    match s.evs with
    | [] => some s
    | ev :: _ => if ev.1.1 = x then do points x sd n (← onePoint x sd s) else some s

/-- `scanData_.insert`, PF 877. -/
def insertEl (x : Int) (sd : List (V45 × Nat)) (a : V45 × Nat) : List (V45 × Nat) :=
  let i := (sd.takeWhile (fun e => less x false e.1 a.1)).length
  match sd[i]? with
  | none => sd ++ [a]
  | some b => if less x false a.1 b.1 then sd.take i ++ a :: sd.drop i else sd

/-- PF 866-870: the elements at the noted positions are erased; none of them may be erased twice. -/
def eraseAll (sd : List (V45 × Nat)) (rm : List Nat) : Option (List (V45 × Nat)) :=
  if rm.Nodup then some ((sd.zipIdx.filter (fun a => !rm.contains a.2)).map Prod.fst) else none

/-- `processEvent_`, PF 774-881. -/
def processEvent (x : Int) (evs : List VC) (sd : List (V45 × Nat)) (H : Heap) (out : List Poly) :
    Option (List VC × List (V45 × Nat) × Heap × List Poly) := do
  let s ← points x sd (evs.length + 1) ⟨evs, H, out, [], none, 0, []⟩
  let sd ← eraseAll sd s.rm
  some (s.evs, s.els.foldl (insertEl x) sd, s.H, s.out)

/-- `scan`, PF 570-581; the number bounds the stops. -/
def scan : Nat → List VC → List (V45 × Nat) → Heap → List Poly → Option (List Poly)
  | _, [], _, _, out => some out
  | 0, _, _, _, _ => none
  | n + 1, ev :: r, sd, H, out => do
    let (evs, sd, H, out) ← processEvent ev.1.1 (ev :: r) sd H out
    scan n evs sd H out

/-- A formation of polygons with holes from clean data, PS45 371-373. -/
def form (D : List VC) : Option (List Poly) := scan D.length D [] Heap.init []

/-- What comes of asking a set for its polygons: the precision exception is met in cleaning and stands for the redo that is
not modelled. -/
inductive Got where
  | polys (out : List Poly)
  | undefined
  | fail (e : Deg45.Err)

/-- `get_fracture` with `fracture_holes` false, PS45 368-374: `get` and `get_polygons_with_holes` with polygons that may have
holes. -/
def get (umin umax : Int) (s : S45) : Got :=
  match s.clean umin umax with
  | .ok t => (match form t.data with | some out => .polys out | none => .undefined)
  | .fail e => .fail e
  | .undef => .undefined

end Verif.Form45
