import Verif.Model.Form45
/-!
# Model of `detail/polygon_45_formation.hpp`: polygons of a 45-degree set without holes

`PF` is `/repo/include/boost/polygon/detail/polygon_45_formation.hpp` and `PS45` is `polygon_45_set_data.hpp`. With
`fractureHoles_` the formation never puts a hole on a list: the line of a closed hole is linked by two vertical sides to the next
vertex or to the edge above it. The other functions of the formation are those of `Model/Form45.lean`.

`delete at` and `delete verticalTail` (PF 852-853) are not modelled: nothing is freed.
-/
namespace Verif.Frac45
open Verif.Deg45 Verif.Set45 Verif.Form45
open Verif.ArbForm (Heap Poly CSlot nz Heap.init)

/-- `createActiveTail45sAsPair` with `fractureHoles`, PF 373-394: the point is put on both ends of a closed hole. -/
def createPair (H : Heap) (p : P) (solid : Bool) (phole : Option Nat) : Heap × Nat × Nat :=
  match phole with
  | none => (H.newPair p solid, H.ft, H.ft + 1)
  | some h => let w := (H.tail h).other; (push (push H w p) h p, h, w)

/-- Case 6 of `processPoint_`, PF 748-771. -/
def holeBegin (p : P) (cs : List CSlot) (inc : List ISlot) (s : PS) : PS :=
  match nz inc with
  | none => s
  | some (_, a, r) =>
    match nz r with
    | none => s
    | some (_, b, _) =>
      let h := match cs.getLast? with | some c => if c.1 = 0 then c.2 else none | none => none
      let (H, t, u) := createPair s.H p false h
      let s := { s with H := H }.put p b.2 b.1 (-1) t
      { s with els := s.els ++ [(⟨p, a.2, a.1⟩, u)] }

/-- `processPoint_`, PF 585-772. -/
def processPoint (p : P) (cs : List CSlot) (is : List ISlot) (H : Heap) (out : List Poly) (els : List (V45 × Nat)) : Option PS := do
  let s : PS := ⟨H, out, els, none, 0⟩
  let (cs, s) ← closeSolid p 3 cs s
  let (is, s) := openSolid p 3 is s
  let (cs, is, s) ← passTop p cs is s
  let (cs, is, s) ← passBottom p cs is s
  let (cs, s) ← holeEnd p cs s
  some (holeBegin p cs is s)

/-- PF 829-862: what happens to a closed hole after a point. The edge above it, at position `i`, takes over one end of the hole
(PF 847-854). -/
def holeUp (x : Int) (sd : List (V45 × Nat)) (i : Nat) (s : ES) : Option (List (V45 × Nat) × ES) :=
  match s.vt with
  | none => some (sd, s)
  | some h =>
    if s.vc ≠ 0 then some (sd, s)
    else do
      let now ← match s.evs with
        | [] => some true
        | ev :: _ => if ev.1.1 ≠ x then some true else (sd[i]?).map (fun a => decide (ev.1.2 ≥ eval a.1 x))
      if now then do
        let a ← sd[i]?
        let m : P := (x, eval a.1 x)
        let w := (s.H.tail h).other
        let H := push s.H w m
        some (sd.set i (a.1, (H.tail h).other), { s with H := join (push H a.2 m) h a.2, vt := none })
      else some (sd, s)

/-- One point of the event, PF 786-863. -/
def onePoint (x : Int) (sd : List (V45 × Nat)) (s : ES) : Option (List (V45 × Nat) × ES) :=
  match s.evs with
  | [] => none
  | ev :: _ => do
    let p : P := (x, ev.1.2)
    let i := (sd.takeWhile (fun a => less x true a.1 ⟨p, 1, 0⟩)).length
    let block := (sd.drop i).takeWhile (fun a => decide (eval a.1 x = p.2))
    let group := s.evs.takeWhile (fun e => decide (e.1 = p))
    let q := total group
    let c0 := slotOf block (-1)
    let c1 := slotOf block 0
    let c2 := slotOf block 1
    let c3 := vertSlot s
    let r ← processPoint p [c0, c1, c2, c3] [(q.n + c0.1, -1), (q.z + c1.1, 0), (q.p + c2.1, 1), (q.v * -1 + c3.1, 2)] s.H s.out s.els
    holeUp x sd (i + block.length)
      { evs := s.evs.dropWhile (fun e => decide (e.1 = p)), H := r.H, out := r.out, els := r.els, vt := r.ret, vc := r.rc
        rm := s.rm ++ (List.range block.length).map (· + i) }

/-- The loop, PF 786-863; the number bounds the steps. -/
def points (x : Int) : Nat → List (V45 × Nat) → ES → Option (List (V45 × Nat) × ES)
  | 0, _, _ => none
  | n + 1, sd, s =>
    match s.evs with
    | [] => some (sd, s)
    | ev :: _ => if ev.1.1 = x then do let r ← onePoint x sd s; points x n r.1 r.2 else some (sd, s)

/-- `processEvent_`, PF 774-881. -/
def processEvent (x : Int) (evs : List VC) (sd : List (V45 × Nat)) (H : Heap) (out : List Poly) :
    Option (List VC × List (V45 × Nat) × Heap × List Poly) := do
  let (sd, s) ← points x (evs.length + 1) sd ⟨evs, H, out, [], none, 0, []⟩
  let sd ← eraseAll sd s.rm
  some (s.evs, s.els.foldl (insertEl x) sd, s.H, s.out)

/-- `scan`, PF 570-581; the number bounds the stops. -/
def scan : Nat → List VC → List (V45 × Nat) → Heap → List Poly → Option (List Poly)
  | _, [], _, _, out => some out
  | 0, _, _, _, _ => none
  | n + 1, ev :: r, sd, H, out => do
    let (evs, sd, H, out) ← processEvent ev.1.1 (ev :: r) sd H out
    scan n evs sd H out

/-- A formation of polygons without holes from clean data, PS45 371-373. The output polygons have no holes, so only the outline of a
figure is written. -/
def form (D : List VC) : Option (List (List P)) := (scan D.length D [] Heap.init []).map (fun out => out.map Poly.outer)

/-- What comes of asking a set for its polygons without holes. -/
inductive Got where
  | polys (out : List (List P))
  | undefined
  | fail (e : Deg45.Err)

/-- `get_fracture` with `fracture_holes` true, PS45 352-354, 360-362 and 368-374: `get` and `get_polygons` with polygons that have no
holes. -/
def get (umin umax : Int) (s : S45) : Got :=
  match s.clean umin umax with
  | .ok t => (match form t.data with | some out => .polys out | none => .undefined)
  | .fail e => .fail e
  | .undef => .undefined

end Verif.Frac45
