import Verif.Model.VoronoiSweep

/-!
# Model of the clean-up of a Voronoi diagram after the sweep

`voronoi_diagram::_build`, include/boost/polygon/voronoi_diagram.hpp lines 442-550, and `remove_edge`,
lines 583-606. Loops that follow pointers take fuel; running out of it is `none`, as is a null
dereference, so that a result proves that the loop in the code ends and follows no null pointer.
The vertex equality predicate is an argument.
-/
namespace Verif.Voronoi

variable {P : Type}

/-- `rot_next()`, line 196: `prev_->twin()`. -/
def Diag.rotNext (D : Diag P) (e : Nat) : Option Nat := (D.prev e).map D.twin

/-- `rot_prev()`, line 201: `twin_->next()`. -/
def Diag.rotPrev (D : Diag P) (e : Nat) : Option Nat := D.next (D.twin e)

/-- The loop of lines 586-590 (and of lines 486-489): walk around a vertex from `u` until `stop`, setting the start vertex. -/
def Diag.relabel (stop : Nat) (v : Option Nat) : Nat → Nat → Diag P → Option (Diag P)
  | 0, _, _ => none
  | k + 1, u, D =>
    if u = stop then some D
    else do
      let D := { D with v0 := upd D.v0 u v }
      let u' ← D.rotNext u
      D.relabel stop v k u'

/-- `remove_edge`, lines 583-606. -/
def Diag.removeEdge (D : Diag P) (e : Nat) : Option (Diag P) := do
  let t := D.twin e
  let u ← D.rotNext t
  let D ← D.relabel t (D.v0 e) (D.ne + 1) u
  let rp1 ← D.rotPrev e
  let rn1 ← D.rotNext e
  let rp2 ← D.rotPrev t
  let rn2 ← D.rotNext t
  let next := upd D.next (D.twin rn1) (some rp2)
  let prev := upd D.prev rp2 (some (D.twin rn1))
  let prev := upd prev rp1 (some (D.twin rn2))
  let next := upd next (D.twin rn2) (some rp1)
  return { D with next := next, prev := prev }

/-- The half-edges `x`, `x + 1` are copied to `y`, `y + 1`: lines 452-455. -/
def Diag.copyEdge (D : Diag P) (x y : Nat) : Diag P :=
  { D with
    cell := upd (upd D.cell y (D.cell x)) (y + 1) (D.cell (x + 1))
    twin := upd (upd D.twin y (y + 1)) (y + 1) y
    v0 := upd (upd D.v0 y (D.v0 x)) (y + 1) (D.v0 (x + 1))
    prev := upd (upd D.prev y (D.prev x)) (y + 1) (D.prev (x + 1))
    next := upd (upd D.next y (D.next x)) (y + 1) (D.next (x + 1)) }

/-- `a->prev()->next(a); b->next()->prev(b);` if `a->prev()` is not null: lines 456-459 with `a = e1`, `b = e2`, and lines
460-463 with `a = e2`, `b = e1` (there the two statements are in the other order; they write different members, and
neither reads what the other writes). -/
def Diag.relinkEdge (D : Diag P) (a b : Nat) : Option (Diag P) :=
  match D.prev a with
  | none => some D
  | some p => do
    let n ← D.next b
    return { D with next := upd D.next p (some a), prev := upd D.prev n (some b) }

/-- Lines 451-464: move a pair of half-edges. -/
def Diag.moveEdge (D : Diag P) (x y : Nat) : Option (Diag P) := do
  let D ← (D.copyEdge x y).relinkEdge y (y + 1)
  D.relinkEdge (y + 1) y

/-- Line 448: both ends exist and are equal. -/
def Diag.degenerate (eq : P → P → Bool) (D : Diag P) (e : Nat) : Option Bool :=
  match D.v0 e, D.v0 (D.twin e) with
  | some v1, some v2 => do
    let p1 ← D.verts[v1]?
    let p2 ← D.verts[v2]?
    return eq p1 p2
  | _, _ => some false

/-- The loop of lines 444-468: `k` pairs are left, the next is at `x`, the next free place is `y`. -/
def Diag.cleanEdges (eq : P → P → Bool) : Nat → Nat → Nat → Diag P → Option (Diag P)
  | 0, _, y, D => some { D with ne := y }
  | k + 1, x, y, D => do
    let deg ← D.degenerate eq x
    if deg then
      let D ← D.removeEdge x
      D.cleanEdges eq k (x + 2) y
    else
      let D ← if x ≠ y then D.moveEdge x y else some D
      D.cleanEdges eq k (x + 2) (y + 2)

/-- A diagram with the incident edges of its cells and vertices. -/
structure Full (P : Type) where
  D : Diag P
  cinc : Nat → Option Nat
  vinc : Nat → Option Nat

/-- The loop of lines 471-476: `k` half-edges are left, the next is `i`. -/
def setIncident : Nat → Nat → Full P → Full P
  | 0, _, F => F
  | k + 1, i, F => setIncident k (i + 1)
      { F with
        cinc := upd F.cinc (F.D.cell i) (some i)
        vinc := match F.D.v0 i with | none => F.vinc | some v => upd F.vinc v (some i) }

/-- Lines 482-490: the vertex `x` moves to `y`. -/
def moveVertex (F : Full P) (x y e : Nat) : Option (Full P) := do
  let p ← F.D.verts[x]?
  let D := { F.D with verts := F.D.verts.set y p, v0 := upd F.D.v0 e (some y) }
  let u ← D.rotNext e
  let D ← D.relabel e (some y) (D.ne + 1) u
  return { F with D := D, vinc := upd F.vinc y (some e) }

/-- The loop of lines 478-494: `k` vertices are left, the next is `x`, the next free place is `y`. -/
def cleanVerts : Nat → Nat → Nat → Full P → Option (Full P)
  | 0, _, y, F => some { F with D := { F.D with verts := F.D.verts.take y } }
  | k + 1, x, y, F =>
    match F.vinc x with
    | none => cleanVerts k (x + 1) y F
    | some e => do
      let F ← if x ≠ y then moveVertex F x y e else some F
      cleanVerts k (x + 1) (y + 1) F

/-- The loop of lines 508-522: `k` pairs are left, `edge1` is `e` and the next half-edge is `e + 1`. -/
def linkLines : Nat → Nat → Diag P → Diag P
  | 0, e, D => { D with next := upd D.next e (some e), prev := upd D.prev e (some e) }
  | k + 1, e, D => linkLines k (e + 2)
      { D with
        next := upd (upd D.next e (some (e + 1))) (e + 1) (some e)
        prev := upd (upd D.prev e (some (e + 1))) (e + 1) (some e) }

/-- Lines 532-538: walk back from the incident edge `s` until there is no previous edge or `s` is reached again. -/
def Diag.leftEnd (D : Diag P) (s : Nat) : Nat → Nat → Option Nat
  | 0, _ => none
  | k + 1, e =>
    match D.prev e with
    | none => some e
    | some p => if p = s then some p else D.leftEnd s k p

/-- Lines 543-545: walk forward until there is no next edge. -/
def Diag.rightEnd (D : Diag P) : Nat → Nat → Option Nat
  | 0, _ => none
  | k + 1, e =>
    match D.next e with
    | none => some e
    | some n => D.rightEnd k n

/-- Lines 532-547 for the cell with incident edge `s`. -/
def Diag.linkCell (D : Diag P) (s : Nat) : Option (Diag P) := do
  let l ← D.leftEnd s (D.ne + 1) s
  match D.prev l with
  | some _ => some D
  | none => do
    let r ← D.rightEnd (D.ne + 1) s
    return { D with prev := upd D.prev l (some r), next := upd D.next r (some l) }

/-- The loop of lines 525-548: `k` cells are left, the next is `c`. A cell without incident edge is degenerate. -/
def linkCells (cinc : Nat → Option Nat) : Nat → Nat → Diag P → Option (Diag P)
  | 0, _, D => some D
  | k + 1, c, D =>
    match cinc c with
    | none => linkCells cinc k (c + 1) D
    | some s => do
      let D ← D.linkCell s
      linkCells cinc k (c + 1) D

/-- `_build`, lines 442-550. -/
def build (eq : P → P → Bool) (D : Diag P) : Option (Full P) := do
  let D ← D.cleanEdges eq (D.ne / 2) 0 0
  let F := setIncident D.ne 0 ⟨D, fun _ => none, fun _ => none⟩
  let F ← cleanVerts F.D.verts.length 0 0 F
  if F.D.verts = [] then
    if F.D.ne = 0 then return F
    else
      let D := { F.D with next := upd F.D.next 0 (some 0), prev := upd F.D.prev 0 (some 0) }
      return { F with D := linkLines (D.ne / 2 - 1) 1 D }
  else do
    let D ← linkCells F.cinc F.D.cells 0 F.D
    return { F with D := D }

end Verif.Voronoi
