/-!
# Model of the Voronoi sweep: beach line and half-edge output

Line numbers refer to include/boost/polygon/voronoi_builder.hpp (builder) and
include/boost/polygon/voronoi_diagram.hpp (diagram).

The geometry is an oracle: where `lower_bound` finds the arc above a new site, whether three sites form a
circle event, which event comes first and where vertices lie are arguments of the steps and may be
anything, as they would be if the floating-point predicates answered anything. Only the part of the
circle existence test that compares sorted indexes is kept (see `activate`). A site is its sorted index,
which `inverse()` does not change; whether it is a segment is an argument.

Pointers are indexes. The members of the edge records are separate functions of the index. A null or
past-the-begin dereference is `none`. That vectors are never reallocated, which would invalidate the
pointers, is the theorem `C60_capacity`.
-/
namespace Verif.Voronoi

/-- `voronoi_diagram`, lines 608-611: number of cells, vertices, number of half-edges, and the members of
the half-edges (lines 252-257). -/
structure Diag (P : Type) where
  cells : Nat
  verts : List P
  ne : Nat
  cell : Nat → Nat
  twin : Nat → Nat
  v0 : Nat → Option Nat
  prev : Nat → Option Nat
  next : Nat → Option Nat

/-- An empty diagram. -/
def Diag.empty (P : Type) : Diag P := ⟨0, [], 0, fun _ => 0, fun _ => 0, fun _ => none, fun _ => none, fun _ => none⟩

/-- Assignment to one record. -/
def upd {α : Type} (f : Nat → α) (i : Nat) (a : α) : Nat → α := fun j => if j = i then a else f j

variable {P : Type}

/-- `_insert_new_edge(site1, site2)`, diagram lines 345-382: the diagram and the two new half-edges.
`none` if a cell index is out of range. -/
def Diag.insertEdge (D : Diag P) (s1 s2 : Nat) : Option (Diag P × Nat × Nat) :=
  let e1 := D.ne
  let e2 := D.ne + 1
  let cells := (if D.cells = 0 then 1 else D.cells) + 1
  if s1 < cells ∧ s2 < cells then
    some ({ D with
      cells := cells
      ne := D.ne + 2
      cell := upd (upd D.cell e1 s1) e2 s2
      twin := upd (upd D.twin e1 e2) e2 e1
      v0 := upd (upd D.v0 e1 none) e2 none
      prev := upd (upd D.prev e1 none) e2 none
      next := upd (upd D.next e1 none) e2 none }, e1, e2)
  else none

/-- `_insert_new_edge(site1, site3, circle, edge12, edge23)`, diagram lines 390-440; `p` are the
coordinates of the circle centre. The assignments are those of lines 400-437 in their order. -/
def Diag.insertCircle (D : Diag P) (s1 s3 : Nat) (p : P) (e12 e23 : Nat) : Option (Diag P × Nat × Nat) :=
  let v := D.verts.length
  let n1 := D.ne
  let n2 := D.ne + 1
  if s1 < D.cells ∧ s3 < D.cells then
    let v0 := upd (upd D.v0 e12 (some v)) e23 (some v)
    let cell := upd (upd D.cell n1 s1) n2 s3
    let twin := upd (upd D.twin n1 n2) n2 n1
    let v0 := upd (upd v0 n1 none) n2 (some v)
    let prev := upd (upd (upd D.prev n1 none) n2 none) e12 (some n1)
    let next := upd (upd (upd D.next n1 none) n2 none) n1 (some e12)
    let next := upd next (twin e12) (some e23)
    let prev := upd prev e23 (some (twin e12))
    let next := upd next (twin e23) (some n2)
    let prev := upd prev n2 (some (twin e23))
    some ({ D with verts := D.verts ++ [p], ne := D.ne + 2, cell := cell, twin := twin, v0 := v0, prev := prev, next := next }, n1, n2)
  else none

/-- A beach line node: `beach_line_node_key` (left and right site) and `beach_line_node_data`, detail/voronoi_structures.hpp
lines 361-448: the half-edge (`none` is the NULL of a temporary node) and whether it has an active circle event. -/
structure Node where
  l : Nat
  r : Nat
  e : Option Nat
  ev : Bool

/-- The state of the builder: the beach line in order, the diagram, the index of the next site event. -/
structure St (P : Type) where
  beach : List Node
  D : Diag P
  nextSite : Nat

/-- `activate_circle_event(site1, site2, site3, node)`, builder lines 474-492. `c` is the answer of the
geometric part of `circle_formation_predicate_`; whatever it is, the predicate rejects equal neighbouring
sites (`C40_existence_rejects_equal`). -/
def activate (c : Bool) (s1 s2 s3 : Nat) (nd : Node) : Node :=
  if c && (s1 != s2) && (s2 != s3) then { nd with ev := true } else nd

/-- `deactivate_circle_event`, builder lines 254-259. -/
def deactivate (nd : Node) : Node := { nd with ev := false }

/-- `insert_new_arc`, builder lines 432-472: the new nodes in beach line order and the new diagram. The hinted
insertions put the nodes directly before the given position. -/
def insertArc (D : Diag P) (arc1 arc2 site : Nat) (seg : Bool) : Option (List Node × Diag P) := do
  let (D, e1, e2) ← D.insertEdge arc2 site
  return (⟨arc1, site, some e1, false⟩ :: ((if seg then [⟨site, site, none, false⟩] else []) ++ [⟨site, arc2, some e2, false⟩]), D)

/-- The removal of temporary nodes, builder lines 269-277: those chosen by `rm` (position) among the temporary ones. -/
def removeTemps (rm : Nat → Bool) : Nat → List Node → List Node
  | _, [] => []
  | i, nd :: r => if nd.e.isNone && rm i then removeTemps rm (i + 1) r else nd :: removeTemps rm (i + 1) r

/-- Apply `f` to the first node of a list. -/
def onHead (f : Node → Node) : List Node → List Node
  | [] => []
  | a :: r => f a :: r

/-- `process_site_event`, builder lines 261-361, for one site: `seg` whether it is a segment, `rm` which
temporary nodes end at it, `pos` the answer of `lower_bound`, `c1`, `c2` the answers about circle events.
Segments that start at the same point are processed one after the other without a new search in the code; here each of them is
a step with its own `pos`, which includes that behaviour. -/
def siteStep (n : Nat) (seg : Bool) (rm : Nat → Bool) (pos : Nat) (c1 c2 : Bool) (s : St P) : Option (St P) :=
  if s.nextSite < n then
    let site := s.nextSite
    let beach := if seg then s.beach else removeTemps rm 0 s.beach
    let L := beach.take pos
    match L.getLast?, beach.drop pos with
    | none, [] => none
    | some left, [] => do
      let (nodes, D) ← insertArc s.D left.r left.r site seg
      return ⟨L ++ onHead (activate c1 left.l left.r site) nodes, D, site + 1⟩
    | none, right :: R => do
      let (nodes, D) ← insertArc s.D right.l right.l site seg
      return ⟨nodes ++ activate c2 site right.l right.r right :: R, D, site + 1⟩
    | some left, right :: R => do
      let right := deactivate right
      let (nodes, D) ← insertArc s.D left.r right.l site seg
      return ⟨L ++ onHead (activate c1 left.l left.r site) nodes ++ activate c2 site right.l right.r right :: R, D, site + 1⟩
  else none

/-- Builder lines 413-420: the new triple to the left of the changed node, if it is not the first. -/
def relink (c : Bool) (l1 : Option Node) (ac : Node) : Node :=
  match l1 with
  | none => ac
  | some l1 => activate c l1.l ac.l ac.r (deactivate ac)

/-- `process_circle_event`, builder lines 363-430, for the event of the node at position `k`. -/
def circleStep (k : Nat) (p : P) (c1 c2 : Bool) (s : St P) : Option (St P) :=
  let L := s.beach.take k
  match L.getLast?, s.beach.drop k with
  | some ab, bc :: R =>
    if bc.ev then
      match ab.e, bc.e with
      | some e12, some e23 => do
        let (D, n1, _) ← s.D.insertCircle ab.l bc.r p e12 e23
        let ac : Node := ⟨ab.l, bc.r, some n1, ab.ev⟩
        let ac := relink c1 L.dropLast.getLast? ac
        let R := onHead (fun r1 => activate c2 ab.l bc.r r1.r (deactivate r1)) R
        return ⟨L.dropLast ++ ac :: R, D, s.nextSite⟩
      | _, _ => none
    else none
  | _, _ => none

/-- `init_beach_line_collinear_sites`, builder lines 231-252: nodes between consecutive sites `i, i+1, ..., m`. -/
def collinearGo : Nat → Nat → List Node → Diag P → Option (List Node × Diag P)
  | 0, _, beach, D => some (beach, D)
  | k + 1, i, beach, D => do
    let (D, e, _) ← D.insertEdge i (i + 1)
    collinearGo k (i + 1) (beach ++ [⟨i, i + 1, some e, false⟩]) D

/-- `init_beach_line`, builder lines 188-229, for `n` sites of which the first `skip` lie on one vertical
line; `seg` tells whether the second site is a segment. -/
def initBeach (n skip : Nat) (seg : Bool) : Option (St P) :=
  if n = 0 then some ⟨[], Diag.empty P, 0⟩
  else if n = 1 then some ⟨[], { Diag.empty P with cells := 1 }, 1⟩
  else if skip = 1 then do
    let (nodes, D) ← insertArc (Diag.empty P) 0 0 1 seg
    return ⟨nodes, D, 2⟩
  else do
    let (nodes, D) ← collinearGo (skip - 1) 0 [] (Diag.empty P)
    return ⟨nodes, D, skip⟩

end Verif.Voronoi
