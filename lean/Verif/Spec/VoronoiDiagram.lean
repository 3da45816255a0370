import Verif.Model.VoronoiExists
import Verif.Model.VoronoiSweep

/-!
# What a half-edge structure is

Written against the accessors of a Voronoi diagram only: `cell`, `twin`, `next`, `prev`, `vertex0` of each of
its half-edges.
-/
namespace Verif.Voronoi

variable {P : Type}

/-- The topology a user walks on. -/
structure HalfEdges (D : Diag P) : Prop where
  /-- `twin` is an involution without fixed points and pairs the half-edges `2k` and `2k + 1`. -/
  twin : ∀ e < D.ne, D.twin e < D.ne ∧ D.twin (D.twin e) = e ∧ D.twin e ≠ e ∧ D.twin e / 2 = e / 2
  /-- `next` and `prev` are inverse to each other where they are set. -/
  next : ∀ e < D.ne, ∀ f, D.next e = some f → f < D.ne ∧ D.prev f = some e
  prev : ∀ e < D.ne, ∀ f, D.prev e = some f → f < D.ne ∧ D.next f = some e
  /-- `next` stays in the cell. -/
  face : ∀ e < D.ne, ∀ f, D.next e = some f → D.cell f = D.cell e
  /-- An edge starts at the vertex where its predecessor ends. -/
  vertex : ∀ e < D.ne, ∀ f, D.next e = some f → D.v0 f = D.v0 (D.twin e)
  /-- Every half-edge belongs to a cell of the diagram. -/
  cell : ∀ e < D.ne, D.cell e < D.cells

/-- `k` times `next`. -/
def Diag.walkNext (D : Diag P) : Nat → Nat → Option Nat
  | 0, e => some e
  | k + 1, e => do
    let f ← D.next e
    D.walkNext k f

/-- `Run n d k s`: `s` is a state of the builder reachable for `n` sites after `k` events, with any number of first sites on a
vertical line, any answers of the predicates, any order of the events. If `d` is true then no circle
event joined two arcs of the same site. -/
inductive Run (n : Nat) (d : Bool) : Nat → St P → Prop
  | init {skip : Nat} {seg : Bool} {s : St P} (h1 : 1 ≤ skip) (h2 : skip ≤ max 1 n) (h : initBeach n skip seg = some s) : Run n d 0 s
  | site {k : Nat} {s s' : St P} {seg : Bool} {rm : Nat → Bool} {pos : Nat} {c1 c2 : Bool} (r : Run n d k s)
      (h : siteStep n seg rm pos c1 c2 s = some s') : Run n d (k + 1) s'
  | circle {k : Nat} {s s' : St P} {i : Nat} {p : P} {c1 c2 : Bool} (r : Run n d k s)
      (hd : d = true → ∀ a b, s.beach[i]? = some a → s.beach[i + 1]? = some b → a.l ≠ b.r)
      (h : circleStep (i + 1) p c1 c2 s = some s') : Run n d (k + 1) s'

/-- No half-edge separates a cell from itself. -/
def NoSelfEdge (D : Diag P) : Prop := ∀ e < D.ne, D.cell (D.twin e) ≠ D.cell e

/-- Consecutive edges share a cell: the edges between parallel strips, in order. -/
def LineChain (D : Diag P) : Prop := ∀ k, 2 * k + 2 < D.ne → D.cell (2 * k + 2) = D.cell (2 * k + 1)

/-- The same site, possibly seen from the other side. -/
def SameSite (s t : Site) : Prop := s.sorted = t.sorted ∧ (s.p0 = t.p0 ∧ s.p1 = t.p1 ∨ s.p0 = t.p1 ∧ s.p1 = t.p0)

/-- Both ends of the half-edge `e` exist and are equal. -/
def ZeroLength (eq : P → P → Bool) (D : Diag P) (e : Nat) : Prop :=
  ∃ v w p q, D.v0 e = some v ∧ D.v0 (D.twin e) = some w ∧ D.verts[v]? = some p ∧ D.verts[w]? = some q ∧ eq p q = true

end Verif.Voronoi
