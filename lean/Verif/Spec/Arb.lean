import Verif.Spec.Contains
/-!
# Specification: edge lists at arbitrary angles

An edge is a pair of points; a counted edge list gives every edge an integer. Nothing here refers to the
scanline.
-/
namespace Verif.Spec.Arb
open Verif.Spec

abbrev Edge := (Int × Int) × (Int × Int)

/-- The rational point lies on the closed segment. -/
def OnEdge (e : Edge) (q : ℚ × ℚ) : Prop :=
  ∃ t : ℚ, 0 ≤ t ∧ t ≤ 1 ∧ q.1 = e.1.1 + t * (e.2.1 - e.1.1) ∧ q.2 = e.1.2 + t * (e.2.2 - e.1.2)

/-- The point is an end point of the segment. -/
def EndOf (e : Edge) (q : ℚ × ℚ) : Prop :=
  (q.1 = e.1.1 ∧ q.2 = e.1.2) ∨ (q.1 = e.2.1 ∧ q.2 = e.2.2)

/-- The edge runs from left to right, or upwards when vertical; it has positive length. -/
def Directed (e : Edge) : Prop := e.1.1 < e.2.1 ∨ (e.1.1 = e.2.1 ∧ e.1.2 < e.2.2)

instance (e : Edge) : Decidable (Directed e) := inferInstanceAs (Decidable (_ ∨ _))

/-- Two different edges of the list meet only in common end points. The same edge may be listed more than
once. -/
def Planar (E : List Edge) : Prop :=
  ∀ e ∈ E, ∀ f ∈ E, e ≠ f → ∀ q, OnEdge e q → OnEdge f q → EndOf e q ∧ EndOf f q

/-- The edge passes below the point or through it, over the half-open span `[left, right)`; vertical edges
never do. -/
def PassesBelow (e : Edge) (q : ℚ × ℚ) : Prop :=
  (e.1.1 : ℚ) ≤ q.1 ∧ q.1 < e.2.1 ∧ lineY e.1 e.2 q.1 ≤ q.2

instance (e : Edge) (q : ℚ × ℚ) : Decidable (PassesBelow e q) := inferInstanceAs (Decidable (_ ∧ _ ∧ _))

/-- The depth at a point: the sum of the counts of the edges that pass below it. -/
def depth (E : List (Edge × Int)) (q : ℚ × ℚ) : Int :=
  (E.map (fun e => if PassesBelow e.1 q then e.2 else 0)).sum

/-- What an edge carries into a point: its count at its second end point, minus its count at its first
one. A count belongs to the direction left to right; for vertical edges it belongs to the direction
downwards. -/
def inflow (e : Edge × Int) (v : Int × Int) : Int :=
  (if e.1.1.1 = e.1.2.1 then -e.2 else e.2) * ((if e.1.2 = v then 1 else 0) - (if e.1.1 = v then 1 else 0))

/-- The counted edges form closed curves: what enters a point leaves it. -/
def Closed (E : List (Edge × Int)) : Prop := ∀ v, (E.map (fun e => inflow e v)).sum = 0

/-- The edges of one of several layers. -/
def layer (E : List (Edge × (Int × Int))) (k : Int) : List (Edge × Int) :=
  (E.filter (fun e => e.2.1 == k)).map (fun e => (e.1, e.2.2))

/-- Membership in the result of an operation: 0 or, 1 and, 2 exclusive or, 3 the first without the second. -/
def inResult (op : Nat) (a b : Prop) : Prop :=
  match op with
  | 0 => a ∨ b
  | 1 => a ∧ b
  | 2 => (a ∧ ¬ b) ∨ (b ∧ ¬ a)
  | _ => a ∧ ¬ b

instance (op : Nat) (a b : Prop) [Decidable a] [Decidable b] : Decidable (inResult op a b) := by
  unfold inResult; split <;> infer_instance

end Verif.Spec.Arb
