import Verif.Spec.Arb
import Mathlib.Data.Rat.Floor
/-!
# Specification: how edges meet
-/
namespace Verif.Spec.Arb

/-- Every edge is horizontal or vertical. -/
def Manhattan (E : List Edge) : Prop := ∀ e ∈ E, e.1.1 = e.2.1 ∨ e.1.2 = e.2.2

instance (E : List Edge) : Decidable (Manhattan E) := inferInstanceAs (Decidable (∀ e ∈ E, _))

/-- A lattice point as a point of the plane. -/
def pt (p : Int × Int) : ℚ × ℚ := (p.1, p.2)

/-- Two edges have the same direction up to sign. -/
def Parallel (a b : Edge) : Prop := (a.2.1 - a.1.1) * (b.2.2 - b.1.2) = (b.2.1 - b.1.1) * (a.2.2 - a.1.2)

instance (a b : Edge) : Decidable (Parallel a b) := inferInstanceAs (Decidable (_ = _))

/-- The edge passes through the unit square that has the point as its lower left corner; the left and lower
sides belong to the square, the other two do not. -/
def HitsSquare (e : Edge) (p : Int × Int) : Prop :=
  ∃ q, OnEdge e q ∧ (p.1 : ℚ) ≤ q.1 ∧ q.1 < p.1 + 1 ∧ (p.2 : ℚ) ≤ q.2 ∧ q.2 < p.2 + 1

/-- A point where edges have to be cut: an end point, or a common point of edges with different directions. -/
def Junction (E : List Edge) (p : Int × Int) : Prop :=
  (∃ a ∈ E, p = a.1 ∨ p = a.2) ∨ ∃ a ∈ E, ∃ b ∈ E, ¬ Parallel a b ∧ OnEdge a (pt p) ∧ OnEdge b (pt p)

/-- The lattice point at the lower left corner of the unit square that contains the point. -/
def corner (q : ℚ × ℚ) : Int × Int := (⌊q.1⌋, ⌊q.2⌋)

/-- The lattice points edges are moved to: the end points, and the corners of the common points of edges with
different directions. -/
def Hot (E : List Edge) (p : Int × Int) : Prop :=
  (∃ a ∈ E, p = a.1 ∨ p = a.2) ∨ ∃ a ∈ E, ∃ b ∈ E, ¬ Parallel a b ∧ ∃ q, OnEdge a q ∧ OnEdge b q ∧ p = corner q

/-- Edges with different directions meet in lattice points, and an edge that passes through the unit square of
such a point, or of an end point, passes through the point. -/
def OnLattice (E : List Edge) : Prop :=
  (∀ a ∈ E, ∀ b ∈ E, ¬ Parallel a b → ∀ q, OnEdge a q → OnEdge b q → ∃ p, q = pt p) ∧
  ∀ p, Junction E p → ∀ a ∈ E, HitsSquare a p → OnEdge a (pt p)

/-- No edge meets the unit square that has the point as its lower left corner; the left and lower sides belong to
the square, the other two do not. -/
def Clear (E : List Edge) (q : ℚ × ℚ) : Prop :=
  ∀ e ∈ E, ∀ z, OnEdge e z → ¬ (q.1 ≤ z.1 ∧ z.1 < q.1 + 1 ∧ q.2 ≤ z.2 ∧ z.2 < q.2 + 1)

/-- Every point of the first edge is less than a unit to the left of and below a point of the second. -/
def Near (e a : Edge) : Prop :=
  ∀ q, OnEdge e q → ∃ z, OnEdge a z ∧ q.1 ≤ z.1 ∧ z.1 < q.1 + 1 ∧ q.2 ≤ z.2 ∧ z.2 < q.2 + 1

/-- The edge is part of an edge of the list, between junctions of the list. -/
def PartOf (E : List Edge) (e : Edge) : Prop :=
  Directed e ∧ Junction E e.1 ∧ Junction E e.2 ∧ ∃ a ∈ E, OnEdge a (pt e.1) ∧ OnEdge a (pt e.2)

/-- An expression over sets given by counted edges; the numbers of the operations are those of `inResult`. -/
inductive Expr where
  | set (D : List (Edge × Int))
  | op (k : Nat) (l r : Expr)

/-- The region an expression denotes: a set is the points of positive depth. -/
def Expr.Inside : Expr → ℚ × ℚ → Prop
  | .set D, q => depth D q > 0
  | .op k l r, q => inResult k (l.Inside q) (r.Inside q)

/-- All the sets of an expression. -/
def Expr.sets : Expr → List (List (Edge × Int))
  | .set D => [D]
  | .op _ l r => l.sets ++ r.sets

end Verif.Spec.Arb
