import Verif.Spec.Cut
/-!
# Specification: cutting a list of segments
-/
namespace Verif.Spec.Arb

/-- The segments lead from one point to another without a gap. -/
def Path : Int × Int → Int × Int → List Edge → Prop
  | a, b, [] => a = b
  | a, b, e :: r => e.1 = a ∧ Path e.2 b r

instance decPath : ∀ a b l, Decidable (Path a b l)
  | a, b, [] => inferInstanceAs (Decidable (a = b))
  | a, b, e :: r => @instDecidableAnd _ _ _ (decPath e.2 b r)

/-- The end point further to the left, or the lower one of a vertical segment. -/
def lower (e : Edge) : Int × Int := if e.2.1 < e.1.1 ∨ (e.2.1 = e.1.1 ∧ e.2.2 < e.1.2) then e.2 else e.1

/-- The other end point. -/
def upper (e : Edge) : Int × Int := if e.2.1 < e.1.1 ∨ (e.2.1 = e.1.1 ∧ e.2.2 < e.1.2) then e.1 else e.2

/-- The segments with one index. -/
def withId (out : List (Nat × Edge)) (i : Nat) : List Edge := (out.filter (fun p => p.1 == i)).map Prod.snd

/-- Two segments of the list that have a point in common have the same end points, or the point is an end point of
both. -/
def Apart (L : List Edge) : Prop :=
  ∀ e ∈ L, ∀ f ∈ L, e ≠ f → e ≠ f.swap → ∀ q, OnEdge e q → OnEdge f q → EndOf e q ∧ EndOf f q

/-- Every segment is given from either end. -/
def Redirected (S T : List Edge) : Prop := List.Forall₂ (fun e f => f = e ∨ f = e.swap) S T

end Verif.Spec.Arb
