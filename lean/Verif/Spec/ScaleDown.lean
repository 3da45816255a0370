import Verif.Spec.Cut
/-!
# Specification: the boundary drawn at a smaller scale
-/
namespace Verif.Spec.Arb

/-- Some point of the edge, its coordinates divided by the factor exactly, lies in the closed square that reaches from the point `lo` down and to the left and
`hi` up and to the right. -/
def Meets (f : Int) (lo hi : ℚ) (e : Edge) (q : ℚ × ℚ) : Prop :=
  ∃ z, OnEdge e z ∧ q.1 - lo ≤ z.1 / f ∧ z.1 / f ≤ q.1 + hi ∧ q.2 - lo ≤ z.2 / f ∧ z.2 / f ≤ q.2 + hi

/-- No edge, drawn at the smaller scale, comes closer to the point than half a unit in both directions. -/
def Away (f : Int) (E : List Edge) (q : ℚ × ℚ) : Prop := ∀ e ∈ E, ¬ Meets f (1 / 2) (1 / 2) e q

end Verif.Spec.Arb
