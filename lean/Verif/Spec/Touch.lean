import Verif.Spec.Region
/-!
# Specification: touching sets

A set of the library is the half-open cells it covers. As a closed shape it also contains the points
that have covered points arbitrarily near. Two sets touch when these closed shapes share a point: their
interiors overlap, or their boundaries meet in an edge or in a single corner.
-/
namespace Verif.Spec
open Verif.Set90

/-- `q` belongs to the closed shape of the set. -/
def InClosure (s : PSet) (q : ℚ × ℚ) : Prop := ∀ ε : ℚ, 0 < ε → ∃ p : ℚ × ℚ, |p.1 - q.1| < ε ∧ |p.2 - q.2| < ε ∧ Covers s p

/-- The closed shapes of the two sets share a point. -/
def Touching (s t : PSet) : Prop := ∃ q, InClosure s q ∧ InClosure t q

/-- `q` is a point of the region or has points of it arbitrarily near. -/
def Near (A : ℚ × ℚ → Prop) (q : ℚ × ℚ) : Prop := ∀ ε : ℚ, 0 < ε → ∃ p : ℚ × ℚ, |p.1 - q.1| < ε ∧ |p.2 - q.2| < ε ∧ A p

/-- The closed regions share a point: they overlap, or meet in an edge or in a corner. -/
def RegionsTouch (A B : ℚ × ℚ → Prop) : Prop := ∃ q, Near A q ∧ Near B q

end Verif.Spec
