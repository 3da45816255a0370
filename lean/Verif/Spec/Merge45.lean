import Verif.Spec.Deg45
/-!
# Specification: layers of 45-degree sets
-/
namespace Verif.Spec.Merge45
open Verif.Set45 Verif.Spec.Deg45

/-- `K` lists, in increasing order, the properties of the layers that cover the point. -/
def LayersAt (L : List (S45 × Int)) (q : ℚ × ℚ) (K : List Int) : Prop :=
  K.Pairwise (· < ·) ∧ ∀ k, k ∈ K ↔ ∃ s, (s, k) ∈ L ∧ Covers s q

/-- The point of the plane with half the coordinates. -/
def half (q : ℚ × ℚ) : ℚ × ℚ := (q.1 / 2, q.2 / 2)

end Verif.Spec.Merge45
