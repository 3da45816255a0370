import Verif.Spec.Region
import Verif.Spec.PolySet
/-!
# Specification: motions of the grid
-/
namespace Verif.Spec
open Verif.Spec.Arb

/-- Whether an axis transformation keeps the sense of rotation (1) or reverses it (-1). -/
def axisDet : Nat → Int
  | 0 => 1
  | 3 => 1
  | 5 => 1
  | 6 => 1
  | _ => -1

/-- A translation by minus the offset, followed by an axis transformation: `transformation` of the library as a map of the rational plane. -/
def transMap (a : Nat) (d : Int × Int) (q : ℚ × ℚ) : ℚ × ℚ := axisMap a (q.1 - d.1, q.2 - d.2)

/-- The point is on no side of the closed outline; a repeated vertex makes no side. -/
def OffEdges (P : List (Int × Int)) (q : ℚ × ℚ) : Prop := ∀ e ∈ edges P, e.1 ≠ e.2 → ¬ OnEdge e q

end Verif.Spec
