import Verif.Spec.Region
/-!
# Specification: which properties apply at a point

Nothing here refers to the scanline. `ins` lists the sets inserted, each with its property.
-/
namespace Verif.Spec
open Verif.Set90

variable {α : Type} [LinearOrder α]

/-- How often the geometry inserted with property `p` covers the point `q`. -/
def propDepth (ins : List (PSet × α)) (p : α) (q : ℚ × ℚ) : Int :=
  (ins.map (fun i => if i.2 = p then depth i.1 q else 0)).sum

/-- `P` lists, in increasing order and without repetition, the properties for which `f` is positive. -/
def IsKey (P : List α) (f : α → Int) : Prop := P.Pairwise (· < ·) ∧ ∀ p, p ∈ P ↔ 0 < f p

end Verif.Spec
