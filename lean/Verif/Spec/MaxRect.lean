import Verif.Spec.Region
/-!
# Specification: the maximal rectangles of a set
-/
namespace Verif.Spec
open Verif.Set90 Verif.Rectangle

/-- The rectangle is not degenerate and every point of it is covered by the set. -/
def RectInside (s : PSet) (r : Rect) : Prop :=
  r.h.lo < r.h.hi ∧ r.v.lo < r.v.hi ∧ ∀ p, InRect r p → Covers s p

/-- The rectangle is inside the set and no larger rectangle that contains it is. -/
def MaximalRect (s : PSet) (r : Rect) : Prop :=
  RectInside s r ∧ ∀ q, RectInside s q → (∀ p, InRect r p → InRect q p) → q = r

end Verif.Spec
