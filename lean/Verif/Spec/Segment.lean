import Verif.Model.Segment
import Mathlib.Data.Rat.Cast.Order
import Mathlib.Algebra.Order.Field.Rat
/-!
# Specification of segment predicates: exact cross products and parametric points
-/
namespace Verif.Spec
open Verif.Machine Verif.Segment

/-- Both coordinates are 32-bit. -/
def P32 (p : Int × Int) : Prop := I32 p.1 ∧ I32 p.2
/-- Both end points are 32-bit. -/
def S32 (s : Seg) : Prop := P32 s.lo ∧ P32 s.hi

/-- The exact cross product `(b-a) × (d-c)` of two vectors given by their end points. -/
def cross (a b c d : Int × Int) : Int := (b.1 - a.1) * (d.2 - c.2) - (b.2 - a.2) * (d.1 - c.1)

/-- `q` lies on the closed segment: `q = lo + t (hi - lo)` for some `0 ≤ t ≤ 1`. -/
def OnSeg (s : Seg) (q : ℚ × ℚ) : Prop :=
  ∃ t : ℚ, 0 ≤ t ∧ t ≤ 1 ∧ q.1 = s.lo.1 + t * (s.hi.1 - s.lo.1) ∧ q.2 = s.lo.2 + t * (s.hi.2 - s.lo.2)

/-- `q` is one of the two end points. -/
def IsEnd (s : Seg) (q : ℚ × ℚ) : Prop :=
  (q.1 = s.lo.1 ∧ q.2 = s.lo.2) ∨ (q.1 = s.hi.1 ∧ q.2 = s.hi.2)

/-- The same segment listed the other way. -/
def reverse (s : Seg) : Seg := ⟨s.hi, s.lo⟩

end Verif.Spec
