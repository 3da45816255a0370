import Mathlib.Analysis.Real.Sqrt
/-!
# Specification of circles that touch points and lines

No reference to the model. A point site is a pair of integers; a segment site is given by its two ends, and stands for
the line through them, seen from its right side.
-/
namespace Verif.Spec.Circle

/-- The distance of two points. -/
noncomputable def away (c : ℝ × ℝ) (p : ℝ × ℝ) : ℝ := Real.sqrt ((c.1 - p.1) ^ 2 + (c.2 - p.2) ^ 2)

/-- Twice the signed area of the triangle `p q r`: negative if `p q r` turn to the right. -/
def turn (p q r : ℝ × ℝ) : ℝ := (q.1 - p.1) * (r.2 - p.2) - (q.2 - p.2) * (r.1 - p.1)

/-- A point with integer coordinates. -/
def pt (p : Int × Int) : ℝ × ℝ := ((p.1 : ℝ), (p.2 : ℝ))

/-- The distance of `c` from the line through `s` and `e`, positive on the right of it going from `s` to `e`. -/
noncomputable def rightDist (c : ℝ × ℝ) (s e : Int × Int) : ℝ := -turn (pt s) (pt e) c / away (pt s) (pt e)

/-- A site: a point, or a line with a direction. -/
inductive Shape where
  | point (p : Int × Int)
  | line (s e : Int × Int)

/-- The circle about `c` with radius `r` touches the site (and lies on the right of it). -/
def Touches (c : ℝ × ℝ) (r : ℝ) : Shape → Prop
  | .point p => away c (pt p) = r
  | .line s e => rightDist c s e = r

/-- `q` is where a circle about `c` that touches the site touches it: the point itself, or the foot of the perpendicular. -/
def Contact (c q : ℝ × ℝ) : Shape → Prop
  | .point p => q = pt p
  | .line s e => turn (pt s) (pt e) q = 0 ∧ (q.1 - c.1) * ((e.1 : ℝ) - s.1) + (q.2 - c.2) * ((e.2 : ℝ) - s.2) = 0

/-- The point lies on the right of the line, or on it. -/
def OnRight (p : Int × Int) (s e : Int × Int) : Prop := turn (pt s) (pt e) (pt p) ≤ 0

/-- Two pairs of points lie on parallel lines. -/
def Parallel (a b : (Int × Int) × (Int × Int)) : Prop := (a.2.1 - a.1.1) * (b.2.2 - b.1.2) - (a.2.2 - a.1.2) * (b.2.1 - b.1.1) = 0

/-- Two lines with direction run the same way. -/
def SameWay (a b : (Int × Int) × (Int × Int)) : Prop :=
  Parallel a b ∧ 0 < (a.2.1 - a.1.1) * (b.2.1 - b.1.1) + (a.2.2 - a.1.2) * (b.2.2 - b.1.2)

/-- The circle about `(x, y)` whose rightmost abscissa is `lower` touches the three sites. -/
def TouchesAll (x y lower : ℝ) (s1 s2 s3 : Shape) : Prop :=
  Touches (x, y) (lower - x) s1 ∧ Touches (x, y) (lower - x) s2 ∧ Touches (x, y) (lower - x) s3

/-- Going round the circle clockwise, the three sites are met in this order. -/
def Clockwise (x y : ℝ) (s1 s2 s3 : Shape) : Prop :=
  ∀ q1 q2 q3, Contact (x, y) q1 s1 → Contact (x, y) q2 s2 → Contact (x, y) q3 s3 → turn q1 q2 q3 ≤ 0

end Verif.Spec.Circle
