import Mathlib.Analysis.Real.Sqrt
/-!
# Specification: points at a distance from a line
-/
namespace Verif.Spec.OffsetArb

/-- The point `x` is at the distance `d` to the right of the line from `p` to `q`, to the left if `d` is negative: its product with the normal is `d` times the
length of the edge. -/
def AtDistance (p q : Int × Int) (d : ℝ) (x : ℝ × ℝ) : Prop :=
  (x.1 - q.1) * (q.2 - p.2) - (x.2 - q.2) * (q.1 - p.1) = d * √((q.1 - p.1) ^ 2 + (q.2 - p.2) ^ 2)

/-- The edge from `c` to `n` leads back along the edge from `p` to `c`. -/
def Reversed (p c n : Int × Int) : Prop :=
  (c.1 - p.1) * (n.2 - c.2) - (c.2 - p.2) * (n.1 - c.1) = 0 ∧ (c.1 - p.1) * (n.1 - c.1) + (c.2 - p.2) * (n.2 - c.2) < 0

/-- The edge from `c` to `n` goes on in the direction of the edge from `p` to `c`. -/
def Straight (p c n : Int × Int) : Prop :=
  (c.1 - p.1) * (n.2 - c.2) - (c.2 - p.2) * (n.1 - c.1) = 0 ∧ 0 < (c.1 - p.1) * (n.1 - c.1) + (c.2 - p.2) * (n.2 - c.2)

/-- The integer point `r` is the point `x` rounded to the nearest. -/
def RoundedTo (r : Int × Int) (x : ℝ × ℝ) : Prop := |(r.1 : ℝ) - x.1| ≤ 1 / 2 ∧ |(r.2 : ℝ) - x.2| ≤ 1 / 2

/-- The vertex with a number, counted around the polygon. -/
def vertex (l : List (Int × Int)) (i : Nat) : Int × Int := l.getD (i % l.length) (0, 0)

end Verif.Spec.OffsetArb
