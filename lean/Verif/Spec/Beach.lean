import Verif.Spec.Circle
/-!
# Specification of the beach line

No reference to the model. The sweep line is vertical and moves to the right; `sweep` is its abscissa. A site is a point or, as `line s e`, the right
side of the segment from `s` to `e`.
-/
namespace Verif.Spec.Beach
open Verif.Spec.Circle

/-- `c` is as far from the site as from the sweep line. For a segment, `c` lies on its right (or on it) and the nearest point of the line through the
segment belongs to the segment. -/
def OnArc (sweep : ℝ) (c : ℝ × ℝ) : Shape → Prop
  | .point p => away c (pt p) = sweep - c.1
  | .line s e => rightDist c s e = sweep - c.1 ∧ c.1 ≤ sweep ∧
      0 ≤ (c.1 - s.1) * ((e.1 : ℝ) - s.1) + (c.2 - s.2) * ((e.2 : ℝ) - s.2) ∧
      (c.1 - s.1) * ((e.1 : ℝ) - s.1) + (c.2 - s.2) * ((e.2 : ℝ) - s.2) ≤ ((e.1 : ℝ) - s.1) ^ 2 + ((e.2 : ℝ) - s.2) ^ 2

/-- Part of the site lies to the left of the sweep line. -/
def Behind (sweep : Int) : Shape → Prop
  | .point p => p.1 < sweep
  | .line s e => s ≠ e ∧ (s.1 < sweep ∨ e.1 < sweep)

/-- At height `y` the arc of `a` is nearer to the sweep line than the arc of `b`. -/
def InFront (sweep y : ℝ) (a b : Shape) : Prop :=
  ∃ X, OnArc sweep (X, y) a ∧ ∀ X', OnArc sweep (X', y) b → X' < X

/-- Going up, the beach line passes from the arc of `a` to the arc of `b` at height `Y`. -/
def GivesWay (sweep : ℝ) (a b : Shape) (Y : ℝ) : Prop :=
  ∃ ε > 0, ∀ h, 0 < h → h < ε → InFront sweep (Y - h) a b ∧ InFront sweep (Y + h) b a

/-- At height `Y` the two arcs meet, to the left of the sweep line. -/
def MeetAt (sweep : ℝ) (a b : Shape) (Y : ℝ) : Prop := ∃ X < sweep, OnArc sweep (X, Y) a ∧ OnArc sweep (X, Y) b

/-- Just above or just below `Y` both arcs are there. -/
def SideBySide (sweep : ℝ) (a b : Shape) (Y : ℝ) : Prop :=
  ∃ ε > 0, (∀ h, 0 < h → h < ε → ∃ X X', OnArc sweep (X, Y - h) a ∧ OnArc sweep (X', Y - h) b) ∨
    (∀ h, 0 < h → h < ε → ∃ X X', OnArc sweep (X, Y + h) a ∧ OnArc sweep (X', Y + h) b)

end Verif.Spec.Beach
