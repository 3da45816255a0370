import Mathlib.Algebra.Order.Group.Unbundled.Int
import Mathlib.Data.Int.Basic
/-!
# Specification: edges at multiples of 45 degrees and their offsets
-/
namespace Verif.Spec.Resize45

abbrev Pt := Int × Int

/-- The cross product of the vectors from `p` to `q` and from `r` to `s`: positive if the second points to the left of the first. -/
def cross (p q r s : Pt) : Int := (q.1 - p.1) * (s.2 - r.2) - (q.2 - p.2) * (s.1 - r.1)

/-- The inner product of the vectors from `p` to `q` and from `r` to `s`. -/
def dot (p q r s : Pt) : Int := (q.1 - p.1) * (s.1 - r.1) + (q.2 - p.2) * (s.2 - r.2)

/-- The points differ and the edge between them is horizontal, vertical or diagonal. -/
def Is45 (p q : Pt) : Prop := p ≠ q ∧ (p.1 = q.1 ∨ p.2 = q.2 ∨ q.1 - p.1 = q.2 - p.2 ∨ q.1 - p.1 = p.2 - q.2)

instance (p q : Pt) : Decidable (Is45 p q) := inferInstanceAs (Decidable (_ ∧ _))

/-- The point moved at a right angle to the edge from `p` to `q`, to its right if `side` is 1 and to its left if it is -1: by `b` if the edge is
horizontal or vertical, by `u` along both axes if it is diagonal. -/
def offset (p q : Pt) (b u side : Int) (v : Pt) : Pt :=
  let k := if p.1 = q.1 ∨ p.2 = q.2 then b else u
  (v.1 + side * k * (q.2 - p.2).sign, v.2 - side * k * (q.1 - p.1).sign)

/-- The point is not outside any side of the convex polygon whose vertices are listed anticlockwise. -/
def InConvex (l : List Pt) (z : Pt) : Prop := ∀ e ∈ l.zip (l.drop 1 ++ l.take 1), 0 ≤ cross e.1 e.2 e.1 z

instance (l : List Pt) (z : Pt) : Decidable (InConvex l z) := inferInstanceAs (Decidable (∀ e ∈ _, _))

/-- The band along the edge from `p` to `q`: the points between its ends and at most `b` away from it if it is horizontal or vertical, or at most as far as
a step of `u` along both axes if it is diagonal. -/
def InBand (p q : Pt) (b u : Int) (z : Pt) : Prop :=
  0 ≤ dot p z p q ∧ dot p z p q ≤ dot p q p q ∧
    |cross p q p z| ≤ (if p.1 = q.1 ∨ p.2 = q.2 then b else u) * (|q.1 - p.1| + |q.2 - p.2|)

/-- The region at the corner `v` between the edges from `a` and to `c`, when both move to `side`: beyond the end of the first edge, before the start of the
second one, and not beyond either moved edge. -/
def InCorner (a v c : Pt) (b u side : Int) (z : Pt) : Prop :=
  0 ≤ dot a v v z ∧ dot v c v z ≤ 0 ∧
    -(side * cross a v v z) ≤ (if a.1 = v.1 ∨ a.2 = v.2 then b else u) * (|v.1 - a.1| + |v.2 - a.2|) ∧
    -(side * cross v c v z) ≤ (if v.1 = c.1 ∨ v.2 = c.2 then b else u) * (|c.1 - v.1| + |c.2 - v.2|)

/-- The vertex number `i` of a polygon, counted cyclically. -/
def at' (pts : List Pt) (i : Nat) : Pt := pts.getD (i % pts.length) (0, 0)

/-- A polygon of at least three vertices whose edges are horizontal, vertical or diagonal and whose corners all turn left or right. -/
def Corners45 (pts : List Pt) : Prop :=
  3 ≤ pts.length ∧ ∀ i < pts.length, Is45 (at' pts i) (at' pts (i + 1)) ∧ cross (at' pts i) (at' pts (i + 1)) (at' pts (i + 1)) (at' pts (i + 2)) ≠ 0

instance (pts : List Pt) : Decidable (Corners45 pts) := inferInstanceAs (Decidable (_ ∧ _))

end Verif.Spec.Resize45
