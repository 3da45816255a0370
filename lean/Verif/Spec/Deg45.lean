import Verif.Model.Set45
import Verif.Spec.PolySet
import Mathlib.Algebra.Order.Field.Rat
import Mathlib.Algebra.BigOperators.Group.List.Basic
/-!
# Specification: the region of a set of 45-degree polygons

A vertex of the data carries a weight for each of the half lines that leave it in the directions down-right,
right, up-right and up. The depth at a point is the total weight of the half lines, other than the vertical ones,
that pass below it or through it; a set covers the points of positive depth. Data that comes from closed polygons is
closed in the sense of `Closed`.
-/
namespace Verif.Spec.Deg45
open Verif.Deg45 Verif.Set45

variable {C : Type} [AddCommGroup C]

/-- What a half line of slope `r` and weight `c` that starts at `p` adds to the depth at `q`. -/
def ray (q : ℚ × ℚ) (p : Int × Int) (r : Int) (c : C) : C :=
  if (p.1 : ℚ) ≤ q.1 ∧ (p.2 : ℚ) + r * (q.1 - p.1) ≤ q.2 then c else 0

/-- How often the point is covered. -/
def depth (D : List (Vert C)) (q : ℚ × ℚ) : C :=
  (D.map (fun v => ray q v.1 (-1) v.2.n + ray q v.1 0 v.2.z + ray q v.1 1 v.2.p)).sum

/-- The total of a quantity over the vertices of a class. -/
def tot (D : List (Vert C)) (f : Int × Int → Bool) (w : Quad C → C) : C :=
  (D.map (fun v => if f v.1 then w v.2 else 0)).sum

/-- The data of closed polygons: at every point the weights to the right add up to the weight of the vertical, and along every
line the weights add up to zero. -/
structure Closed (D : List (Vert C)) : Prop where
  point : ∀ p, tot D (fun a => decide (a = p)) (fun q => q.n + q.z + q.p) = tot D (fun a => decide (a = p)) Quad.v
  vert : ∀ x, tot D (fun a => decide (a.1 = x)) Quad.v = 0
  down : ∀ k, tot D (fun a => decide (a.1 + a.2 = k)) Quad.n = 0
  flat : ∀ k, tot D (fun a => decide (a.2 = k)) Quad.z = 0
  up : ∀ k, tot D (fun a => decide (a.2 - a.1 = k)) Quad.p = 0

/-- By abscissa, then by ordinate. -/
def Lex (v w : Vert C) : Prop := v.1.1 < w.1.1 ∨ (v.1.1 = w.1.1 ∧ v.1.2 ≤ w.1.2)

/-- Every vertex with a diagonal has coordinates that are both even or both odd, so that diagonals cross in grid points. -/
def OnGrid (D : List (Vert C)) : Prop := ∀ v ∈ D, v.2.n ≠ 0 ∨ v.2.p ≠ 0 → (v.1.1 + v.1.2) % 2 = 0

/-- No vertex has a diagonal. -/
def Manhattan (D : List (Vert Int)) : Prop := ∀ v ∈ D, v.2.n = 0 ∧ v.2.p = 0

/-- The set that holds the data covers the point. -/
def Covers (s : S45) (q : ℚ × ℚ) : Prop := 0 < depth s.data q

/-- Coordinates fit the coordinate type; vertices without weight do not count. -/
def InRange (umin umax : Int) (D : List (Vert Int)) : Prop :=
  ∀ v ∈ D, umin ≤ v.1.1 ∧ (v.2 ≠ ⟨0, 0, 0, 0⟩ → v.1.1 ≤ umax ∧ umin ≤ v.1.2 ∧ v.1.2 ≤ umax)

/-- The representation invariant: the flags tell the truth, the data is closed and in range. -/
structure Valid (umin umax : Int) (s : S45) : Prop where
  sorted : s.unsorted = false → s.data.Pairwise Lex
  clean : s.dirty = false → ∀ q, depth s.data q = 0 ∨ depth s.data q = 1
  manh : s.manh = true → Manhattan s.data
  closed : Closed s.data
  range : InRange umin umax s.data

/-- The edge is horizontal, vertical or at 45 degrees. -/
def Octant (e : (Int × Int) × (Int × Int)) : Prop :=
  e.1.1 = e.2.1 ∨ e.1.2 = e.2.2 ∨ e.2.1 - e.1.1 = e.2.2 - e.1.2 ∨ e.2.1 - e.1.1 = e.1.2 - e.2.2

/-- Every edge of the closed polygon is horizontal, vertical or at 45 degrees. -/
def Poly45 (P : List (Int × Int)) : Prop := ∀ e ∈ edges P, Octant e

instance (e : (Int × Int) × (Int × Int)) : Decidable (Octant e) := inferInstanceAs (Decidable (_ ∨ _))
instance (P : List (Int × Int)) : Decidable (Poly45 P) := inferInstanceAs (Decidable (∀ e ∈ edges P, Octant e))

/-! ### Programs -/

/-- A program that builds a set: objects and sets are inserted, sets are combined and cleaned. The four operations are
those of `|`, `&`, `-` and `^` in this order. -/
inductive Prog where
  | new
  | poly (h : Prog) (P : List (Int × Int)) (H : List (List (Int × Int))) (isHole : Bool)
  | rect (h : Prog) (r : Rectangle.Rect) (isHole : Bool)
  | set (h k : Prog) (isHole : Bool)
  | op (h : Prog) (o : Fin 4) (k : Prog)
  | clean (h : Prog)
  | selfIntersect (h : Prog)

/-- What the code does; an exception ends the program. -/
def Prog.run (umin umax : Int) : Prog → Out
  | .new => .ok S45.new
  | .poly h P H b => match h.run umin umax with | .ok s => .ok (s.insertHoles P H b) | e => e
  | .rect h r b => match h.run umin umax with | .ok s => .ok (s.insertRect r b) | e => e
  | .set h k b => match h.run umin umax, k.run umin umax with | .ok s, .ok t => .ok (s.insertSet t b) | .ok _, e => e | e, _ => e
  | .op h o k => match h.run umin umax, k.run umin umax with | .ok s, .ok t => s.applyBool o umin umax t | .ok _, e => e | e, _ => e
  | .clean h => match h.run umin umax with | .ok s => s.clean umin umax | e => e
  | .selfIntersect h => match h.run umin umax with | .ok s => s.self 1 umin umax | e => e

/-- The truth of an operation on two facts. -/
def combine (o : Fin 4) (a b : Bool) : Bool :=
  match o with
  | 0 => a || b
  | 1 => a && b
  | 2 => a && !b
  | 3 => a != b

/-- The sign of an insertion. -/
def sign (isHole : Bool) : Int := if isHole then -1 else 1

/-- How often the set a program builds should cover a point. -/
def Prog.depth : Prog → ℚ × ℚ → Int
  | .new, _ => 0
  | .poly h P H b, q => h.depth q + sign b * Arb.objDepth P H q
  | .rect h r b, q => h.depth q + sign b * (if (r.h.lo : ℚ) ≤ q.1 ∧ q.1 < r.h.hi ∧ (r.v.lo : ℚ) ≤ q.2 ∧ q.2 < r.v.hi then 1 else 0)
  | .set h k b, q => h.depth q + sign b * k.depth q
  | .op h o k, q => if combine o (0 < h.depth q) (0 < k.depth q) then 1 else 0
  | .clean h, q => if 0 < h.depth q then 1 else 0
  | .selfIntersect h, q => if 1 < h.depth q then 1 else 0

/-- Inserted polygons have edges at multiples of 45 degrees, rectangles are not inverted, coordinates fit the
coordinate type. -/
def Prog.Ok (umin umax : Int) : Prog → Prop
  | .new => True
  | .poly h P H _ => h.Ok umin umax ∧ ∀ r ∈ P :: H, Poly45 r ∧ ∀ p ∈ r, (umin ≤ p.1 ∧ p.1 ≤ umax) ∧ umin ≤ p.2 ∧ p.2 ≤ umax
  | .rect h r _ => h.Ok umin umax ∧ (umin ≤ r.h.lo ∧ r.h.lo ≤ r.h.hi ∧ r.h.hi ≤ umax) ∧ umin ≤ r.v.lo ∧ r.v.lo ≤ r.v.hi ∧ r.v.hi ≤ umax
  | .set h k _ => h.Ok umin umax ∧ k.Ok umin umax
  | .op h _ k => h.Ok umin umax ∧ k.Ok umin umax
  | .clean h => h.Ok umin umax
  | .selfIntersect h => h.Ok umin umax

/-- The coordinates of every vertex of a polygon with diagonal edges are both even or both odd; rectangles and other rectilinear
polygons are free. -/
def Prog.Even : Prog → Prop
  | .new => True
  | .poly h P H _ => h.Even ∧ ∀ r ∈ P :: H, (∀ p ∈ r, (p.1 + p.2) % 2 = 0) ∨ ∀ e ∈ edges r, e.1.1 = e.2.1 ∨ e.1.2 = e.2.2
  | .rect h _ _ => h.Even
  | .set h k _ => h.Even ∧ k.Even
  | .op h _ k => h.Even ∧ k.Even
  | .clean h => h.Even
  | .selfIntersect h => h.Even

/-- Every inserted polygon is rectilinear. -/
def Prog.Rectilinear : Prog → Prop
  | .new => True
  | .poly h P H _ => h.Rectilinear ∧ ∀ r ∈ P :: H, ∀ e ∈ edges r, e.1.1 = e.2.1 ∨ e.1.2 = e.2.2
  | .rect h _ _ => h.Rectilinear
  | .set h k _ => h.Rectilinear ∧ k.Rectilinear
  | .op h _ k => h.Rectilinear ∧ k.Rectilinear
  | .clean h => h.Rectilinear
  | .selfIntersect h => h.Rectilinear

instance Prog.decOk (umin umax : Int) : ∀ p : Prog, Decidable (p.Ok umin umax)
  | .new => isTrue trivial
  | .poly h P H _ => have := decOk umin umax h
      inferInstanceAs (Decidable (_ ∧ ∀ r ∈ P :: H, Poly45 r ∧ ∀ p ∈ r, (umin ≤ p.1 ∧ p.1 ≤ umax) ∧ umin ≤ p.2 ∧ p.2 ≤ umax))
  | .rect h _ _ => have := decOk umin umax h; inferInstanceAs (Decidable (_ ∧ _ ∧ _))
  | .set h k _ => have := decOk umin umax h; have := decOk umin umax k; inferInstanceAs (Decidable (_ ∧ _))
  | .op h _ k => have := decOk umin umax h; have := decOk umin umax k; inferInstanceAs (Decidable (_ ∧ _))
  | .clean h => decOk umin umax h
  | .selfIntersect h => decOk umin umax h

instance Prog.decEven : ∀ p : Prog, Decidable p.Even
  | .new => isTrue trivial
  | .poly h P H _ => have := decEven h
      inferInstanceAs (Decidable (_ ∧ ∀ r ∈ P :: H, (∀ p ∈ r, (p.1 + p.2) % 2 = 0) ∨ ∀ e ∈ edges r, e.1.1 = e.2.1 ∨ e.1.2 = e.2.2))
  | .rect h _ _ => decEven h
  | .set h k _ => have := decEven h; have := decEven k; inferInstanceAs (Decidable (_ ∧ _))
  | .op h _ k => have := decEven h; have := decEven k; inferInstanceAs (Decidable (_ ∧ _))
  | .clean h => decEven h
  | .selfIntersect h => decEven h

end Verif.Spec.Deg45
