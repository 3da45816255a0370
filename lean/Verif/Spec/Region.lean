import Verif.Model.Set90
import Verif.Model.Polygon
import Verif.Spec.Cover
import Verif.Spec.Polygon
/-!
# Specification: the region of a Manhattan polygon set, and which sets a program can build

`depth s p` is how often the set covers the rational point `p`; a set covers `p` when the
depth is positive. `Reach` lists the ways a program obtains a set through the API;
`Valid` is the representation invariant the theorems are stated for. That every reachable
set is valid is itself a theorem (`C02_reachable_is_valid`).
-/
namespace Verif.Spec
open Verif.BooleanOp Verif.Set90 Verif.Rectangle Verif.Isotropy Verif.Transform

/-- How many times the set covers the point `p = (x, y)`. With VERTICAL orientation vertices
are stored as `(x, y)`, with HORIZONTAL orientation as `(y, x)`. -/
def depth (s : PSet) (p : ℚ × ℚ) : ℤ :=
  if s.orient = VERTICAL then cover s.data p.1 p.2 else cover s.data p.2 p.1

/-- The point belongs to the set. -/
def Covers (s : PSet) (p : ℚ × ℚ) : Prop := 0 < depth s p

/-- Counts in every column and every row of vertices cancel: the data bounds closed regions. -/
def Closed (L : List V) : Prop :=
  (∀ a : Int, (L.map (fun v => if v.x = a then v.c else 0)).sum = 0) ∧
  (∀ b : Int, (L.map (fun v => if v.y = b then v.c else 0)).sum = 0)

/-- Unit counts, no two vertices cancelling at one point, no point covered other than 0 or 1 times. -/
def Flat (L : List V) : Prop :=
  (∀ v ∈ L, v.c = 1 ∨ v.c = -1) ∧
  (∀ v ∈ L, ∀ w ∈ L, v.x = w.x → v.y = w.y → v.c = w.c) ∧
  ∀ x y : ℚ, cover L x y = 0 ∨ cover L x y = 1

/-- Lexicographic order of vertices. -/
def VLex (a b : V) : Prop := a.x < b.x ∨ (a.x = b.x ∧ (a.y < b.y ∨ (a.y = b.y ∧ a.c ≤ b.c)))

/-- Coordinates fit the coordinate type. -/
def InRange (umin umax : Int) (L : List V) : Prop :=
  ∀ v ∈ L, umin ≤ v.x ∧ v.x ≤ umax ∧ umin ≤ v.y ∧ v.y ≤ umax

/-- The representation invariant: the flags tell the truth, the data is closed and in range. -/
structure Valid (umin umax : Int) (s : PSet) : Prop where
  orient : s.orient = HORIZONTAL ∨ s.orient = VERTICAL
  sorted : s.unsorted = false → s.data.Pairwise VLex
  clean : s.dirty = false → Flat s.data
  closed : Closed s.data
  range : InRange umin umax s.data

/-- The rectangle lies in the range of the coordinate type. -/
def RectIn (umin umax : Int) (r : Rect) : Prop :=
  umin ≤ r.h.lo ∧ r.h.lo ≤ r.h.hi ∧ r.h.hi ≤ umax ∧ umin ≤ r.v.lo ∧ r.v.lo ≤ r.v.hi ∧ r.v.hi ≤ umax

/-- A boundary that may be inserted as a Manhattan polygon: fewer than four vertices (ignored), or
alternating edges without a vertex listed three times in a row. -/
def PolyOk (P : List (Int × Int)) : Prop := P.length < 4 ∨ Alternating P ∧ NoStutter P

/-- Every vertex lies in the range of the coordinate type. -/
def PtsIn (umin umax : Int) (P : List (Int × Int)) : Prop :=
  ∀ p ∈ P, umin ≤ p.1 ∧ p.1 ≤ umax ∧ umin ≤ p.2 ∧ p.2 ≤ umax

/-- The four binary operators (`|` and `+`, `&` and `*`, `^`, `-`). -/
inductive BOp | or | and | xor | minus
deriving DecidableEq

/-- The functor the code instantiates the scan with. -/
def BOp.code : BOp → Int → Int → Bool
  | .or => binaryOr | .and => binaryAnd | .xor => binaryXor | .minus => binaryNot

/-- The set operation the operator stands for. -/
def BOp.holds : BOp → Prop → Prop → Prop
  | .or, a, b => a ∨ b
  | .and, a, b => a ∧ b
  | .xor, a, b => (a ∧ ¬ b) ∨ (¬ a ∧ b)
  | .minus, a, b => a ∧ ¬ b

/-- The sets a program can obtain through the API (constructors, inserts of rectangles,
polygons, polygons with holes and sets, sorting/cleaning including the one done by observers, Boolean operators and operator
assignments, self_xor, self_intersect, and the rigid motions and scale-up when they do not
overflow). -/
inductive Reach (umin umax : Int) : PSet → Prop
  | new (o : Nat) (h : o = HORIZONTAL ∨ o = VERTICAL) : Reach umin umax (PSet.mk0 o)
  | insertRect {s} (r : Rect) (hole : Bool) : Reach umin umax s → RectIn umin umax r →
      Reach umin umax (s.insertRect r hole)
  | assignRect {s} (r : Rect) : Reach umin umax s → RectIn umin umax r → Reach umin umax (s.assignRect r)
  | insertPoly {s} (P : List (Int × Int)) (hole : Bool) : Reach umin umax s → PolyOk P → PtsIn umin umax P →
      Reach umin umax (s.insertPoly P hole)
  | insertPolyHoles {s} (P : List (Int × Int)) (H : List (List (Int × Int))) (hole : Bool) : Reach umin umax s →
      umin ≤ 0 → 0 ≤ umax → (∀ Q ∈ P :: H, PolyOk Q ∧ PtsIn umin umax Q) → Reach umin umax (s.insertPolyHoles P H hole)
  | insertSet {s t} : Reach umin umax s → Reach umin umax t → Reach umin umax (s.insertSet t)
  | setData {s t} : Reach umin umax s → Reach umin umax t → Reach umin umax (s.setData t.data t.orient)
  | clear {s} : Reach umin umax s → Reach umin umax s.clear
  | sort {s} : Reach umin umax s → Reach umin umax s.sort
  | clean {s t} : Reach umin umax s → s.clean umax = some t → Reach umin umax t
  | selfXor {s t} : Reach umin umax s → s.selfXor umax = some t → Reach umin umax t
  | selfIntersect {s t} : umin ≤ umax → Reach umin umax s → s.selfIntersect umin umax = some t → Reach umin umax t
  | binary {l r out l' r'} (op : BOp) : Reach umin umax l → Reach umin umax r →
      binaryOp op.code umax l r = some (out, l', r') → Reach umin umax out
  | assign {l r out} (op : BOp) : Reach umin umax l → Reach umin umax r →
      assignOp op.code umax l r = some out → Reach umin umax out
  | move {s} (dx dy : Int) : Reach umin umax s → InRange umin umax (s.move dx dy).data →
      Reach umin umax (s.move dx dy)
  | transform {s} (t : Transformation) : Reach umin umax s → t.atr < 8 →
      InRange umin umax (s.transformT t).data → Reach umin umax (s.transformT t)
  | scaleUp {s} (k : Int) : Reach umin umax s → 0 < k → InRange umin umax (s.scaleUp k).data →
      Reach umin umax (s.scaleUp k)

/-- The eight axis transformations as maps of the rational plane (the table documented at
transform.hpp lines 34-60: the low bit mirrors x, the next mirrors y, the third then swaps). -/
def axisMap : Nat → ℚ × ℚ → ℚ × ℚ
  | 0, p => (p.1, p.2)
  | 1, p => (-p.1, p.2)
  | 2, p => (p.1, -p.2)
  | 3, p => (-p.1, -p.2)
  | 4, p => (p.2, p.1)
  | 5, p => (p.2, -p.1)
  | 6, p => (-p.2, p.1)
  | _, p => (-p.2, -p.1)

/-- The half-open point set of a rectangle. -/
def InRect (r : Rect) (p : ℚ × ℚ) : Prop :=
  (r.h.lo : ℚ) ≤ p.1 ∧ p.1 < r.h.hi ∧ (r.v.lo : ℚ) ≤ p.2 ∧ p.2 < r.v.hi

instance (r : Rect) (p : ℚ × ℚ) : Decidable (InRect r p) := inferInstanceAs (Decidable (_ ∧ _))

/-- The rectangles tile the region of the set: none is degenerate, no two share a point, and
together they contain exactly the points of the set. -/
def Tiles (rs : List Rect) (s : PSet) : Prop :=
  (∀ r ∈ rs, r.h.lo < r.h.hi ∧ r.v.lo < r.v.hi) ∧
  rs.Pairwise (fun r q => ∀ p, ¬ (InRect r p ∧ InRect q p)) ∧
  ∀ p, Covers s p ↔ ∃ r ∈ rs, InRect r p

/-- A point on no integer grid line. -/
def OffGrid (p : ℚ × ℚ) : Prop := (∀ n : ℤ, p.1 ≠ n) ∧ ∀ n : ℤ, p.2 ≠ n

end Verif.Spec
