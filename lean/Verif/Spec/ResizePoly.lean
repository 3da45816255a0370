import Verif.Spec.Polygon
/-!
# Specification: displacing the edges of a Manhattan polygon

Nothing here refers to the model. In a counter-clockwise polygon the edge going right has the outside
below it (it faces south), the edge going up faces east, and so on.
-/
namespace Verif.Spec

/-- No edge has length zero. -/
def NoZeroEdge (P : List (Int × Int)) : Prop := ∀ e ∈ edges P, e.1 ≠ e.2

/-- No edge is followed by one going straight back. -/
def NoSpike (P : List (Int × Int)) : Prop :=
  ∀ t ∈ P.zip ((P.rotate 1).zip (P.rotate 2)),
    ¬ (t.1.2 = t.2.1.2 ∧ t.2.1.2 = t.2.2.2 ∧ ((t.1.1 < t.2.1.1 ∧ t.2.2.1 < t.2.1.1) ∨ (t.2.1.1 < t.1.1 ∧ t.2.1.1 < t.2.2.1))) ∧
    ¬ (t.1.1 = t.2.1.1 ∧ t.2.1.1 = t.2.2.1 ∧ ((t.1.2 < t.2.1.2 ∧ t.2.2.2 < t.2.1.2) ∨ (t.2.1.2 < t.1.2 ∧ t.2.1.2 < t.2.2.2)))

/-- The edge `f` is the edge `e` moved outward: south-facing edges by `s`, north-facing by `n`,
east-facing by `ea`, west-facing by `w`. -/
def MovedOut (w ea s n : Int) (e f : (Int × Int) × (Int × Int)) : Prop :=
  (e.1.1 < e.2.1 → f.1.2 = e.1.2 - s ∧ f.2.2 = e.2.2 - s) ∧
  (e.2.1 < e.1.1 → f.1.2 = e.1.2 + n ∧ f.2.2 = e.2.2 + n) ∧
  (e.1.2 < e.2.2 → f.1.1 = e.1.1 + ea ∧ f.2.1 = e.2.1 + ea) ∧
  (e.2.2 < e.1.2 → f.1.1 = e.1.1 - w ∧ f.2.1 = e.2.1 - w)

/-- Three points on one horizontal or one vertical line. -/
def Collinear90 (a b c : Int × Int) : Prop := (a.1 = b.1 ∧ b.1 = c.1) ∨ (a.2 = b.2 ∧ b.2 = c.2)

/-- No two of the edges run in opposite directions along a common stretch. -/
def NoOpposite (E : List ((Int × Int) × (Int × Int))) : Prop := ∀ e ∈ E, ∀ f ∈ E,
  (e.1.2 = e.2.2 ∧ f.1.2 = f.2.2 ∧ e.1.2 = f.1.2 ∧ e.1.1 < e.2.1 ∧ f.2.1 < f.1.1 → e.2.1 ≤ f.2.1 ∨ f.1.1 ≤ e.1.1) ∧
  (e.1.1 = e.2.1 ∧ f.1.1 = f.2.1 ∧ e.1.1 = f.1.1 ∧ e.1.2 < e.2.2 ∧ f.2.2 < f.1.2 → e.2.2 ≤ f.2.2 ∨ f.1.2 ≤ e.1.2)

/-- The outer boundaries and the holes of a list of polygons with holes. -/
def boundaries (polys : List (List (Int × Int) × List (List (Int × Int)))) : List (List (Int × Int)) :=
  polys.flatMap (fun p => p.1 :: p.2)

/-- How often the polygons cover `q`: the sum of the winding numbers of all boundaries. -/
def total (polys : List (List (Int × Int) × List (List (Int × Int)))) (q : ℚ × ℚ) : Int :=
  ((boundaries polys).map (fun P => wind P q)).sum

/-- Polygons as the library returns them: proper Manhattan boundaries, outer ones counter-clockwise,
holes clockwise and inside their outer boundary, covering no point twice, no two of them with
opposite edges on top of each other. -/
structure RegularPolys (polys : List (List (Int × Int) × List (List (Int × Int)))) : Prop where
  boundary : ∀ P ∈ boundaries polys, 2 ≤ P.length ∧ Rectilinear P ∧ NoZeroEdge P ∧ NoSpike P
  opposite : NoOpposite ((boundaries polys).flatMap edges)
  once : ∀ q, 0 ≤ total polys q ∧ total polys q ≤ 1
  outer : ∀ p ∈ polys, ∀ q, wind p.1 q ≤ 1
  hole : ∀ p ∈ polys, ∀ h ∈ p.2, ∀ q, wind h q ≤ 0
  inside : ∀ p ∈ polys, ∀ q, 0 ≤ wind p.1 q + (p.2.map (fun h => wind h q)).sum

/-- The unit vector of a direction: west, east, south, north. -/
def dirVec : Nat → ℚ × ℚ
  | 0 => (-1, 0)
  | 1 => (1, 0)
  | 2 => (0, -1)
  | _ => (0, 1)

instance (P : List (Int × Int)) : Decidable (NoZeroEdge P) := inferInstanceAs (Decidable (∀ e ∈ edges P, _))
instance (P : List (Int × Int)) : Decidable (NoSpike P) := inferInstanceAs (Decidable (∀ t ∈ P.zip _, _))
instance (E : List ((Int × Int) × (Int × Int))) : Decidable (NoOpposite E) :=
  inferInstanceAs (Decidable (∀ e ∈ E, ∀ f ∈ E, _))

end Verif.Spec
