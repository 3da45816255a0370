import Mathlib.Data.List.Rotate
import Mathlib.Data.Rat.Defs
import Mathlib.Data.Rat.Cast.Order
import Mathlib.Algebra.Order.Field.Rat
/-!
# Specification: closed polygons as vertex lists, shoelace sum, winding number
-/
namespace Verif.Spec

/-- The edges of the closed polygon: every vertex with its cyclic successor. -/
def edges (P : List (Int × Int)) : List ((Int × Int) × (Int × Int)) := P.zip (P.rotate 1)

/-- Twice the signed area, positive for counter-clockwise polygons: `Σ (x y' - x' y)`. -/
def shoelace (P : List (Int × Int)) : Int := ((edges P).map (fun e => e.1.1 * e.2.2 - e.2.1 * e.1.2)).sum

/-- The contribution of one edge to the winding number around `q`: the downward vertical ray from
`q` meets a horizontal edge going right (+1) or left (-1). -/
def windEdge (q : ℚ × ℚ) (e : (Int × Int) × (Int × Int)) : Int :=
  if e.1.2 = e.2.2 ∧ (e.1.2 : ℚ) ≤ q.2 then
    if (e.1.1 : ℚ) ≤ q.1 ∧ q.1 < e.2.1 then 1
    else if (e.2.1 : ℚ) ≤ q.1 ∧ q.1 < e.1.1 then -1 else 0
  else 0

/-- The winding number of a rectilinear polygon around `q` (counter-clockwise positive). -/
def wind (P : List (Int × Int)) (q : ℚ × ℚ) : Int := ((edges P).map (windEdge q)).sum

/-- Edges are alternately horizontal and vertical, the first horizontal if `h`. -/
def AltFrom : Bool → List ((Int × Int) × (Int × Int)) → Prop
  | _, [] => True
  | h, e :: r => (if h then e.1.2 = e.2.2 else e.1.1 = e.2.1) ∧ AltFrom (!h) r

instance decAltFrom : ∀ h E, Decidable (AltFrom h E)
  | _, [] => isTrue trivial
  | h, e :: r => by unfold AltFrom; have := decAltFrom (!h) r; infer_instance

/-- A rectilinear polygon with alternating edges. -/
def Alternating (P : List (Int × Int)) : Prop :=
  Even P.length ∧ (AltFrom true (edges P) ∨ AltFrom false (edges P))

/-- No vertex is listed three times in a row (cyclically), and the list does not end with its
first vertex. Single repetitions elsewhere are allowed. -/
def NoStutter (P : List (Int × Int)) : Prop :=
  (∀ t ∈ P.zip ((P.rotate 1).zip (P.rotate 2)), ¬ (t.1 = t.2.1 ∧ t.2.1 = t.2.2)) ∧ P.getLast? ≠ P.head?

instance (P : List (Int × Int)) : Decidable (Alternating P) := inferInstanceAs (Decidable (_ ∧ _))
instance (P : List (Int × Int)) : Decidable (NoStutter P) := inferInstanceAs (Decidable (_ ∧ _))

/-- Every edge is horizontal or vertical. -/
def Rectilinear (P : List (Int × Int)) : Prop := ∀ e ∈ edges P, e.1.1 = e.2.1 ∨ e.1.2 = e.2.2

instance (P : List (Int × Int)) : Decidable (Rectilinear P) := inferInstanceAs (Decidable (∀ e ∈ edges P, _))

/-- The edge is axis parallel or at 45 degrees. -/
def Edge45 (e : (Int × Int) × (Int × Int)) : Prop :=
  e.1.1 = e.2.1 ∨ e.1.2 = e.2.2 ∨ |e.2.1 - e.1.1| = |e.2.2 - e.1.2|

instance (e : (Int × Int) × (Int × Int)) : Decidable (Edge45 e) := inferInstanceAs (Decidable (_ ∨ _))

end Verif.Spec
