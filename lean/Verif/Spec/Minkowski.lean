import Verif.Spec.ArbForm
import Verif.Spec.Cut
/-!
# Specification: the sums of the points of two regions
-/
namespace Verif.Spec.Minkowski
open Verif.Spec.Arb

/-- A polygon with holes: the outer outline and the holes. -/
abbrev Region := List (Int × Int) × List (List (Int × Int))

/-- The point is on the outline. -/
def OnLine (l : List (Int × Int)) (q : ℚ × ℚ) : Prop := ∃ e ∈ l.zip l.tail, OnEdge e q

/-- The point is on an outline of the polygon. -/
def OnBoundary (P : Region) (q : ℚ × ℚ) : Prop := ∃ l ∈ P.1 :: P.2, OnLine l q

/-- The point is a vertex of the polygon. -/
def IsVertex (P : Region) (q : ℚ × ℚ) : Prop := ∃ l ∈ P.1 :: P.2, ∃ v ∈ l, q = ((v.1 : ℚ), (v.2 : ℚ))

/-- The point is inside the polygon or on its boundary. -/
def Within (P : Region) (q : ℚ × ℚ) : Prop := Inside P.1 P.2 q ∨ OnBoundary P q

/-- The point is the sum of a vertex of one polygon and a boundary point of the other. Such points form finitely many segments. -/
def OnRim (P Q : Region) (p : ℚ × ℚ) : Prop :=
  ∃ a b : ℚ × ℚ, p = a + b ∧ ((IsVertex P a ∧ OnBoundary Q b) ∨ (OnBoundary P a ∧ IsVertex Q b))

/-- The polygon is proper and its outlines are closed. -/
def Sound (P : Region) : Prop := Proper P.1 P.2 ∧ ∀ l ∈ P.1 :: P.2, Ring l

/-- The point is the sum of a junction of one list of edges and a point on an edge of the other. Such points form finitely many segments. -/
def EdgesRim (E F : List Edge) (p : ℚ × ℚ) : Prop :=
  ∃ a b : ℚ × ℚ, p = a + b ∧ (((∃ v, Junction E v ∧ a = pt v) ∧ ∃ f ∈ F, OnEdge f b) ∨ ((∃ e ∈ E, OnEdge e a) ∧ ∃ v, Junction F v ∧ b = pt v))

/-- The point is covered by the set of counted edges, or on one of the edges. -/
def Reaches (D : List (Edge × Int)) (q : ℚ × ℚ) : Prop := 0 < depth D q ∨ ∃ e ∈ D, OnEdge e.1 q

end Verif.Spec.Minkowski
