import Verif.Spec.PolySet
/-!
# Specification: outlines of a region
-/
namespace Verif.Spec.Arb

/-- The sides of a list of points taken in order, without those of length zero. -/
def sides (l : List (Int × Int)) : List Edge := (l.zip l.tail).filter (fun e => decide (e.1 ≠ e.2))

/-- The list of points is a closed outline: it has sides and ends where it starts. -/
def Ring (l : List (Int × Int)) : Prop := sides l ≠ [] ∧ l.head? = l.getLast?

/-- An edge of a set directed so that the covered side is on its left. A count of 1 tells that the side above a
non-vertical edge is covered, or that on the right of a vertical one; a count of -1 tells the opposite. -/
def solidLeft (e : Edge × Int) : Edge :=
  if e.1.1.1 = e.1.2.1 then (if e.2 = 1 then (e.1.2, e.1.1) else e.1) else (if e.2 = 1 then e.1 else (e.1.2, e.1.1))

/-- A polygon with holes as a reader of its outlines expects it: the outer outline winds once, counterclockwise, around the points it encloses, each hole
once, clockwise, around those it encloses, and a point has at most one hole around it, and only if it is inside the outer outline. -/
structure Proper (outer : List (Int × Int)) (holes : List (List (Int × Int))) : Prop where
  ccw : ∀ q, windAt outer q = 0 ∨ windAt outer q = 1
  cw : ∀ h ∈ holes, ∀ q, windAt h q = 0 ∨ windAt h q = -1
  once : ∀ q, windAt outer q + (holes.map (fun h => windAt h q)).sum = 0 ∨ windAt outer q + (holes.map (fun h => windAt h q)).sum = 1
  real : ∀ l ∈ outer :: holes, ∃ q, windAt l q ≠ 0

/-- The point is inside the outer outline and in no hole. -/
def Inside (outer : List (Int × Int)) (holes : List (List (Int × Int))) (q : ℚ × ℚ) : Prop := windAt outer q = 1 ∧ ∀ h ∈ holes, windAt h q = 0

end Verif.Spec.Arb
