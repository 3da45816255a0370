import Verif.Model.Segment
import Mathlib.Analysis.SpecialFunctions.Pow.NNReal
/-!
# Model of the distance functions of `point_concept.hpp` and `segment_concept.hpp`

Integer arithmetic is machine arithmetic (`none` on signed overflow). Floating-point arithmetic is
taken to be exact real arithmetic; rounding is not modelled.
-/
namespace Verif.Segment
open Verif.Machine

/-- `euclidean_distance(point, point, orient)`, point_concept.hpp lines 284-294: the difference of
two `int`s is formed in `int` before it is widened to `long long`. -/
def distAxis (a b : Int) : Option Int := do
  let dif ← i32 (a - b)
  if dif < 0 then i64 (-dif) else some dif

/-- `manhattan_distance(point, point)`, point_concept.hpp lines 265-268. -/
def manhattanPt (p q : Int × Int) : Option Int := do
  i64 ((← distAxis p.1 q.1) + (← distAxis p.2 q.2))

/-- `distance_squared(point, point)`, point_concept.hpp lines 307-316. -/
def distSqPt (p q : Int × Int) : Option Int := do
  let dx ← distAxis p.1 q.1
  let dy ← distAxis p.2 q.2
  i64 ((← i64 (dx * dx)) + (← i64 (dy * dy)))

/-- `euclidean_distance(point, point)`, point_concept.hpp lines 331-334. -/
noncomputable def eucPt (p q : Int × Int) : Option ℝ := (distSqPt p q).map (fun z => √(z : ℝ))

/-- `euclidean_distance(segment, point)`, segment_concept.hpp lines 639-664. `A … D`, `param` and
`length_sq` are `long double` in the code; as exact values they are integers. -/
noncomputable def eucSegPt (s : Seg) (p : Int × Int) : Option ℝ :=
  let A := p.1 - s.lo.1
  let B := p.2 - s.lo.2
  let C := s.hi.1 - s.lo.1
  let D := s.hi.2 - s.lo.2
  let param := A * C + B * D
  let lengthSq := C * C + D * D
  if param > lengthSq then eucPt s.hi p
  else if param < 0 then eucPt s.lo p
  else if lengthSq = 0 then some 0
  else
    let result : ℝ := ((A * D - C * B : Int) : ℝ) / √(lengthSq : ℝ)
    some (if result < 0 then -result else result)

/-- `euclidean_distance(segment, segment)`, segment_concept.hpp lines 679-693. -/
noncomputable def eucSegSeg (s1 s2 : Seg) : Option ℝ := do
  if ← intersectsSeg s1 s2 true then return 0
  let result1 ← eucSegPt s1 s2.lo
  let result2 ← eucSegPt s1 s2.hi
  let result3 ← eucSegPt s2 s1.lo
  let result4 ← eucSegPt s2 s1.hi
  let result1 := if result2 < result1 then result2 else result1
  let result3 := if result4 < result3 then result4 else result3
  return if result1 < result3 then result1 else result3

end Verif.Segment
