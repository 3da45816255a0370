import Verif.Model.Machine
import Verif.Model.Rectangle
/-!
# Model of `segment_concept.hpp` (predicates) and `segment_utils.hpp` (`envelope_segments`)

Line numbers refer to `/repo/include/boost/polygon/segment_concept.hpp` unless another file is
named. Coordinates are `int`; the 64-bit arithmetic of `orientation` is explicit (`Machine`).
-/
namespace Verif.Segment
open Verif.Machine Verif.Interval Verif.Rectangle

/-- `segment_data`, segment_data.hpp lines 24-95 (`points_[LOW]`, `points_[HIGH]`). -/
structure Seg where
  lo : Int × Int
  hi : Int × Int
deriving DecidableEq, Repr

/-- The sign of a product read off the operands, lines 318-322: 0 if either is zero, else -1 when
exactly one is positive, else 1. -/
def signOf (a b : Int) : Int :=
  if a ≠ 0 ∧ b ≠ 0 then (if xor (decide (a > 0)) (decide (b > 0)) then -1 else 1) else 0

/-- `(a < 0) ? -a : a` in `long long`, lines 326-327. -/
def absI64 (a : Int) : Option Int := if a < 0 then i64 (-a) else some a

/-- The part of `orientation(segment, segment)` after the differences are formed, lines 316-330. -/
def orientDiffs (a1 b1 a2 b2 : Int) : Option Int :=
  let sign1 := signOf a1 b2
  let sign2 := signOf a2 b1
  if sign1 ≠ sign2 then some (if sign1 < sign2 then -1 else 1)
  else do
    let a3 := u64 (u64 (← absI64 a1) * u64 (← absI64 b2))
    let b3 := u64 (u64 (← absI64 b1) * u64 (← absI64 a2))
    if a3 = b3 then some 0
    else some (if xor (decide (a3 < b3)) (decide (sign1 = 1)) then 1 else -1)

/-- `orientation(segment, segment)`, lines 303-331. -/
def orientSeg (s1 s2 : Seg) : Option Int := do
  let a1 ← i64 (s1.hi.1 - s1.lo.1)
  let b1 ← i64 (s1.hi.2 - s1.lo.2)
  let a2 ← i64 (s2.hi.1 - s2.lo.1)
  let b2 ← i64 (s2.hi.2 - s2.lo.2)
  orientDiffs a1 b1 a2 b2

/-- `orientation(segment, point)`, lines 345-348. -/
def orientPt (s : Seg) (p : Int × Int) : Option Int := orientSeg s ⟨s.hi, p⟩

/-- `contains(segment, point, consider_touch)`, lines 363-377. -/
def containsPtSeg (s : Seg) (p : Int × Int) (touch : Bool) : Option Bool := do
  if (← orientPt s p) ≠ 0 then return false
  if !containsPt (setPoints s.lo s.hi) p true then return false
  if !touch && (s.lo == p || s.hi == p) then return false
  return true

/-- `contains(segment, segment, consider_touch)`, lines 391-395 (`&&` short-circuits). -/
def containsSeg (s1 s2 : Seg) (touch : Bool) : Option Bool := do
  if ← containsPtSeg s1 s2.lo touch then containsPtSeg s1 s2.hi touch else return false

/-- `abuts(segment, segment, dir)`, lines 564-568. -/
def abutsDirSeg (s1 s2 : Seg) (dir : Nat) : Bool := if dir != 0 then s2.lo == s1.hi else s1.lo == s2.hi

/-- `abuts(segment, segment)`, lines 582-584. -/
def abutsSeg (s1 s2 : Seg) : Bool := abutsDirSeg s1 s2 1 || abutsDirSeg s1 s2 0

/-- `intersects(segment, segment, consider_touch)`, lines 601-624. The products of two
orientations in -1..1 cannot overflow. -/
def intersectsSeg (s1 s2 : Seg) (touch : Bool) : Option Bool := do
  let rect1 := setPoints s1.lo s1.hi
  let rect2 := setPoints s2.lo s2.hi
  if !intersectsRect rect1 rect2 true then return false
  let or11 ← orientPt s1 s2.lo
  let or12 ← orientPt s1 s2.hi
  if or11 * or12 > 0 then return false
  let or21 ← orientPt s2 s1.lo
  let or22 ← orientPt s2 s1.hi
  if or21 * or22 > 0 then return false
  if touch || (or11 != 0 && or12 != 0) || (or21 != 0 && or22 != 0) then return true
  if or11 != 0 || or12 != 0 then return false
  return intersects rect1.v rect2.v false || intersects rect1.h rect2.h false

/-- `envelope_segments`, segment_utils.hpp lines 147-161. `none`: the range is empty (returns
false and leaves the rectangle alone). -/
def envelopeSegments : List Seg → Option Rect
  | [] => none
  | s :: r => some (r.foldl (fun e t => (encompassPt (encompassPt e t.lo).1 t.hi).1) (setPoints s.lo s.hi))

end Verif.Segment
