import Verif.Model.Machine
import Verif.Model.Segment
/-!
# Model of point-in-polygon and of `edge_utils`

Line numbers refer to `/repo/include/boost/polygon/polygon_traits.hpp`. Coordinates are `int`,
differences `long long` (`none` on overflow), products `unsigned long long` (wrapping). The `int`
counters of the loops are unbounded here.
-/
namespace Verif.Contains
open Verif.Machine Verif.Segment

/-! ### `edge_utils` -/

/-- `less_point`, lines 1186-1199. -/
def lessPoint (a b : Int × Int) : Bool :=
  if a.1 < b.1 then true else if a.1 = b.1 then decide (a.2 < b.2) else false

/-- `between`, lines 1201-1206. -/
def between (pt p1 p2 : Int × Int) : Bool :=
  if lessPoint p1 p2 then lessPoint pt p2 && lessPoint p1 pt else lessPoint pt p1 && lessPoint p2 pt

/-- `d < 0 ? -1 : 1`. -/
def sgn (d : Int) : Int := if d < 0 then -1 else 1

/-- `equal_slope(dx1, dy1, dx2, dy2)`, lines 1208-1220. -/
def equalSlopeD (dx1 dy1 dx2 dy2 : Int) : Option Bool := do
  let cross1 := u64 (u64 (← absI64 dx2) * u64 (← absI64 dy1))
  let cross2 := u64 (u64 (← absI64 dx1) * u64 (← absI64 dy2))
  let s1 := sgn dx2 * sgn dy1
  let s2 := sgn dx1 * sgn dy2
  return cross1 == cross2 && (s1 == s2 || cross1 == 0)

/-- `equal_slope(x, y, pt1, pt2)`, lines 1222-1231. -/
def equalSlope (p p1 p2 : Int × Int) : Option Bool := do
  let dy2 ← i64 (p2.2 - p.2)
  let dy1 ← i64 (p1.2 - p.2)
  let dx2 ← i64 (p2.1 - p.1)
  let dx1 ← i64 (p1.1 - p.1)
  equalSlopeD dx1 dy1 dx2 dy2

/-- The last part of `less_slope`, lines 1250-1262. -/
def lessSlopeR (dx1 dy1 dx2 dy2 : Int) : Option Bool := do
  let cross1 := u64 (u64 (← absI64 dx2) * u64 (← absI64 dy1))
  let cross2 := u64 (u64 (← absI64 dx1) * u64 (← absI64 dy2))
  let s1 := sgn dx2 * sgn dy1
  let s2 := sgn dx1 * sgn dy2
  if s1 < s2 then return true
  if s2 < s1 then return false
  if s1 = -1 then return decide (cross2 < cross1)
  return decide (cross1 < cross2)

/-- `less_slope(dx1, dy1, dx2, dy2)`, lines 1233-1263. -/
def lessSlopeD (dx1 dy1 dx2 dy2 : Int) : Option Bool := do
  if dx1 = 0 then return false
  let (dx1, dy1) ← if dx1 < 0 then do pure (← i64 (dx1 * -1), ← i64 (dy1 * -1)) else pure (dx1, dy1)
  if dx2 = 0 then return decide (dx1 ≠ 0)
  let (dx2, dy2) ← if dx2 < 0 then do pure (← i64 (dx2 * -1), ← i64 (dy2 * -1)) else pure (dx2, dy2)
  lessSlopeR dx1 dy1 dx2 dy2

/-- `less_slope(x, y, pt1, pt2)`, lines 1265-1275. -/
def lessSlope (p p1 p2 : Int × Int) : Option Bool := do
  let dy2 ← i64 (p2.2 - p.2)
  let dy1 ← i64 (p1.2 - p.2)
  let dx2 ← i64 (p2.1 - p.1)
  let dx1 ← i64 (p1.1 - p.1)
  lessSlopeD dx1 dy1 dx2 dy2

/-- `on_above_or_below`, lines 1277-1288. -/
def onAboveOrBelow (pt a b : Int × Int) : Option Int := do
  if pt = a ∨ pt = b then return 0
  if ← equalSlope pt a b then return 0
  let r : Int := if ← lessSlope pt a b then -1 else 1
  let r := if lessPoint b a then r * -1 else r
  let r := if !between pt a b then r * -1 else r
  return r

/-! ### `contains(polygon, point)` -/

/-- What one edge that is not skipped does, lines 1347-1371: `none` inside means the function
returns `consider_touch`, otherwise the new value of `above`. -/
def edgeStep (p a b : Int × Int) (above : Int) : Option (Option Int) := do
  if p = b then return none
  let xmin := min a.1 b.1
  let xmax := max a.1 b.1
  if p.1 ≥ xmin ∧ p.1 < xmax then
    let o ← onAboveOrBelow p a b
    if o = 0 then return none
    if o = 1 then return some (above + 1)
    return some above
  else if p.1 = xmax then
    if p.1 = xmin then
      if p.2 ≤ max a.2 b.2 ∧ p.2 ≥ min a.2 b.2 then return none
      return some above
    else
      if (← onAboveOrBelow p a b) = 0 then return none
      return some above
  else return some above

/-- The loop, lines 1333-1375. `a` is `he.first`; the list is what the iterator has yet to deliver. -/
def containsGo (p first : Int × Int) (touch : Bool) : Int × Int → List (Int × Int) → Int → Option Bool
  | a, [], above => do
    if first = a then return decide (above % 2 ≠ 0)
    match ← edgeStep p a first above with
    | none => return touch
    | some n => return decide (n % 2 ≠ 0)
  | a, c :: r, above => do
    if c = a then containsGo p first touch a r above
    else match ← edgeStep p a c above with
      | none => return touch
      | some n => containsGo p first touch c r n

/-- `contains(polygon, point, consider_touch)` for polygons that are not Manhattan, lines 1312-1376. -/
def contains (P : List (Int × Int)) (p : Int × Int) (touch : Bool) : Option Bool :=
  match P with
  | [] => some false
  | [_] => some false
  | a :: r => containsGo p a touch a r 0

/-- `contains(polygon_with_holes, point, consider_touch)`, lines 1291-1310. -/
def containsHoles (P : List (Int × Int)) (H : List (List (Int × Int))) (p : Int × Int) (touch : Bool) : Option Bool := do
  if ← contains P p touch then
    H.foldlM (fun inside Q => if inside then do return !(← contains Q p (!touch)) else return false) true
  else return false

/-! ### `contains(polygon_90, point)` -/

/-- One step of the loop, lines 1147-1175: `none` means the function returns `consider_touch`,
otherwise the new counts of full and half intersections. -/
def edgeStep90 (p a b : Int × Int) (full half : Int) : Option (Int × Int) :=
  if a.1 = b.1 then
    if a.1 > p.1 then some (full, half)
    else
      let ymin := min a.2 b.2
      let ymax := max a.2 b.2
      if p.2 > ymin ∧ p.2 < ymax ∧ a.1 = p.1 then none
      else
        let full := if p.2 > ymin ∧ p.2 < ymax then full + 1 else full
        let half := if p.2 = ymin ∨ p.2 = ymax then half + (if a.2 < b.2 then 1 else -1) else half
        some (full, half)
  else
    if p.1 ≥ min a.1 b.1 ∧ p.1 ≤ max a.1 b.1 ∧ a.2 = p.2 then none
    else some (full, half)

/-- The loop over the vertices, each with its successor, lines 1147-1175. -/
def contains90Go (p first : Int × Int) (touch : Bool) : List (Int × Int) → Int → Int → Bool
  -- `half >> 1` is the arithmetic shift, `& 1` the low bit, lines 1176-1177
  | [], full, half => decide ((full + half.fdiv 2) % 2 = 1)
  | a :: r, full, half =>
    match edgeStep90 p a (r.head?.getD first) full half with
    | none => touch
    | some (f, h) => contains90Go p first touch r f h

/-- `contains(polygon_90, point, consider_touch)`, lines 1118-1178. -/
def contains90 (P : List (Int × Int)) (p : Int × Int) (touch : Bool) : Bool :=
  match P with
  | [] => false
  | a :: r => contains90Go p a touch (a :: r) 0 0

/-- `contains(polygon_90_with_holes, point, consider_touch)`, lines 1291-1310. -/
def containsHoles90 (P : List (Int × Int)) (H : List (List (Int × Int))) (p : Int × Int) (touch : Bool) : Bool :=
  contains90 P p touch && !(H.any (fun Q => contains90 Q p (!touch)))

end Verif.Contains
