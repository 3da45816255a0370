import Verif.Model.Interval
import Verif.Model.Transform
/-!
# Model of `rectangle_concept.hpp` / `rectangle_data.hpp`

All line numbers refer to `/repo/include/boost/polygon/rectangle_concept.hpp`
unless another file is named. Coordinates are unbounded integers.
-/
namespace Verif.Rectangle
open Verif.Isotropy Verif.Interval Verif.Transform

/-- `rectangle_data`, rectangle_data.hpp lines 17-58 (`ranges_[HORIZONTAL]`, `ranges_[VERTICAL]`). -/
structure Rect where
  h : Ivl
  v : Ivl
deriving DecidableEq, Repr

/-- `get(rectangle, orient)`, rectangle_data.hpp lines 46-47. -/
def Rect.get (r : Rect) (o : Nat) : Ivl := if o = 0 then r.h else r.v
/-- `set(rectangle, orient, interval)`, lines 1057-1061. -/
def Rect.set (r : Rect) (o : Nat) (i : Ivl) : Rect := if o = 0 then ⟨i, r.v⟩ else ⟨r.h, i⟩

/-- `contains(rectangle, rectangle)`, lines 337-345. -/
def containsRect (r c : Rect) (touch : Bool) : Bool :=
  containsIvl r.h c.h touch && containsIvl r.v c.v touch
/-- `contains(rectangle, point)`, lines 349-356. -/
def containsPt (r : Rect) (p : Int × Int) (touch : Bool) : Bool :=
  containsVal r.h p.1 touch && containsVal r.v p.2 touch
/-- `set_points`, lines 361-377. -/
def setPoints (p1 p2 : Int × Int) : Rect := ⟨construct p1.1 p2.1, construct p1.2 p2.2⟩
/-- `move`, lines 382-391. -/
def moveRect (r : Rect) (o : Nat) (d : Int) : Rect := r.set o (move (r.get o) d)
/-- `convolve(rectangle, rectangle)`, lines 396-409. -/
def convolveRect (r c : Rect) : Rect := ⟨convolve r.h c.h, convolve r.v c.v⟩
/-- `deconvolve(rectangle, rectangle)`, lines 414-425. -/
def deconvolveRect (r c : Rect) : Rect := ⟨deconvolve r.h c.h, deconvolve r.v c.v⟩
/-- `reflected_convolve`, lines 430-441. -/
def reflectedConvolveRect (r c : Rect) : Rect := ⟨reflectedConvolve r.h c.h, reflectedConvolve r.v c.v⟩
/-- `reflected_deconvolve`, lines 447-458. -/
def reflectedDeconvolveRect (r c : Rect) : Rect :=
  ⟨reflectedDeconvolve r.h c.h, reflectedDeconvolve r.v c.v⟩
/-- `convolve(rectangle, point)`, lines 463-473. -/
def convolvePt (r : Rect) (p : Int × Int) : Rect := ⟨convolveVal r.h p.1, convolveVal r.v p.2⟩
/-- `deconvolve(rectangle, point)`, lines 478-488. -/
def deconvolvePt (r : Rect) (p : Int × Int) : Rect := ⟨deconvolveVal r.h p.1, deconvolveVal r.v p.2⟩
/-- `delta`, lines 493-498. -/
def deltaRect (r : Rect) (o : Nat) : Int := delta (r.get o)
/-- `area`, lines 503-509 (unbounded integers here; see `Model/Machine.lean` for 64 bits). -/
def area (r : Rect) : Int := deltaRect r HORIZONTAL * deltaRect r VERTICAL
/-- `guess_orientation`, lines 514-520. -/
def guessOrientation (r : Rect) : Nat :=
  if deltaRect r HORIZONTAL ≥ deltaRect r VERTICAL then HORIZONTAL else VERTICAL
/-- `half_perimeter`, lines 525-530. -/
def halfPerimeter (r : Rect) : Int := deltaRect r HORIZONTAL + deltaRect r VERTICAL
/-- `perimeter`, lines 535-540. -/
def perimeter (r : Rect) : Int := 2 * halfPerimeter r
/-- `intersects`, lines 548-556. -/
def intersectsRect (r b : Rect) (touch : Bool) : Bool :=
  intersects r.h b.h touch && intersects r.v b.v touch
/-- `boundaries_intersect`, lines 564-574. -/
def boundariesIntersectRect (r b : Rect) (touch : Bool) : Bool :=
  intersectsRect r b touch && !containsRect r b (!touch) && !containsRect b r (!touch)
/-- `abuts(rectangle, b, direction_2d)`, lines 579-591. -/
def abutsDir2 (r b : Rect) (dir : Nat) : Bool :=
  abutsDir (r.get (orientOfDir2 dir)) (b.get (orientOfDir2 dir)) (dir1OfDir2 dir) &&
  intersects (r.get (perpendicular (orientOfDir2 dir))) (b.get (perpendicular (orientOfDir2 dir))) true
/-- `abuts(rectangle, b, orientation_2d)`, lines 596-606. -/
def abutsOrient (r b : Rect) (o : Nat) : Bool :=
  abuts (r.get o) (b.get o) && intersects (r.get (perpendicular o)) (b.get (perpendicular o)) true
/-- `abuts(rectangle, b)`, lines 611-617. -/
def abutsRect (r b : Rect) : Bool := abutsOrient r b HORIZONTAL || abutsOrient r b VERTICAL
/-- `intersect(rectangle, interval, orient, consider_touch)`, lines 622-635. -/
def intersectIvl (r : Rect) (b : Ivl) (o : Nat) (touch : Bool) : Rect × Bool :=
  let res := intersect (r.get o) b touch
  if res.2 then (r.set o res.1, true) else (r, false)
/-- `intersect(rectangle, b, consider_touch)`, lines 640-651. The guard really is
`intersects(rectangle, b)` with the default `consider_touch = true`, and the results of the
two clips are ignored. -/
def intersectRect (r b : Rect) (touch : Bool) : Rect × Bool :=
  if intersectsRect r b true then
    let r1 := (intersectIvl r b.h HORIZONTAL touch).1
    let r2 := (intersectIvl r1 b.v VERTICAL touch).1
    (r2, true)
  else (r, false)
/-- `generalized_intersect`, lines 656-669. -/
def generalizedIntersectRect (r b : Rect) : Rect :=
  ⟨generalizedIntersect r.h b.h, generalizedIntersect r.v b.v⟩
/-- `bloat(rectangle, orient, bloating)`, lines 674-683. -/
def bloatOrient (r : Rect) (o : Nat) (b : Int) : Rect := r.set o (bloat (r.get o) b)
/-- `bloat(rectangle, bloating)`, lines 688-695. -/
def bloatRect (r : Rect) (b : Int) : Rect := bloatOrient (bloatOrient r HORIZONTAL b) VERTICAL b
/-- `bloat(rectangle, direction_2d, bloating)`, lines 700-709. -/
def bloatDir2 (r : Rect) (dir : Nat) (b : Int) : Rect :=
  r.set (orientOfDir2 dir) (bloatDir (r.get (orientOfDir2 dir)) (dir1OfDir2 dir) b)
/-- `shrink(rectangle, shrinking)`, lines 725-731. -/
def shrinkRect (r : Rect) (s : Int) : Rect := bloatRect r (-s)
/-- `encompass(rectangle, interval, orient)`, lines 747-760. -/
def encompassIvl (r : Rect) (b : Ivl) (o : Nat) : Rect × Bool :=
  let res := encompass (r.get o) b
  if res.2 then (r.set o res.1, true) else (r, false)
/-- `encompass(rectangle, rectangle)`, lines 765-775 (left operand evaluated first; the
order does not matter as the orientations are independent). -/
def encompassRect (r b : Rect) : Rect × Bool :=
  let r1 := encompassIvl r b.h HORIZONTAL
  let r2 := encompassIvl r1.1 b.v VERTICAL
  (r2.1, r1.2 || r2.2)
/-- `encompass(rectangle, point)`, lines 780-797. -/
def encompassPt (r : Rect) (p : Int × Int) : Rect × Bool :=
  let h := encompassVal r.h p.1
  let v := encompassVal r.v p.2
  if h.2 || v.2 then (⟨h.1, v.1⟩, true) else (r, false)
/-- `center`, lines 802-811. -/
def centerRect (r : Rect) : Int × Int := (center r.h, center r.v)
/-- `get(rectangle, direction_2d)`, rectangle_data.hpp lines 48-50: the coordinate of one side. -/
def Rect.side (r : Rect) (dir : Nat) : Int := (r.get (orientOfDir2 dir)).get (dir1OfDir2 dir)
/-- `get_corner`, lines 815-827. -/
def getCorner (r : Rect) (facing turning : Nat) : Int × Int :=
  let u1 := r.side facing
  let u2 := r.side (dir2Turn facing turning)
  if orientOfDir2 facing != 0 then (u2, u1) else (u1, u2)
/-- `get_half`, lines 831-838. -/
def getHalfRect (r : Rect) (dir : Nat) : Rect :=
  r.set (orientOfDir2 dir) (getHalf (r.get (orientOfDir2 dir)) (dir1OfDir2 dir))
/-- `join_with`, lines 842-862. -/
def joinWithRect (r b : Rect) : Rect × Bool :=
  if r.h = b.h && (joinWith r.v b.v).2 then (⟨r.h, (joinWith r.v b.v).1⟩, true)
  else if r.v = b.v && (joinWith r.h b.h).2 then (⟨(joinWith r.h b.h).1, r.v⟩, true)
  else (r, false)
/-- `square_euclidean_distance(rectangle, point)`, lines 889-899. -/
def sqDistPt (r : Rect) (p : Int × Int) : Option Int := do
  let x ← distVal r.h p.1
  let y ← distVal r.v p.2
  return x * x + y * y
/-- `square_euclidean_distance(rectangle, rectangle)`, lines 903-913. -/
def sqDistRect (r b : Rect) : Option Int := do
  let x ← distIvl r.h b.h
  let y ← distIvl r.v b.v
  return x * x + y * y
/-- `manhattan_distance(rectangle, point)`, lines 938-948. -/
def manDistPt (r : Rect) (p : Int × Int) : Option Int := do
  let x ← distVal r.h p.1
  let y ← distVal r.v p.2
  return x + y
/-- `manhattan_distance(rectangle, rectangle)`, lines 952-962. -/
def manDistRect (r b : Rect) : Option Int := do
  let x ← distIvl r.h b.h
  let y ← distIvl r.v b.v
  return x + y
/-- Conversion of a 64-bit value to `int` (two's complement truncation). -/
def toInt32 (z : Int) : Int := (z + 2 ^ 31) % 2 ^ 32 - 2 ^ 31
/-- The value passed to `sqrt` by `euclidean_distance(rectangle, rectangle)`, lines 927-934:
`double val = (int)square_euclidean_distance(...)`. -/
def eucDistRectArg (r b : Rect) : Option Int := (sqDistRect r b).map toInt32
/-- `scale_up`, lines 966-976. -/
def scaleUpRect (r : Rect) (f : Int) : Rect := ⟨scaleUp r.h f, scaleUp r.v f⟩
/-- `scale_down`, lines 980-990. -/
def scaleDownRect (r : Rect) (f : Int) : Rect := ⟨scaleDown r.h f, scaleDown r.v f⟩
/-- `scale`, lines 994-1004: both corner points are built from `xl, yl`. -/
def scaleRect (r : Rect) (s : Scale) : Rect :=
  let llp := s.scale (r.h.lo, r.v.lo)
  let urp := s.scale (r.h.lo, r.v.lo)
  setPoints llp urp
/-- `transform`, lines 1008-1018, with an `axis_transformation`. -/
def transformRect (r : Rect) (a : Nat) : Rect :=
  setPoints (axisTransform a (r.h.lo, r.v.lo)) (axisTransform a (r.h.hi, r.v.hi))
/-- `less_rectangle_concept::operator()`, lines 1030-1053. -/
def lessRect (o : Nat) (a b : Rect) : Bool :=
  let vl1 := (a.get o).get LOW; let vl2 := (b.get o).get LOW
  if vl1 > vl2 then false
  else if vl1 = vl2 then
    let perp := perpendicular o
    let hl1 := (a.get perp).get LOW; let hl2 := (b.get perp).get LOW
    if hl1 > hl2 then false
    else if hl1 = hl2 then
      let vh1 := (a.get o).get HIGH; let vh2 := (b.get o).get HIGH
      if vh1 > vh2 then false
      else if vh1 = vh2 then (a.get perp).get HIGH < (b.get perp).get HIGH
      else true
    else true
  else true

/-- `point_data::operator<`, point_data.hpp lines 109-113. -/
def ptLess (p q : Int × Int) : Bool := p.1 < q.1 || (p.1 == q.1 && p.2 < q.2)

end Verif.Rectangle
