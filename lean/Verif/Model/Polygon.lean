import Verif.Model.Set90
import Verif.Model.Machine
import Mathlib.Data.Rat.Defs
/-!
# Model of polygon vertex sequences: area, winding, `is_45`, compact encoding, insertion

Line numbers refer to `/repo/include/boost/polygon/polygon_traits.hpp` unless another file is
named. A polygon is the list of vertices its point iterators run through.
-/
namespace Verif.Polygon
open Verif.BooleanOp Verif.Set90 Verif.Isotropy Verif.Machine

/-! ### `point_sequence_area` -/

/-- One term of the trapezoid sum with base line `yb`, lines 979-980 and 993-994, for an
integer `area_type` (`manhattan_area_type`): the division truncates. -/
def areaTerm (yb : Int) (a b : Int × Int) : Int := ((b.1 - a.1) * ((b.2 - yb) + (a.2 - yb))).tdiv 2

/-- The loop of `point_sequence_area`, lines 969-986, and the closing edge, lines 988-993. -/
def areaGo (first : Int × Int) : Int × Int → List (Int × Int) → Int → Int
  | prev, [], acc => if first ≠ prev then acc + areaTerm first.2 prev first else acc
  | prev, p :: r, acc => areaGo first p r (if prev.1 ≠ p.1 then acc + areaTerm first.2 prev p else acc)

/-- `point_sequence_area` with integer `area_type` (Manhattan polygons), lines 959-996.
Overflow of the 64-bit type is modelled by `area64`. -/
def area90 : List (Int × Int) → Int
  | [] => 0
  | p :: r => areaGo p p r 0

/-- One term in `long long`: every intermediate result is checked. -/
def areaTerm64 (yb : Int) (a b : Int × Int) : Option Int := do
  let dx ← i64 (b.1 - a.1)
  let h1 ← i64 (b.2 - yb)
  let h2 ← i64 (a.2 - yb)
  let h ← i64 (h1 + h2)
  let m ← i64 (dx * h)
  return m.tdiv 2

/-- The loop in `long long`. -/
def areaGo64 (first : Int × Int) : Int × Int → List (Int × Int) → Int → Option Int
  | prev, [], acc => if first ≠ prev then do i64 (acc + (← areaTerm64 first.2 prev first)) else some acc
  | prev, p :: r, acc => do
    let acc ← if prev.1 ≠ p.1 then do i64 (acc + (← areaTerm64 first.2 prev p)) else some acc
    areaGo64 first p r acc

/-- `point_sequence_area` with `area_type = long long`; `none` is signed overflow. -/
def area64 : List (Int × Int) → Option Int
  | [] => some 0
  | p :: r => areaGo64 p p r 0

/-- One term for a fractional `area_type` (polygons that are not Manhattan). The code uses
`long double`; the model is exact. -/
def areaTermQ (yb : Int) (a b : Int × Int) : ℚ := ((b.1 : ℚ) - a.1) * (((b.2 : ℚ) - yb) + (a.2 - yb)) / 2

/-- The loop for a fractional `area_type`. -/
def areaGoQ (first : Int × Int) : Int × Int → List (Int × Int) → ℚ → ℚ
  | prev, [], acc => if first ≠ prev then acc + areaTermQ first.2 prev first else acc
  | prev, p :: r, acc => areaGoQ first p r (if prev.1 ≠ p.1 then acc + areaTermQ first.2 prev p else acc)

/-- `point_sequence_area` with a fractional `area_type`, exact. -/
def areaQ : List (Int × Int) → ℚ
  | [] => 0
  | p :: r => areaGoQ p p r 0

/-- `area(polygon_with_holes)`, lines 998-1022, Manhattan. -/
def areaHoles90 (outer : List (Int × Int)) (holes : List (List (Int × Int))) : Int :=
  let r := area90 outer
  let r := if r < 0 then r * -1 else r
  holes.foldl (fun r h => let t := area90 h; r - if t < 0 then t * -1 else t) r

/-- `area(polygon_with_holes)`, lines 998-1022, general. -/
def areaHolesQ (outer : List (Int × Int)) (holes : List (List (Int × Int))) : ℚ :=
  let r := areaQ outer
  let r := if r < 0 then r * -1 else r
  holes.foldl (fun r h => let t := areaQ h; r - if t < 0 then t * -1 else t) r

/-- `winding`, lines 1104-1116, for types without a stored winding (all the `*_data` types):
COUNTERCLOCKWISE (1) when the area is negative, else CLOCKWISE (0). -/
def winding90 (P : List (Int × Int)) : Nat := if area90 P < 0 then HIGH else LOW

/-- `winding` for general polygons. -/
def windingQ (P : List (Int × Int)) : Nat := if areaQ P < 0 then HIGH else LOW

/-! ### `is_45` -/

/-- The test of one edge, lines 1034-1038. The code subtracts in `Unit`; the model is unbounded. -/
def bad45 (a b : Int × Int) : Bool :=
  let dx := b.1 - a.1
  let dy := b.2 - a.2
  dx != 0 && dy != 0 && dx.natAbs != dy.natAbs

/-- The loop of `point_sequence_is_45`, lines 1032-1046. -/
def is45Go (first : Int × Int) : Int × Int → List (Int × Int) → Bool
  | prev, [] => !bad45 prev first
  | prev, p :: r => if bad45 prev p then false else is45Go first p r

/-- `point_sequence_is_45`, lines 1024-1047. -/
def is45Seq : List (Int × Int) → Bool
  | [] => true
  | p :: r => is45Go p p r

/-- `is_45(polygon_with_holes)`, lines 1049-1061. The loop over the holes tests the outer
boundary again (line 1057 takes the points of `polygon`, not of the hole). -/
def is45Holes (outer : List (Int × Int)) (holes : List (List (Int × Int))) : Bool :=
  if !is45Seq outer then false else holes.all (fun _ => is45Seq outer)

/-! ### compact encoding of Manhattan polygons -/

/-- `iterator_compact_to_points` after construction, detail/iterator_compact_to_points.hpp lines
31-53: `pt` is the current point, `rest` the coordinates after the iterator, `o` the orientation
to be set next. The points the iterator runs through. -/
def expandGo (firstX : Int) : Int × Int → List Int → Nat → List (Int × Int)
  | pt, [], _ => pt :: if pt.1 ≠ firstX then [(firstX, pt.2)] else []
  | pt, c :: r, o => pt :: expandGo firstX (if o = HORIZONTAL then (c, pt.2) else (pt.1, c)) r (perpendicular o)

/-- The points of a `polygon_90_data` with coordinates `coords` (`begin()`..`end()`,
polygon_90_data.hpp lines 59-62). With a single coordinate the iterator starts at its end. -/
def expand : List Int → List (Int × Int)
  | x :: y :: r => expandGo x (x, y) r HORIZONTAL
  | _ => []

/-- `iterator_points_to_compact` from orientation `o`, detail/iterator_points_to_compact.hpp
lines 36-58. -/
def compactGo : List (Int × Int) → Nat → List Int
  | [], _ => []
  | p :: r, o => (if o = HORIZONTAL then p.1 else p.2) :: compactGo r (perpendicular o)

/-- `polygon_90_data::set`, polygon_90_data.hpp lines 26-40. -/
def compact (P : List (Int × Int)) : List Int := compactGo P HORIZONTAL

/-! ### `iterator_geometry_to_set` for polygons -/

/-- The component of a point. -/
def pget (p : Int × Int) (o : Nat) : Int := if o = HORIZONTAL then p.1 else p.2

/-- `evaluate_`, detail/iterator_geometry_to_set.hpp lines 181-195: the vertex for the middle one
of three consecutive points. -/
def evalPts (orient : Nat) (mult : Int) (a b c : Int × Int) : V :=
  ⟨pget b (perpendicular orient), pget b orient,
    (if b = c then 0 else if a.1 ≠ b.1 then -1 else if a.2 ≠ b.2 then 1 else 0) * mult⟩

/-- What follows the last point, lines 130-139: with the iterator at its end, increment ends
the sequence when the middle point is the first point, otherwise shifts once more. After that
shift the middle point is the first point. -/
def polyEnd (orient : Nat) (mult : Int) (first second : Int × Int) (a b c : Int × Int) : List V :=
  evalPts orient mult a b c ::
    if first = b then [] else [evalPts orient mult b c (if first = c then second else first)]

/-- The vertices from a state `pts = {a, b, c}` with the iterator on `c` and `rest` after it,
lines 126-159. -/
def polyGo (orient : Nat) (mult : Int) (first second : Int × Int) :
    Int × Int → Int × Int → Int × Int → List (Int × Int) → List V
  | a, b, c, [] => evalPts orient mult a b c ::
      polyEnd orient mult first second b c (if first = c then second else first)
  | a, b, c, d :: r => evalPts orient mult a b c :: polyGo orient mult first second b c d r

/-- `iterator_geometry_to_set<polygon_90_concept>` from begin to end, lines 75-196, without
winding override. `size(polygon)` is taken to be the number of points. -/
def polyVertices (P : List (Int × Int)) (orient : Nat) (isHole : Bool) : List V :=
  match P with
  | a :: b :: c :: d :: r =>
    let mult := if winding90 P = LOW then -1 else 1
    let mult := if isHole then mult * -1 else mult
    polyGo orient mult a b a b c (d :: r)
  | _ => []

/-- The holes part of `iterator_geometry_to_set<polygon_90_with_holes_concept>`, lines 245-295: a
degenerate hole that is not the last one contributes the value-initialised vertex `(0, 0, 0)` of an
iterator that was born ended. -/
def holesVertices (orient : Nat) (isHole : Bool) : List (List (Int × Int)) → List V
  | [] => []
  | h :: r =>
    let v := polyVertices h orient isHole
    if v = [] then (if r = [] then [] else ⟨0, 0, 0⟩ :: holesVertices orient isHole r)
    else v ++ holesVertices orient isHole r

/-- `iterator_geometry_to_set<polygon_90_with_holes_concept>` from begin to end, lines 198-309. -/
def polyHolesVertices (outer : List (Int × Int)) (holes : List (List (Int × Int))) (orient : Nat)
    (isHole : Bool) : List V :=
  let o := polyVertices outer orient isHole
  if o = [] then (if holes = [] then [] else ⟨0, 0, 0⟩ :: holesVertices orient (!isHole) holes)
  else o ++ holesVertices orient (!isHole) holes

/-- `insert(geometry, is_hole)`, polygon_90_set_data.hpp lines 134-139, for a Manhattan polygon. -/
def _root_.Verif.Set90.PSet.insertPoly (s : PSet) (P : List (Int × Int)) (isHole : Bool) : PSet :=
  s.insertIter (polyVertices P s.orient isHole) s.orient

/-- `insert(geometry, is_hole)`, polygon_90_set_data.hpp lines 134-139, for a Manhattan polygon
with holes. -/
def _root_.Verif.Set90.PSet.insertPolyHoles (s : PSet) (P : List (Int × Int))
    (holes : List (List (Int × Int))) (isHole : Bool) : PSet :=
  s.insertIter (polyHolesVertices P holes s.orient isHole) s.orient

end Verif.Polygon
