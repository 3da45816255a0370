import Verif.Model.Machine
import Verif.Model.Segment
/-!
# Model of the Voronoi sites: orientation test, site ordering, site insertion, bit-fields

Line numbers refer to files under `/repo/include/boost/polygon/`. The coordinate type is `int`
(`voronoi_ctype_traits<int32>`), so `int_x2_type` is a signed and `uint_x2_type` an unsigned 64-bit
integer. A conversion `to_fpt` of an unsigned integer to `double` is monotone and maps only 0 to 0;
what is modelled is the signed integer that is converted, which has the same sign.
-/
namespace Verif.Voronoi
open Verif.Machine Verif.Segment

/-! ### Cross product and orientation -/

/-- `robust_cross_product`, detail/voronoi_predicates.hpp lines 52-78: the signed integer whose
magnitude is converted by `to_fpt`. -/
def robustCross (a1 b1 a2 b2 : Int) : Option Int := do
  let ua1 := u64 (← absI64 a1)
  let ub1 := u64 (← absI64 b1)
  let ua2 := u64 (← absI64 a2)
  let ub2 := u64 (← absI64 b2)
  let l := u64 (ua1 * ub2)
  let r := u64 (ub1 * ua2)
  return if xor (decide (a1 < 0)) (decide (b2 < 0)) then
      if xor (decide (a2 < 0)) (decide (b1 < 0)) then (if l > r then -(u64 (l - r)) else u64 (r - l))
      else -(u64 (l + r))
    else
      if xor (decide (a2 < 0)) (decide (b1 < 0)) then u64 (l + r)
      else (if l < r then -(u64 (r - l)) else u64 (l - r))

/-- `orientation_test::Orientation`, detail/voronoi_predicates.hpp lines 83-87. -/
abbrev RIGHT : Int := -1
abbrev COLLINEAR : Int := 0
abbrev LEFT : Int := 1

/-- `orientation_test::eval(value)`, detail/voronoi_predicates.hpp lines 91-95. -/
def evalSign (v : Int) : Int := if v = 0 then COLLINEAR else if v < 0 then RIGHT else LEFT

/-- `orientation_test::eval(dif_x1, dif_y1, dif_x2, dif_y2)`, detail/voronoi_predicates.hpp lines 97-102. -/
def evalDifs (dx1 dy1 dx2 dy2 : Int) : Option Int := do return evalSign (← robustCross dx1 dy1 dx2 dy2)

/-- `orientation_test::eval(point1, point2, point3)`, detail/voronoi_predicates.hpp lines 104-116. -/
def evalPts (p1 p2 p3 : Int × Int) : Option Int := do
  let dx1 ← i64 (p1.1 - p2.1)
  let dx2 ← i64 (p2.1 - p3.1)
  let dy1 ← i64 (p1.2 - p2.2)
  let dy2 ← i64 (p2.2 - p3.2)
  evalDifs dx1 dy1 dx2 dy2

/-! ### Sites -/

/-- `site_event`, detail/voronoi_structures.hpp lines 85-230. `size_t` counters are unbounded. -/
structure Site where
  p0 : Int × Int
  p1 : Int × Int
  sorted : Nat := 0
  initial : Nat := 0
  flags : Nat := 0
deriving DecidableEq, Repr

/-- `operator==`, detail/voronoi_structures.hpp lines 121-124: only the points are compared. -/
def Site.eq (s t : Site) : Bool := s.p0 == t.p0 && s.p1 == t.p1

/-- `is_segment`, detail/voronoi_structures.hpp lines 214-216. -/
def Site.isSegment (s : Site) : Bool := s.p0.1 != s.p1.1 || s.p0.2 != s.p1.2

/-- `is_point`, detail/voronoi_structures.hpp lines 210-212. -/
def Site.isPoint (s : Site) : Bool := s.p0.1 == s.p1.1 && s.p0.2 == s.p1.2

/-- `is_inverse`, detail/voronoi_structures.hpp lines 189-191 (`IS_INVERSE` is `0x20`). -/
def Site.isInverse (s : Site) : Bool := s.flags &&& 0x20 != 0

/-- `inverse`, detail/voronoi_structures.hpp lines 193-197. -/
def Site.inverse (s : Site) : Site := { s with p0 := s.p1, p1 := s.p0, flags := s.flags ^^^ 0x20 }

/-- `source_category()`, detail/voronoi_structures.hpp lines 199-201. -/
def Site.category (s : Site) : Nat := s.flags &&& 0x1F

/-- `source_category(c)`, detail/voronoi_structures.hpp lines 203-206. -/
def Site.setCategory (s : Site) (c : Nat) : Site := { s with flags := s.flags ||| c }

/-- `is_vertical(site)`, detail/voronoi_predicates.hpp lines 41-49. -/
def Site.isVertical (s : Site) : Bool := s.p0.1 == s.p1.1

/-! ### Orderings -/

/-- `point_comparison_predicate`, detail/voronoi_predicates.hpp lines 120-131. -/
def pointLess (a b : Int × Int) : Bool := if a.1 = b.1 then decide (a.2 < b.2) else decide (a.1 < b.1)

/-- `event_comparison_predicate(site, site)`, detail/voronoi_predicates.hpp lines 139-163. -/
def siteLess (l r : Site) : Option Bool :=
  if l.p0.1 ≠ r.p0.1 then some (decide (l.p0.1 < r.p0.1))
  else if !l.isSegment then
    if !r.isSegment then some (decide (l.p0.2 < r.p0.2))
    else if r.isVertical then some (decide (l.p0.2 ≤ r.p0.2))
    else some true
  else
    if r.isVertical then
      if l.isVertical then some (decide (l.p0.2 < r.p0.2)) else some false
    else if l.isVertical then some true
    else if l.p0.2 ≠ r.p0.2 then some (decide (l.p0.2 < r.p0.2))
    else do return (← evalPts l.p1 l.p0 r.p1) == LEFT

/-! ### Insertion and the site queue -/

/-- Source categories, voronoi_geometry_type.hpp lines 24-36. -/
abbrev SINGLE_POINT : Nat := 0x0
abbrev SEGMENT_START_POINT : Nat := 0x1
abbrev SEGMENT_END_POINT : Nat := 0x2
abbrev INITIAL_SEGMENT : Nat := 0x8
abbrev REVERSE_SEGMENT : Nat := 0x9

/-- What a caller inserts into the builder. -/
inductive Input where
  | point (p : Int × Int)
  | segment (p q : Int × Int)
deriving DecidableEq, Repr

/-- `voronoi_builder` before `construct`: `site_events_` and `index_`, voronoi_builder.hpp lines 55, 494-496. -/
structure Builder where
  sites : List Site := []
  index : Nat := 0
deriving DecidableEq, Repr

/-- `insert_point`, voronoi_builder.hpp lines 58-63. -/
def Builder.insertPoint (b : Builder) (p : Int × Int) : Builder :=
  { sites := b.sites ++ [Site.setCategory { p0 := p, p1 := p, initial := b.index } SINGLE_POINT], index := b.index + 1 }

/-- `insert_segment`, voronoi_builder.hpp lines 69-96. -/
def Builder.insertSegment (b : Builder) (p q : Int × Int) : Builder :=
  { sites := b.sites ++
      [Site.setCategory { p0 := p, p1 := p, initial := b.index } SEGMENT_START_POINT,
       Site.setCategory { p0 := q, p1 := q, initial := b.index } SEGMENT_END_POINT,
       if pointLess p q then Site.setCategory { p0 := p, p1 := q, initial := b.index } INITIAL_SEGMENT
       else Site.setCategory { p0 := q, p1 := p, initial := b.index } REVERSE_SEGMENT],
    index := b.index + 1 }

/-- One insertion. -/
def Builder.insert (b : Builder) : Input → Builder
  | .point p => b.insertPoint p
  | .segment p q => b.insertSegment p q

/-- Any history of insertions. -/
def insertAll (inputs : List Input) : Builder := inputs.foldl Builder.insert {}

/-- `std::unique` with `operator==`: of every run of equal consecutive elements the first is kept.
`last` is the element kept last. -/
def uniqueGo (last : Site) : List Site → List Site
  | [] => []
  | s :: r => if last.eq s then uniqueGo last r else s :: uniqueGo s r

/-- `std::unique` followed by `erase`. -/
def unique : List Site → List Site
  | [] => []
  | s :: r => s :: uniqueGo s r

/-- What `std::sort` may leave: a rearrangement in which no element is preceded by a greater one.
The library algorithm itself is not modelled; it promises this when the comparison is a strict weak
order. -/
def IsSortOf (l l' : List Site) : Prop := l'.Perm l ∧ l'.Pairwise (fun a b => siteLess b a ≠ some true)

/-- The indexing loop of `init_sites_queue`, voronoi_builder.hpp lines 180-182. -/
def indexFrom : Nat → List Site → List Site
  | _, [] => []
  | n, s :: r => { s with sorted := n } :: indexFrom (n + 1) r

/-- `init_sites_queue`, voronoi_builder.hpp lines 170-186, given the result of `std::sort`. -/
def siteQueue (sorted : List Site) : List Site := indexFrom 0 (unique sorted)

/-! ### Colour words -/

/-- `color(c)` of cells, vertices and edges on a `size_t` of 64 bits, voronoi_diagram.hpp lines
77-80, 125-128, 233-236: `color_ &= BITS_MASK; color_ |= color << BITS_SHIFT`. -/
def setColor (w c : Nat) : Nat := (w &&& 0x1F) ||| (c <<< 5 % 2 ^ 64)

/-- `color()`, voronoi_diagram.hpp lines 76, 124, 232. -/
def getColor (w : Nat) : Nat := w >>> 5

/-- `voronoi_cell::source_category`, voronoi_diagram.hpp lines 66-68. -/
def cellCategory (w : Nat) : Nat := w &&& 0x1F

/-- `belongs`, voronoi_geometry_type.hpp lines 38-44. -/
def belongs (cat geom : Nat) : Bool := cat >>> 3 == geom

/-- `contains_point`, voronoi_diagram.hpp lines 50-53. -/
def containsPoint (w : Nat) : Bool := belongs (cellCategory w) 0

/-- `contains_segment`, voronoi_diagram.hpp lines 56-59. -/
def containsSegment (w : Nat) : Bool := belongs (cellCategory w) 1

/-- The `voronoi_edge` constructor's colour word, voronoi_diagram.hpp lines 161-166. -/
def edgeWord (linear primary : Bool) : Nat := (if linear then 0x1 else 0) ||| (if primary then 0x2 else 0)

/-- `is_linear` and `is_curved`, voronoi_diagram.hpp lines 208-216. -/
def isLinear (w : Nat) : Bool := w &&& 0x1 != 0
def isCurved (w : Nat) : Bool := w &&& 0x1 == 0

/-- `is_primary` and `is_secondary`, voronoi_diagram.hpp lines 220-229. -/
def isPrimary (w : Nat) : Bool := w &&& 0x2 != 0
def isSecondary (w : Nat) : Bool := w &&& 0x2 == 0

end Verif.Voronoi
