import Verif.Model.PolySet
import Verif.Spec.Cut
import Mathlib.Data.Rat.Floor
/-!
# Model of cutting segments at their intersections, and of the Boolean operation on polygon sets

`ABF` is `/repo/include/boost/polygon/detail/polygon_arbitrary_formation.hpp`, `SA` is
`/repo/include/boost/polygon/detail/scan_arbitrary.hpp`.

Coordinates are unbounded integers. The intersection point of two segments, neither of which is vertical, and
the ordinate at which a sloped segment meets a vertical one are computed in `long double`; these values are
parameters of the model (`FP`) and the theorems hold for all of them, unless they say otherwise. A
`std::set<Point>` is the list of its elements in increasing order.
-/
namespace Verif.Cut
open Verif Verif.Arb Verif.Contains Verif.PolySet

/-- The floating point results. `yL x p q`: `evalAtXforYlazy`, ABF lines 194-200, when neither of its early
returns applies. `yE x p q`: the same for `evalAtXforY`, ABF lines 219-225, rounded down as in ABF
lines 514-515. `ptL`, `ptE`: the rounded intersection point of two segments neither of which is vertical, ABF
lines 422-457 and 534-570, before the corrections for horizontal segments, or none if the slopes compare
equal. -/
structure FP where
  yL : Int → Pt → Pt → Int
  yE : Int → Pt → Pt → Int
  ptL : HE → HE → Option Pt
  ptE : HE → HE → Option Pt

/-- The ordinate computed for a segment at an abscissa within its horizontal extent is within its vertical
extent. Division in `long double` of products of 32-bit differences has this property. -/
def FP.Sane (fp : FP) : Prop :=
  ∀ x p q, min p.1 q.1 ≤ x → x ≤ max p.1 q.1 → min p.2 q.2 ≤ fp.yE x p q ∧ fp.yE x p q ≤ max p.2 q.2

/-- The results are exact where the exact result is a lattice point, and segments whose slopes are equal compare
equal. -/
structure FP.Accurate (fp : FP) : Prop where
  yL : ∀ x y p q, p.1 ≠ q.1 → (y - p.2) * (q.1 - p.1) = (q.2 - p.2) * (x - p.1) → fp.yL x p q = y
  yE : ∀ x y p q, p.1 ≠ q.1 → (y - p.2) * (q.1 - p.1) = (q.2 - p.2) * (x - p.1) → fp.yE x p q = y
  ptL : ∀ (e f : HE) (p : Pt), (e.2.1 - e.1.1) * (f.2.2 - f.1.2) ≠ (f.2.1 - f.1.1) * (e.2.2 - e.1.2) →
    (p.2 - e.1.2) * (e.2.1 - e.1.1) = (e.2.2 - e.1.2) * (p.1 - e.1.1) →
    (p.2 - f.1.2) * (f.2.1 - f.1.1) = (f.2.2 - f.1.2) * (p.1 - f.1.1) → fp.ptL e f = some p
  ptE : ∀ (e f : HE) (p : Pt), (e.2.1 - e.1.1) * (f.2.2 - f.1.2) ≠ (f.2.1 - f.1.1) * (e.2.2 - e.1.2) →
    (p.2 - e.1.2) * (e.2.1 - e.1.1) = (e.2.2 - e.1.2) * (p.1 - e.1.1) →
    (p.2 - f.1.2) * (f.2.1 - f.1.1) = (f.2.2 - f.1.2) * (p.1 - f.1.1) → fp.ptE e f = some p
  parL : ∀ e f : HE, (e.2.1 - e.1.1) * (f.2.2 - f.1.2) = (f.2.1 - f.1.1) * (e.2.2 - e.1.2) → fp.ptL e f = none
  parE : ∀ e f : HE, (e.2.1 - e.1.1) * (f.2.2 - f.1.2) = (f.2.1 - f.1.1) * (e.2.2 - e.1.2) → fp.ptE e f = none

/-- The results are those of exact arithmetic, rounded down. -/
structure FP.Floor (fp : FP) : Prop where
  yL : ∀ x p q, p.1 ≠ q.1 → fp.yL x p q = ⌊Spec.lineY p q x⌋
  yE : ∀ x p q, p.1 ≠ q.1 → fp.yE x p q = ⌊Spec.lineY p q x⌋
  ptL : ∀ (e f : HE) (z : ℚ × ℚ), (e.2.1 - e.1.1) * (f.2.2 - f.1.2) ≠ (f.2.1 - f.1.1) * (e.2.2 - e.1.2) →
    (z.2 - e.1.2) * (e.2.1 - e.1.1) = (e.2.2 - e.1.2) * (z.1 - e.1.1) →
    (z.2 - f.1.2) * (f.2.1 - f.1.1) = (f.2.2 - f.1.2) * (z.1 - f.1.1) → fp.ptL e f = some (⌊z.1⌋, ⌊z.2⌋)
  ptE : ∀ (e f : HE) (z : ℚ × ℚ), (e.2.1 - e.1.1) * (f.2.2 - f.1.2) ≠ (f.2.1 - f.1.1) * (e.2.2 - e.1.2) →
    (z.2 - e.1.2) * (e.2.1 - e.1.1) = (e.2.2 - e.1.2) * (z.1 - e.1.1) →
    (z.2 - f.1.2) * (f.2.1 - f.1.1) = (f.2.2 - f.1.2) * (z.1 - f.1.1) → fp.ptE e f = some (⌊z.1⌋, ⌊z.2⌋)
  parL : ∀ e f : HE, (e.2.1 - e.1.1) * (f.2.2 - f.1.2) = (f.2.1 - f.1.1) * (e.2.2 - e.1.2) → fp.ptL e f = none
  parE : ∀ e f : HE, (e.2.1 - e.1.1) * (f.2.2 - f.1.2) = (f.2.1 - f.1.1) * (e.2.2 - e.1.2) → fp.ptE e f = none

/-- `n / d` rounded down. -/
def floorDiv (n d : Int) : Int := (n * d) / (d * d)

/-- The results of exact arithmetic, rounded down: what ABF lines 502-591 compute when `high_precision_type` is a
rational number type (`gmp_override.hpp`). -/
def exactFP : FP where
  yL x p q := p.2 + floorDiv ((x - p.1) * (q.2 - p.2)) (q.1 - p.1)
  yE x p q := p.2 + floorDiv ((x - p.1) * (q.2 - p.2)) (q.1 - p.1)
  ptL e f := exactPt e f
  ptE e f := exactPt e f
where
  /-- ABF lines 534-565. -/
  exactPt (e f : HE) : Option Pt :=
    let dx1 := e.2.1 - e.1.1
    let dy1 := e.2.2 - e.1.2
    let dx2 := f.2.1 - f.1.1
    let dy2 := f.2.2 - f.1.2
    if dx1 * dy2 = dx2 * dy1 then none
    else
      let xn := e.1.1 * dy1 * dx2 - f.1.1 * dy2 * dx1 + f.1.2 * dx1 * dx2 - e.1.2 * dx1 * dx2
      let yn := e.1.2 * dx1 * dy2 - f.1.2 * dx2 * dy1 + f.1.1 * dy1 * dy2 - e.1.1 * dy1 * dy2
      some (floorDiv xn (dy1 * dx2 - dy2 * dx1), floorDiv yn (dx1 * dy2 - dx2 * dy1))

/-- `is_horizontal`, ABF lines 261-263. -/
def isHorizontal (e : HE) : Bool := e.1.2 == e.2.2

/-- `contains(rect, pt, true)` for the bounding box of an edge. -/
def inBox (e : HE) (p : Pt) : Bool :=
  decide (min e.1.1 e.2.1 ≤ p.1) && decide (p.1 ≤ max e.1.1 e.2.1) &&
  decide (min e.1.2 e.2.2 ≤ p.2) && decide (p.2 ≤ max e.1.2 e.2.2)

/-- `intersects` of the closed bounding boxes: `consider_touch = true`. -/
def boxTouch (e f : HE) : Bool :=
  decide (min e.1.1 e.2.1 ≤ max f.1.1 f.2.1) && decide (min f.1.1 f.2.1 ≤ max e.1.1 e.2.1) &&
  decide (min e.1.2 e.2.2 ≤ max f.1.2 f.2.2) && decide (min f.1.2 f.2.2 ≤ max e.1.2 e.2.2)

/-- `intersects` of the horizontal extents with `consider_touch = false`. -/
def hOverlap (e f : HE) : Bool :=
  decide (min e.1.1 e.2.1 < max f.1.1 f.2.1) && decide (min f.1.1 f.2.1 < max e.1.1 e.2.1)
/-- `intersects` of the vertical extents with `consider_touch = false`. -/
def vOverlap (e f : HE) : Bool :=
  decide (min e.1.2 e.2.2 < max f.1.2 f.2.2) && decide (min f.1.2 f.2.2 < max e.1.2 e.2.2)

/-- `intersects(half_edge, half_edge)`, ABF lines 672-729. -/
def intersects (e f : HE) : Bool :=
  if hOverlap e f && vOverlap e f then
    if e.1 = f.1 then decide (e.2 ≠ f.2) && equalSlope e.1 e.2 f.2
    else if e.1 = f.2 then decide (e.2 ≠ f.1) && equalSlope e.1 e.2 f.1
    else if e.2 = f.1 then decide (e.1 ≠ f.2) && equalSlope e.2 e.1 f.2
    else if e.2 = f.2 then decide (e.1 ≠ f.1) && equalSlope e.2 e.1 f.1
    else if oab e.1 f == 0 && between e.1 f.1 f.2 then true
    else if oab e.2 f == 0 && between e.2 f.1 f.2 then true
    else if oab e.1 f == oab e.2 f && oab e.1 f != 0 then false
    else if oab f.1 e == 0 && between f.1 e.1 e.2 then true
    else if oab f.2 e == 0 && between f.2 e.1 e.2 then true
    else if oab f.1 e == oab f.2 e then false
    else true
  else if isVertical e && isVertical f && e.1.1 == f.1.1 then
    vOverlap e f && !(min e.1.2 e.2.2 == min f.1.2 f.2.2 && max e.1.2 e.2.2 == max f.1.2 f.2.2)
  else if isHorizontal e && isHorizontal f && e.1.2 == f.1.2 then
    hOverlap e f && !(min e.1.1 e.2.1 == min f.1.1 f.2.1 && max e.1.1 e.2.1 == max f.1.1 f.2.1)
  else false

/-- `intersects_grid`, ABF lines 146-177: the segment meets the unit square whose lower left corner is the
point. -/
def grid (p : Pt) (e : HE) : Bool :=
  if p = e.2 then true
  else if p = e.1 then true
  else if !inBox e p then false
  else if isVertical e || isHorizontal e then true
  else if equalSlope p e.1 e.2 && between p e.1 e.2 then true
  else
    let p01 : Pt := (p.1, p.2 + 1)
    let p10 : Pt := (p.1 + 1, p.2)
    let p11 : Pt := (p.1 + 1, p.2 + 1)
    if intersects (p, p11) e && oab p11 e != 0 then true
    else if intersects (p01, p10) e && oab p01 e != 0 && oab p10 e != 0 then true
    else false

/-- `evalAtXforYlazy` and `evalAtXforY`, ABF lines 179-226, with the last part as a parameter. -/
def evalAt (last : Int → Pt → Pt → Int) (x : Int) (p q : Pt) : Int :=
  if p.2 = q.2 then p.2 else if x = p.1 then p.2 else last x p q

/-- The common part of `compute_lazy_intersection`, ABF lines 391-483, and `compute_exact_intersection`, ABF lines
502-591, with `projected = false`. Two horizontal segments have equal slopes: `dx1 * 0 == dx2 * 0`. -/
def candidate (ev : Int → Pt → Pt → Int) (pt : HE → HE → Option Pt) (e f : HE) : Option Pt :=
  if !boxTouch e f then none
  else if isVertical e then
    if isVertical f then none
    else
      let y := evalAt ev e.1.1 f.1 f.2
      if min e.1.2 e.2.2 ≤ y ∧ y ≤ max e.1.2 e.2.2 then some (e.1.1, y) else none
  else if isVertical f then
    let y := evalAt ev f.1.1 e.1 e.2
    if min f.1.2 f.2.2 ≤ y ∧ y ≤ max f.1.2 f.2.2 then some (f.1.1, y) else none
  else if isHorizontal e && isHorizontal f then none
  else
    match pt e f with
    | none => none
    | some (x, y) =>
      let y := if isHorizontal e then e.1.2 else y
      let y := if isHorizontal f then f.1.2 else y
      if inBox e (x, y) && inBox f (x, y) then some (x, y) else none

/-- `compute_intersection`, ABF lines 485-500, with `projected = false`. -/
def computeIntersection (fp : FP) (e f : HE) : Option Pt :=
  if !intersects e f then none
  else
    match candidate fp.yL fp.ptL e f with
    | some p => if grid p e && grid p f then some p else candidate fp.yE fp.ptE e f
    | none => candidate fp.yE fp.ptE e f

/-! ### Finding the points where segments are cut -/

/-- A segment with the index of the input segment. -/
abbrev Seg := HE × Nat

/-- `intersection_points`: the set of points of every segment. -/
abbrev Pts := Nat → List Pt

/-- `intersection_points[i].insert(p)`. -/
def Pts.add (ip : Pts) (i : Nat) (p : Pt) : Pts := fun j => if j = i then queueInsert (ip j) p else ip j

/-- Both ends have `y >= min_y`. -/
def above (minY : Int) (e : HE) : Bool := decide (e.1.2 ≥ minY) && decide (e.2.2 ≥ minY)

/-- The inner loop of `validate_scan`, SA lines 178-200. The state is `intersection_points` and `pts`. -/
def inner (fp : FP) (minY : Int) (o : Seg) : List Seg → Pts × List Pt → Pts × List Pt
  | [], s => s
  | f :: r, s =>
    if above minY o.1 || above minY f.1 then
      if o.1 = f.1 then inner fp minY o r s
      else if min f.1.1.1 f.1.2.1 ≥ max o.1.2.1 o.1.1.1 then s
      else if o.1.1 = f.1.1 ∨ o.1.2 = f.1.2 then inner fp minY o r s
      else
        match computeIntersection fp o.1 f.1 with
        | some p => inner fp minY o r ((s.1.add f.2 p).add o.2 p, s.2 ++ [p])
        | none => inner fp minY o r s
    else inner fp minY o r s

/-- The outer loop of `validate_scan`, SA lines 165-201. -/
def outer (fp : FP) (minY : Int) : List Seg → Pts × List Pt → Pts × List Pt
  | [], s => s
  | o :: r, s =>
    let pts := s.2 ++ [o.1.1, o.1.2] ++ (s.1 o.2).filter (fun p => decide (p.2 ≥ minY))
    outer fp minY r (inner fp minY o (o :: r) (s.1, pts))

/-- The second loop of `validate_scan`, SA lines 204-226; the list of points starts at `lfinger`. -/
def gridLoop : List Seg → List Pt → Pts → Pts
  | [], _, ip => ip
  | o :: r, pts, ip =>
    let start := if lessPoint o.1.2 o.1.1 then o.1.2 else o.1.1
    let stop := if lessPoint o.1.1 o.1.2 then o.1.2 else o.1.1
    let lf := pts.dropWhile (fun p => decide (p.1 < start.1))
    let hit := (lf.takeWhile (fun p => decide (p.1 ≤ stop.1))).filter (fun p => grid p o.1)
    gridLoop r lf (hit.foldl (fun ip p => ip.add o.2 p) ip)

/-- The order of `std::pair<half_edge, segment_id>`. -/
def lessSeg (a b : Seg) : Bool :=
  if lessPoint a.1.1 b.1.1 then true
  else if lessPoint b.1.1 a.1.1 then false
  else if lessPoint a.1.2 b.1.2 then true
  else if lessPoint b.1.2 a.1.2 then false
  else decide (a.2 < b.2)

/-- Insertion into a sorted list. -/
def insertSeg (a : Seg) : List Seg → List Seg
  | [] => [a]
  | b :: r => if lessSeg b a then b :: insertSeg a r else a :: b :: r

/-- `polygon_sort(data.begin(), data.end())`, SA line 164: the algorithm is not modelled. -/
def sortSeg : List Seg → List Seg
  | [] => []
  | a :: r => insertSeg a (sortSeg r)

/-- Swap the end points so that the first one is the lesser: SA lines 158-162. -/
def norm (a : Seg) : Seg := if lessPoint a.1.2 a.1.1 then ((a.1.2, a.1.1), a.2) else a

/-- `validate_scan(intersection_points, begin, end, min_y)`, SA lines 152-227. Sorting and removing duplicates is
inserting into a set. -/
def validate (fp : FP) (minY : Int) (L : List Seg) (ip : Pts) : Pts :=
  let data := sortSeg (L.map norm)
  let (ip, pts) := outer fp minY data (ip, [])
  gridLoop data (pts.foldl queueInsert []) ip

/-! ### Dividing the segments by ordinate -/

/-- An element of `histogram`: `(y, (active, ended))`; the code keeps the counts as `size_t`. -/
abbrev Hist := Int × (Int × Int)

/-- Insertion into a sorted list of pairs. -/
def insertEnd (a : Int × Int) : List (Int × Int) → List (Int × Int)
  | [] => [a]
  | b :: r => if b.1 < a.1 ∨ (b.1 = a.1 ∧ b.2 < a.2) then b :: insertEnd a r else a :: b :: r

/-- The ends of the segments in order, SA lines 72-79. -/
def ends : List Seg → List (Int × Int)
  | [] => []
  | s :: r =>
    let c : Int := if s.1.1.2 < s.1.2.2 then 1 else -1
    insertEnd (s.1.1.2, c) (insertEnd (s.1.2.2, -c) (ends r))

/-- The loop of `compute_histogram_in_y`, SA lines 81-89; the last element is `cur`. -/
def histGo : Hist → List (Int × Int) → List Hist
  | cur, [] => [cur]
  | cur, a :: r =>
    let out := if a.1 ≠ cur.1 then [cur] else []
    let cur : Hist := (a.1, cur.2)
    let cur : Hist := if a.2 < 0 then (cur.1, (cur.2.1, cur.2.2 - a.2)) else cur
    let cur : Hist := (cur.1, (cur.2.1 + a.2, cur.2.2))
    out ++ histGo cur r

/-- `compute_histogram_in_y`, SA lines 70-90. -/
def histogram (L : List Seg) : List Hist :=
  match ends L with
  | [] => []
  | a :: r => histGo (a.1, (0, 0)) (a :: r)

/-- The loop of `compute_y_cuts`, SA lines 96-110: `(min_cut, cut_size)`. -/
def bestCut (n : Nat) : Nat → Int × Nat → List Hist → Int × Nat
  | _, b, [] => b
  | pos, b, h :: r =>
    if pos < n / 3 then bestCut n (pos + 1) b r
    else if n - pos < n / 3 then b
    else if h.2.1 < b.1 then bestCut n (pos + 1) (h.2.1, pos) r
    else bestCut n (pos + 1) b r

/-- `compute_y_cuts`, SA lines 92-116. The number bounds the depth of the recursion; the length of the list is
enough, because both recursive calls are made on shorter lists. -/
def yCuts : Nat → List Hist → Int → List Int
  | 0, _, _ => []
  | n + 1, h, size =>
    if h.isEmpty then []
    else if size < 30 then []
    else
      let b := bestCut h.length 0 (size, 0) h
      match h[b.2]? with
      | none => []
      | some c =>
        if b.2 = 0 ∨ c.2.1 > size / 9 then []
        else yCuts n (h.take b.2) (c.2.1 + c.2.2) ++ c.1 :: yCuts n (h.drop b.2) (size - c.2.2)

/-- SA lines 130-139: the segment is put into the bins from the one before `lower_bound` of its lowest ordinate up to
the last one not above its highest ordinate. -/
def inBin (keys : List Int) (i : Nat) (e : HE) : Bool :=
  let lb := (keys.takeWhile (fun k => decide (k < min e.1.2 e.2.2))).length
  let lb := if lb ≠ 0 then lb - 1 else lb
  let ub := (keys.takeWhile (fun k => decide (k ≤ max e.1.2 e.2.2))).length
  decide (lb ≤ i) && decide (i < ub)

/-- SA lines 141-144: the bins, each with its `min_y`. -/
def scanBins (fp : FP) (keys : List Int) (L : List Seg) : Nat → List Int → Pts → Pts
  | _, [], ip => ip
  | i, k :: r, ip => scanBins fp keys L (i + 1) r (validate fp k (L.filter (fun s => inBin keys i s.1)) ip)

/-- `validate_scan_divide_and_conquer`, SA lines 118-145. -/
def divide (fp : FP) (umin : Int) (L : List Seg) : Pts :=
  let h := histogram L
  match h with
  | [] => fun _ => []
  | h0 :: _ =>
    let cuts := yCuts h.length h L.length
    scanBins fp (h0.1 :: cuts) L 0 (umin :: cuts) (fun _ => [])

/-! ### Cutting -/

/-- `less_point_down_slope`, SA lines 319-332. -/
def lessDown (a b : Pt) : Bool := if a.1 < b.1 then true else if a.1 = b.1 then decide (a.2 > b.2) else false

/-- Insertion into a list sorted by `less_point_down_slope`. -/
def insertDown (a : Pt) : List Pt → List Pt
  | [] => [a]
  | b :: r => if lessDown b a then b :: insertDown a r else a :: b :: r

/-- `polygon_sort(tmpPts.begin(), tmpPts.end(), lpds)`, SA line 366: the algorithm is not modelled. -/
def sortDown : List Pt → List Pt
  | [] => []
  | a :: r => insertDown a (sortDown r)

/-- `segment_edge`, SA lines 334-345: consecutive points. -/
def chain : List Pt → List HE
  | a :: b :: r => (a, b) :: chain (b :: r)
  | _ => []

/-- `segment_intersections` for one segment, SA lines 352-371. -/
def pieces (e : HE) (pts : List Pt) : List HE :=
  if !isVertical e && lessSlope e.1 e.2 (e.1.1 + 1, e.1.2) then chain (sortDown pts) else chain pts

/-- SA lines 241-256: the properties and the count of a piece of an input segment. -/
def finish (ev : Ev) (p : HE) : Ev :=
  let c := ev.2.2
  let c := if lessPoint p.1 p.2 ≠ lessPoint ev.1.1 ev.1.2 then c * -1 else c
  let c := if !isVertical ev.1 && isVertical p then c * -1 else c
  if lessPoint p.2 p.1 then ((p.2, p.1), (ev.2.1, c)) else (p, (ev.2.1, c))

/-- The segments with their indices, from `i` on. -/
def number : Nat → List Ev → List Seg
  | _, [] => []
  | i, ev :: r => (ev.1, i) :: number (i + 1) r

/-- SA lines 240-257 for the segments from index `i` on. -/
def cutGo (ip : Pts) : Nat → List Ev → List Ev
  | _, [] => []
  | i, ev :: r => (pieces ev.1 (ip i)).map (finish ev) ++ cutGo ip (i + 1) r

/-- `validate_scan(output_segments, begin, end)` with properties, SA lines 229-280. -/
def cut (fp : FP) (umin : Int) (E : List Ev) : List Ev := cutGo (divide fp umin (number 0 E)) 0 E

/-- `arbitrary_boolean_op::insert`, SA lines 2643-2650. -/
def tag (k : Int) (D : Data) : List Ev := D.map (fun e => (e.1, (k, e.2)))

/-- `arbitrary_boolean_op::execute`, SA lines 2606-2638. -/
def execute (fp : FP) (op : Nat) (umin umax : Int) (A B : Data) : Option Data :=
  let pmd := tag 0 A ++ tag 1 B
  if pmd.isEmpty then some []
  else sortScan op umin umax (cut fp umin pmd)

/-- `execute_boolean_op`, `/repo/include/boost/polygon/detail/polygon_set_view.hpp` (PSV) lines 88-122, with
`insert_into_view_arg`, PSV lines 182-189. The operators `|`, `&`, `^`, `-` are the views of PSV lines 124-160, the
assignments `|=` and so on PSV lines 191-200. -/
def boolOp (fp : FP) (op : Nat) (umin umax : Int) (A B : Data) : Option Data :=
  execute fp op umin umax (insertSet [] A false) (insertSet [] B false)

/-- `operator==`, PSV lines 208-216; `equivalence`, `polygon_set_concept.hpp` lines 91-98. -/
def setEq (fp : FP) (umin umax : Int) (A B : Data) : Option Bool := (boolOp fp 2 umin umax A B).map List.isEmpty

/-- The value of an expression in the operators; a `polygon_set_view` is evaluated when it is read. -/
def evalExpr (fp : FP) (umin umax : Int) : Spec.Arb.Expr → Option Data
  | .set D => some D
  | .op k l r => do boolOp fp k umin umax (← evalExpr fp umin umax l) (← evalExpr fp umin umax r)

/-- `clean()` of a set that is dirty, PSV lines 14-41. `D` is the data after `sort()`. -/
def clean (fp : FP) (umin umax : Int) (D : Data) : Option Data := execute fp 0 umin umax D []

end Verif.Cut
