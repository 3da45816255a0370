import Verif.Model.Contains
/-!
# Model of the arbitrary-angle Boolean scan

`ABF` is `/repo/include/boost/polygon/detail/polygon_arbitrary_formation.hpp`, `SA` is
`/repo/include/boost/polygon/detail/scan_arbitrary.hpp`.

Coordinates and counts are unbounded integers; the 64-bit arithmetic of the slope predicates is the
subject of C34. `umax` is `numeric_limits<Unit>::max()`. A `std::map`/`std::set` is the list of
its elements in order: `lower_bound` is the first element that does not compare less, `insert` puts the
element there unless the element found is equivalent. An iterator is an index, `end()` is the length.
-/
namespace Verif.Arb
open Verif.Contains

abbrev Pt := Int × Int
/-- `half_edge`, ABF line 23: a pair of points. -/
abbrev HE := Pt × Pt
/-- `property_map`, SA line 965: pairs (property, count) in increasing order of the property. -/
abbrev PMap := List (Int × Int)
/-- `vertex_property`, SA line 967: a half edge with a property and a count. -/
abbrev Ev := HE × (Int × Int)
/-- An element of `scanline_type`, SA line 979. -/
abbrev SD := List (HE × PMap)

/-! ### `scanline_base` -/

/-- `d < 0 ? -d : d`. -/
def absZ (d : Int) : Int := if d < 0 then -d else d

/-- `equal_slope(dx1, dy1, dx2, dy2)`, ABF lines 57-70. -/
def equalSlopeD (dx1 dy1 dx2 dy2 : Int) : Bool :=
  let cross1 := absZ dx2 * absZ dy1
  let cross2 := absZ dx1 * absZ dy2
  cross1 == cross2 && (sgn dx2 * sgn dy1 == sgn dx1 * sgn dy2 || cross1 == 0)

/-- `equal_slope(x, y, pt1, pt2)`, ABF lines 77-86. -/
def equalSlope (p p1 p2 : Pt) : Bool := equalSlopeD (p1.1 - p.1) (p1.2 - p.2) (p2.1 - p.1) (p2.2 - p.2)

/-- The last part of `less_slope`, ABF lines 105-117. -/
def lessSlopeR (dx1 dy1 dx2 dy2 : Int) : Bool :=
  let cross1 := absZ dx2 * absZ dy1
  let cross2 := absZ dx1 * absZ dy2
  let s1 := sgn dx2 * sgn dy1
  let s2 := sgn dx1 * sgn dy2
  if s1 < s2 then true
  else if s2 < s1 then false
  else if s1 = -1 then decide (cross2 < cross1)
  else decide (cross1 < cross2)

/-- `less_slope(dx1, dy1, dx2, dy2)`, ABF lines 88-118. -/
def lessSlopeD (dx1 dy1 dx2 dy2 : Int) : Bool :=
  if dx1 = 0 then false
  else
    let (dx1, dy1) := if dx1 < 0 then (dx1 * -1, dy1 * -1) else (dx1, dy1)
    if dx2 = 0 then decide (dx1 ≠ 0)
    else
      let (dx2, dy2) := if dx2 < 0 then (dx2 * -1, dy2 * -1) else (dx2, dy2)
      lessSlopeR dx1 dy1 dx2 dy2

/-- `less_slope(x, y, pt1, pt2)`, ABF lines 120-131. -/
def lessSlope (p p1 p2 : Pt) : Bool := lessSlopeD (p1.1 - p.1) (p1.2 - p.2) (p2.1 - p.1) (p2.2 - p.2)

/-- `on_above_or_below`, ABF lines 134-143: -1 below, 0 on and 1 above. -/
def oab (pt : Pt) (he : HE) : Int :=
  if pt = he.1 ∨ pt = he.2 then 0
  else if equalSlope pt he.1 he.2 then 0
  else
    let r : Int := if lessSlope pt he.1 he.2 then -1 else 1
    let r := if lessPoint he.2 he.1 then r * -1 else r
    if !between pt he.1 he.2 then r * -1 else r

/-- `is_vertical`, ABF lines 259-261. -/
def isVertical (he : HE) : Bool := he.1.1 == he.2.1

/-- The `y` of an end point of the edge at `x`, if it has one there: ABF lines 301-318. -/
def yEnd (x : Int) (e : HE) : Option Int :=
  if x = e.1.1 then some e.1.2 else if x = e.2.1 then some e.2.2 else none

/-- `less_half_edge::operator()`, ABF lines 292-345. -/
def lessHE (x : Int) (jb : Bool) (e f : HE) : Bool :=
  if max e.1.2 e.2.2 < min f.1.2 f.2.2 then true
  else if min e.1.2 e.2.2 > max f.1.2 f.2.2 then false
  else
    match yEnd x e, yEnd x f with
    | some y1, some y2 =>
      if y1 < y2 then true
      else if y1 = y2 then
        if e = f then false
        else xor jb (lessSlopeD (e.2.1 - e.1.1) (e.2.2 - e.1.2) (f.2.1 - f.1.1) (f.2.2 - f.1.2))
      else false
    | _, _ =>
      if oab e.1 f = oab e.2 f then decide (oab e.1 f = -1)
      else decide (oab f.1 e = 1)

/-! ### Property maps -/

/-- `merge_property_maps`, SA lines 1241-1273. -/
def mergeMaps : PMap → PMap → PMap
  | [], m2 => m2
  | m1, [] => m1
  | a :: r, b :: s =>
    if a.1 < b.1 then a :: mergeMaps r (b :: s)
    else if a.1 > b.1 then b :: mergeMaps (a :: r) s
    else if a.2 + b.2 ≠ 0 then (a.1, a.2 + b.2) :: mergeMaps r s
    else mergeMaps r s
  termination_by m1 m2 => m1.length + m2.length

/-- `update_property_map`, SA lines 1275-1295. Once the new pair has been consumed the rest is copied. -/
def updateMap : PMap → Int × Int → PMap
  | [], d => [d]
  | a :: r, d =>
    if d.1 = a.1 then if d.2 + a.2 ≠ 0 then (d.1, d.2 + a.2) :: r else r
    else if d.1 < a.1 then d :: a :: r
    else a :: updateMap r d

/-- `set_unique_property`, SA lines 1297-1303. -/
def posSet (m : PMap) : List Int := (m.filter (fun a => decide (a.2 > 0))).map Prod.fst

/-! ### The Boolean output -/

/-- The membership test of one side: SA lines 2551-2586 (0 or, 1 and, 2 xor, otherwise subtract). -/
def opVal (op : Nat) (ps : List Int) : Bool :=
  if op = 0 then !ps.isEmpty
  else if op = 1 then ps.length == 2
  else if op = 2 then ps.length == 1
  else ps.length == 1 && ps.head? == some 0

/-- `boolean_output_functor`, SA lines 2541-2588, with `insert_clean`
(`polygon_set_data.hpp` lines 179-190) for `is_hole = false`; the `is_45_` flag is not modelled. -/
def boolOut (op : Nat) (e : HE) (left right : List Int) : List (HE × Int) :=
  let c : Int := 1
  let c := if lessPoint e.2 e.1 then c * -1 else c
  let c := if isVertical e then c * -1 else c
  let ins (c : Int) : HE × Int := if lessPoint e.2 e.1 then ((e.2, e.1), c * -1) else (e, c)
  if op < 3 then
    if opVal op left && !opVal op right then [ins c]
    else if opVal op right && !opVal op left then [ins (c * -1)]
    else []
  else
    (if opVal op left then [ins c] else []) ++ (if opVal op right then [ins (c * -1)] else [])

/-- A `result_functor`, SA lines 1014-1026: what a call with an edge and the properties on its two sides adds
to the result. -/
abbrev RF (β : Type) := HE → List Int → List Int → List β

/-- `write_out`, SA lines 1014-1027. -/
def writeOut {β : Type} (rf : RF β) (e : HE) (left right : PMap) : List β :=
  if posSet left ≠ posSet right then rf e (posSet left) (posSet right) else []

/-! ### The scanline -/

/-- The vertical query edge at a point, SA lines 1060-1065 and 1180-1185. -/
def vhe (umax : Int) (p : Pt) : HE := (p, (p.1, if p.2 ≠ umax then p.2 + 1 else p.2 - 1))

/-- `scan_data_.lower_bound`. -/
def lowerBound (lt : HE → Bool) (sd : SD) : Nat := (sd.takeWhile (fun a => lt a.1)).length

/-- SA lines 1071-1074: step back to the last element strictly below the point, or to the first one. -/
def walkDown (sd : SD) (pt : Pt) : Nat → Nat
  | 0 => 0
  | n + 1 => match sd[n + 1]? with
    | none => n + 1
    | some a => if oab pt a.1 ≠ 1 then walkDown sd pt n else n + 1

/-- SA lines 1053-1084: the properties below the point and the new iterator. -/
def findBelow (umax : Int) (sd : SD) (pt : Pt) (cur : Nat) : Nat × PMap :=
  match sd[cur]? with
  | none => (cur, [])
  | some a =>
    let cur := if oab pt a.1 ≠ 0 then lowerBound (fun e => lessHE pt.1 true e (vhe umax pt)) sd else cur
    if cur < sd.length then
      let cur := walkDown sd pt cur
      match sd[cur]? with
      | none => (cur, [])
      | some b => if oab pt b.1 ≠ 1 then (cur, []) else (cur + 1, b.2)
    else (cur, [])

/-- SA lines 1086-1092: skip the elements through the point. -/
def skipOn (sd : SD) (pt : Pt) (cur : Nat) : Nat :=
  cur + ((sd.drop cur).takeWhile (fun a => oab pt a.1 == 0)).length

/-- SA lines 1103-1112: accumulate the counts of the new edges and write them out. -/
def accum {β : Type} (rf : RF β) : PMap → List (HE × PMap) → List (HE × PMap) × List β
  | _, [] => ([], [])
  | below, (e, m) :: r =>
    let m' := mergeMaps m below
    let w := writeOut rf e m' below
    let (s, o) := accum rf m' r
    ((e, m') :: s, w ++ o)

/-- The local variables of `handle_input_events`, SA lines 1033-1042, with the insertion set and the
output written so far. -/
structure HS (β : Type) where
  evs : List Ev
  cur : Nat
  y : Int
  first : Bool
  vAbove : PMap
  vBelow : PMap
  eAbove : HE
  eBelow : HE
  els : List (HE × PMap)
  ins : List (HE × PMap)
  out : List β

/-- The test of SA lines 1049-1050: all events at the current point have been read. -/
def HS.atEnd {β : Type} (x : Int) (s : HS β) : Bool :=
  match s.evs with
  | [] => true
  | ev :: _ => !s.first && (ev.1.1.2 != s.y || ev.1.1.1 != x)

/-- SA lines 1053-1112. -/
def HS.point {β : Type} (rf : RF β) (umax x : Int) (sd : SD) (s : HS β) : HS β :=
  let pt : Pt := (x, s.y)
  let (cur, below) := findBelow umax sd pt s.cur
  let cur := skipOn sd pt cur
  let vb := mergeMaps s.vBelow below
  let w := if !s.vBelow.isEmpty then writeOut rf s.eBelow below vb else []
  let (el, o) := accum rf vb s.els
  { s with cur := cur, vBelow := vb, els := el, ins := s.ins ++ el, out := s.out ++ w ++ o }

/-- SA lines 1113 and 1049: no more events in this column. -/
def colEnd (x : Int) (evs : List Ev) : Bool :=
  match evs with
  | [] => true
  | ev :: _ => ev.1.1.1 != x

/-- SA lines 1118-1121 and 1125-1128. -/
def HS.shift {β : Type} (s : HS β) : HS β := { s with vBelow := s.vAbove, vAbove := [], eBelow := s.eAbove, els := [] }

/-- SA lines 1140-1149: take one event. -/
def HS.take {β : Type} (s : HS β) (ev : Ev) (r : List Ev) : HS β :=
  if isVertical ev.1 then
    { s with evs := r, first := false, y := ev.1.1.2, vAbove := updateMap s.vAbove ev.2, eAbove := ev.1 }
  else
    match s.els.getLast? with
    | some (e, m) =>
      if e = ev.1 then
        { s with evs := r, first := false, y := ev.1.1.2, els := s.els.dropLast ++ [(e, updateMap m ev.2)] }
      else { s with evs := r, first := false, y := ev.1.1.2, els := s.els ++ [(ev.1, updateMap [] ev.2)] }
    | none => { s with evs := r, first := false, y := ev.1.1.2, els := s.els ++ [(ev.1, updateMap [] ev.2)] }

/-- What follows the test at the top of the loop, SA lines 1130-1151; `k` is the next iteration. -/
def HS.read {β : Type} (s : HS β) (k : HS β → Option (HS β)) : Option (HS β) :=
  match s.evs with
  | [] => k s
  | ev :: r =>
    if !s.vBelow.isEmpty && decide (s.eBelow.2.2 < ev.1.1.2) then k { s with y := s.eBelow.2.2, first := false }
    else k (s.take ev r)

/-- The loop of `handle_input_events`, SA lines 1048-1152. The number bounds the iterations; `none`
means the bound was too small. -/
def handle {β : Type} (rf : RF β) (umax x : Int) (sd : SD) : Nat → HS β → Option (HS β)
  | 0, _ => none
  | n + 1, s =>
    if s.atEnd x then
      let s := s.point rf umax x sd
      if colEnd x s.evs then
        if s.vAbove.isEmpty then some s
        else handle rf umax x sd n { s.shift with y := s.eAbove.2.2 }
      else s.shift.read (handle rf umax x sd n)
    else s.read (handle rf umax x sd n)

/-- Erase the elements of the removal set, SA lines 1159-1166. -/
def eraseAll (sd : SD) (rm : List HE) : SD := sd.filter (fun a => !rm.contains a.1)

/-- `remove_retired_edges_from_scanline` with `x_ = cx`, SA lines 1169-1196; the second component is the
end point queue that remains. -/
def retire (umax cx : Int) : List Pt → SD → List HE → Int → SD × List Pt
  | [], sd, rm, _ => (eraseAll sd rm, [])
  | p :: q, sd, rm, px =>
    if p.1 ≤ cx then
      let (sd, rm) := if p.1 ≠ px then (eraseAll sd rm, []) else (sd, rm)
      let c := (sd.drop (lowerBound (fun e => lessHE p.1 true e (vhe umax p)) sd)).takeWhile (fun a => a.1.2 == p)
      retire umax cx q sd (rm ++ c.map Prod.fst) p.1
    else (eraseAll sd rm, p :: q)

/-- `scan_data_.insert`. -/
def mapInsert (x : Int) (sd : SD) (a : HE × PMap) : SD :=
  let i := lowerBound (fun e => lessHE x false e a.1) sd
  match sd[i]? with
  | none => sd ++ [a]
  | some b => if lessHE x false a.1 b.1 then sd.take i ++ a :: sd.drop i else sd

/-- `end_point_queue_.insert`. -/
def queueInsert : List Pt → Pt → List Pt
  | [], p => [p]
  | a :: r, p => if lessPoint a p then a :: queueInsert r p else if lessPoint p a then p :: a :: r else a :: r

/-- `insert_new_edges_into_scanline`, SA lines 1198-1206. -/
def insertNew (x : Int) (sd : SD) (q : List Pt) (ins : List (HE × PMap)) : SD × List Pt :=
  (ins.foldl (mapInsert x) sd, (ins.map (fun a => a.1.2)).foldl queueInsert q)

/-- The state of `handle_input_events` on entry. -/
def HS.init {β : Type} (umin : Int) (evs : List Ev) : HS β :=
  { evs := evs, cur := 0, y := umin, first := true, vAbove := [], vBelow := [], eAbove := ((0, 0), (0, 0)),
    eBelow := ((0, 0), (0, 0)), els := [], ins := [], out := [] }

/-- `scan`, SA lines 1211-1226 (the final removal has no effect on the output). The number bounds the
stops of the scanline. -/
def scanGo {β : Type} (rf : RF β) (umin umax : Int) : Nat → List Ev → SD → List Pt → List β → Option (List β)
  | _, [], _, _, out => some out
  | 0, _, _, _, _ => none
  | n + 1, ev :: r, sd, q, out => do
    let x := ev.1.1.1
    let (sd, q) := retire umax (x - 1) q sd [] (x - 1)
    let s ← handle rf umax x sd (2 * (ev :: r).length + 3) (HS.init umin (ev :: r))
    let (sd, q) := retire umax x q sd [] x
    let (sd, q) := insertNew x sd q s.ins
    scanGo rf umin umax n s.evs sd q (out ++ s.out)

/-- `scanline::scan` on sorted events: what the calls of the functor add, in order. -/
def scan {β : Type} (rf : RF β) (umin umax : Int) (evs : List Ev) : Option (List β) :=
  scanGo rf umin umax evs.length evs [] [] []

/-- `less_vertex_data`, SA lines 2526-2534. -/
def lessVertexData (a b : Ev) : Bool :=
  if lessPoint a.1.1 b.1.1 then true
  else if lessPoint b.1.1 a.1.1 then false
  else lessHE a.1.1.1 false a.1 b.1

/-- Insertion into a sorted list of events. -/
def insertEv (a : Ev) : List Ev → List Ev
  | [] => [a]
  | b :: r => if lessVertexData b a then b :: insertEv a r else a :: b :: r

/-- `sort_property_merge_data`, SA lines 2585-2588: `polygon_sort` with `less_vertex_data`. The algorithm of
the sort is not modelled; the theorems hold for every sorted order of the events. -/
def sortEv : List Ev → List Ev
  | [] => []
  | a :: r => insertEv a (sortEv r)

/-- `arbitrary_boolean_op::execute`, SA lines 2601-2632, after the segments have been split: sort and scan. -/
def sortScan (op : Nat) (umin umax : Int) (evs : List Ev) : Option (List (HE × Int)) := scan (boolOut op) umin umax (sortEv evs)

end Verif.Arb
