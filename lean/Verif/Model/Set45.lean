import Verif.Model.Scan45
import Verif.Model.Set90
import Verif.Model.Polygon
/-!
# Model: `polygon_45_set_data`

Line numbers refer to include/boost/polygon/polygon_45_set_data.hpp unless a file is named; PF is
detail/polygon_45_formation.hpp. Coordinates are unbounded integers; `umin` and `umax` stand for
`numeric_limits<Unit>::min` and `max` where the code mentions them. The precision exception of the scanline is an
outcome of its own: what the set does when it catches it (1584-1654, 1695-1759: the operation is done over at twice
the scale, polygons are formed and vertices off the grid are squared off) is not modelled.
-/
namespace Verif.Set45
open Verif.Deg45 Verif.Polygon Verif.Rectangle

/-- `Vertex45Compact`, PF 490-524: a point with the counts of the half lines that leave it down-right, right,
up-right and up. -/
abbrev VC := Vert Int

/-- `Vertex45CountT::is_45`, PF 474-476. -/
def is45 (q : Quad Int) : Bool := q.n != 0 || q.p != 0

/-- `Vertex45CountT::invert`, PF 468-470. -/
def invert (q : Quad Int) : Quad Int := ⟨-q.n, -q.z, -q.p, -q.v⟩

/-- `counts[rise+1] = c` in counts that are zero, PF 496-502. -/
def single (rise c : Int) : Quad Int :=
  if rise = -1 then ⟨c, 0, 0, 0⟩ else if rise = 0 then ⟨0, c, 0, 0⟩ else if rise = 1 then ⟨0, 0, c, 0⟩ else ⟨0, 0, 0, c⟩

/-- `Vertex45CompactT::operator<`, PF 508-514. -/
def ltVC (a b : VC) : Bool := a.1.1 < b.1.1 || (a.1.1 == b.1.1 && a.1.2 < b.1.2)

/-- `polygon_sort(data_.begin(), data_.end())`: a sorting function; vertices at one point may end in any
order, which no theorem depends on. -/
def sortVC (L : List VC) : List VC := L.insertionSort (fun a b => ltVC b a = false)

/-- `Vertex45T::operator<`, detail/boolean_op_45.hpp 281-288. -/
def ltV45 (a b : V45) : Bool :=
  a.pt.1 < b.pt.1 || (a.pt.1 == b.pt.1 && (a.pt.2 < b.pt.2 || (a.pt.2 == b.pt.2 && a.rise < b.rise)))

/-- `polygon_sort(eventOut.begin(), eventOut.end())`, 1267. -/
def sortV45 (L : List V45) : List V45 := L.insertionSort (fun a b => ltV45 b a = false)

/-! ### The operations on vectors -/

/-- What `applyBoolean45OpOnVectors` has written so far: the result, last vertex first, `ptCount` and
`result_is_manhattan_`. -/
structure Acc where
  res : List VC
  cnt : Nat
  manh : Bool
  deriving DecidableEq, Repr

/-- 1283-1285: a last vertex that two events have left without counts is taken away. -/
def Acc.drop (s : Acc) : Acc :=
  match s.res with
  | v :: r => if s.cnt = 2 ∧ v.2 = ⟨0, 0, 0, 0⟩ then { s with res := r } else s
  | [] => s

/-- 1269-1282: one event of the output. -/
def Acc.put (s : Acc) (e : V45) : Acc :=
  match s.res with
  | v :: r =>
      if v.1 = e.pt then ⟨(v.1, v.2.add (single e.rise e.count)) :: r, s.cnt + 1, s.manh⟩
      else ⟨(e.pt, single e.rise e.count) :: s.drop.res, 1, s.manh && !is45 v.2⟩
  | [] => ⟨[(e.pt, single e.rise e.count)], 1, s.manh⟩

/-- 1267-1285: the events of one call of the scanline; `ptCount` starts at 0. -/
def Acc.putAll (s : Acc) (out : List V45) : Acc := ((sortV45 out).foldl Acc.put { s with cnt := 0 }).drop

/-- The locals of the loop of 1257-1325: the scanline, the result, `eventIn` and `x`, which is `none` as long as it has its
starting value (`UnitMax`; a first vertex with this abscissa only saves a scan of no vertices). -/
structure Run (C : Type) where
  st : St C
  acc : Acc
  evIn : List (Vert C)
  x : Option Int

/-- 1263-1287: scans the vertices of one abscissa. -/
def Run.flush {C : Type} [AddCommGroup C] [DecidableEq C] (g : C → Bool) (s : Run C) : Except Err (Run C) :=
  match scan g s.st s.evIn [] with
  | .error e => .error e
  | .ok (st, out) => .ok ⟨st, s.acc.putAll out, [], s.x⟩

/-- The loop of 1257-1325 over the vertices in the order in which they are taken, and the last scan,
1326-1354. -/
def Run.feed {C : Type} [AddCommGroup C] [DecidableEq C] (g : C → Bool) : Run C → List (Vert C) → Except Err (Run C)
  | s, [] => s.flush g
  | s, v :: vs =>
      if s.x ≠ some v.1.1 then
        match s.flush g with
        | .error e => .error e
        | .ok t => Run.feed g { t with evIn := [v], x := some v.1.1 } vs
      else Run.feed g { s with evIn := s.evIn ++ [v] } vs

/-- 1350-1354: the result and whether it is Manhattan. -/
def finish (s : Acc) : List VC × Bool :=
  (s.res.reverse, s.manh && (match s.res with | v :: _ => !is45 v.2 | [] => true))

/-- Runs the scanline over vertices in order. -/
def runOn {C : Type} [AddCommGroup C] [DecidableEq C] (g : C → Bool) (umin : Int) (vs : List (Vert C)) :
    Except Err (List VC × Bool) :=
  match Run.feed g ⟨⟨[], [], umin⟩, ⟨[], 0, true⟩, [], none⟩ vs with
  | .error e => .error e
  | .ok s => .ok (finish s.acc)

/-- The counts of a vertex of the first set, 1305-1308. -/
def left (v : VC) : Vert (Int × Int) := (v.1, ⟨(v.2.n, 0), (v.2.z, 0), (v.2.p, 0), (v.2.v, 0)⟩)
/-- The counts of a vertex of the second set, 1293-1296. -/
def right (v : VC) : Vert (Int × Int) := (v.1, ⟨(0, v.2.n), (0, v.2.z), (0, v.2.p), (0, v.2.v)⟩)
/-- The counts of a point with a vertex of either set, 1315-1322. -/
def both (v w : VC) : Vert (Int × Int) := (w.1, ⟨(v.2.n, w.2.n), (v.2.z, w.2.z), (v.2.p, w.2.p), (v.2.v, w.2.v)⟩)

/-- The order in which the vertices of two sets are taken, 1289-1324. -/
def merge2 : List VC → List VC → List (Vert (Int × Int))
  | [], r => r.map right
  | l, [] => l.map left
  | v :: l, w :: r =>
      if ltVC w v then right w :: merge2 (v :: l) r
      else if ltVC v w then left v :: merge2 l (w :: r)
      else both v w :: merge2 l r
  termination_by l r => l.length + r.length

/-- `applyBoolean45OpOnVectors`, 1239-1355. -/
def boolean45 (g : Int × Int → Bool) (umin : Int) (l r : List VC) : Except Err (List VC × Bool) :=
  runOn g umin (merge2 l r)

/-- `applyUnary45OpOnVectors`, 1357-1443. -/
def unary45 (g : Int → Bool) (umin : Int) (l : List VC) : Except Err (List VC × Bool) := runOn g umin l

/-- `applyLogic` of one operation and two counts, detail/boolean_op_45.hpp 370-391. -/
def logic2 (op : Nat) (c : Int × Int) : Bool :=
  if op = 0 then c.1 > 0 || c.2 > 0 else if op = 1 then c.1 > 0 && c.2 > 0
  else if op = 2 then c.1 > 0 && !(c.2 > 0) else if op = 3 then (c.1 > 0) ^^ (c.2 > 0) else false

/-- `applyLogic` of one operation and one count, detail/boolean_op_45.hpp 407-423; `%` rounds towards zero. -/
def logic1 (op : Nat) (c : Int) : Bool :=
  if op = 0 then c > 0 else if op = 1 then c > 1 else if op = 3 then c.tmod 2 != 0 else false

/-! ### The set -/

/-- The members, 303-308. -/
structure S45 where
  err : List VC
  data : List VC
  dirty : Bool
  unsorted : Bool
  manh : Bool
  deriving DecidableEq, Repr

/-- The default constructor, 36. -/
def S45.new : S45 := ⟨[], [], false, false, true⟩

/-- `sort`, 206-211. -/
def S45.sort (s : S45) : S45 := if s.unsorted then { s with data := sortVC s.data, unsorted := false } else s

/-- `characterizeEdge45`, 464-491: the direction of an edge and the sign of its count. -/
def charEdge (a b : P) : Int × Int :=
  if a.1 = b.1 then (2, -1)
  else if a.2 = b.2 then (0, 1)
  else if a.1 < b.1 then (if a.2 < b.2 then (1, 1) else (-1, 1))
  else (if a.2 < b.2 then (-1, 1) else (1, 1))

/-- `insert_vertex_half_edge_45_pair_into_vector`, 493-511: the vertex between two edges; `m` is -1 for
clockwise polygons and 1 otherwise. -/
def halfPair (p1 p2 p3 : P) (m : Int) : VC :=
  (p2, (single (charEdge p1 p2).1 ((charEdge p1 p2).2 * -m)).add (single (charEdge p2 p3).1 ((charEdge p2 p3).2 * m)))

/-- 545-557: the vertices after the first two; the last two points come back. -/
def seqLoop (m : Int) : P → P → List P → List VC × P × P
  | pp, p, [] => ([], pp, p)
  | pp, p, q :: r =>
      if q = p then seqLoop m pp p r
      else let (l, a, b) := seqLoop m p q r; (halfPair pp p q m :: l, a, b)

/-- `insert_vertex_sequence`, 521-566: the vertices it adds; `none` if it returns at once. -/
def seqVertices (pts : List P) (m : Int) : Option (List VC) :=
  match pts with
  | [] => none
  | first :: r =>
    match r.dropWhile (fun q => decide (q = first)) with
    | [] => none
    | second :: r2 =>
        let (l, pp, p) := seqLoop m first second r2
        some (l ++ if p ≠ first then [halfPair pp p first m, halfPair p first second m]
          else [halfPair pp first second m])

/-- `insert_vertex_sequence`, 521-566; `wind` is `true` for counter-clockwise (`HIGH`). -/
def S45.insertSeq (s : S45) (pts : List P) (wind isHole : Bool) : S45 :=
  match seqVertices pts (if (wind != isHole) then 1 else -1) with
  | none => s
  | some l => { s with data := s.data ++ l, manh := s.manh && l.all (fun v => !is45 v.2), dirty := true, unsorted := true }

/-- `insert` of a polygon, 384-398: the winding direction is that of the polygon (`polygon_traits.hpp`). -/
def S45.insertPoly (s : S45) (pts : List P) (isHole : Bool) : S45 :=
  s.insertSeq pts (windingQ pts == Isotropy.HIGH) isHole

/-- `insert` of a polygon with holes, 399-407. -/
def S45.insertHoles (s : S45) (pts : List P) (holes : List (List P)) (isHole : Bool) : S45 :=
  holes.foldl (fun s h => s.insertPoly h (!isHole)) (s.insertPoly pts isHole)

/-- `insert` of a rectangle, 617-639. -/
def S45.insertRect (s : S45) (r : Rect) (isHole : Bool) : S45 :=
  let m : Int := if isHole then -1 else 1
  let ll := (r.h.lo, r.v.lo); let lr := (r.h.hi, r.v.lo); let ul := (r.h.lo, r.v.hi); let ur := (r.h.hi, r.v.hi)
  { s with dirty := true, unsorted := true,
           data := s.data ++ [halfPair ll lr ur m, halfPair lr ur ul m, halfPair ur ul ll m, halfPair ul ll lr m] }

/-- `insert` of another set, 569-584. -/
def S45.insertSet (s t : S45) (isHole : Bool) : S45 :=
  { err := s.err ++ t.err, dirty := true, unsorted := true, manh := s.manh && t.manh
    data := s.data ++ if isHole then t.data.map (fun v => (v.1, invert v.2)) else t.data }

/-- `insert_clean` and `insert` of a vertex, 111-121. The result of `invert()` is not used, so `is_hole` has
no effect. -/
def S45.insertVertex (s : S45) (v : VC) (_isHole : Bool) : S45 :=
  { s with data := s.data ++ [v], manh := s.manh && !is45 v.2, dirty := true, unsorted := true }

/-- `insert` of a `polygon_90_set_data`, 123-144: the horizontal count is negated for holes, the vertical count is not. -/
def S45.insert90 (s : S45) (t : Set90.PSet) (isHole : Bool) : S45 :=
  { s with dirty := true, unsorted := true
           data := s.data ++ t.data.map (fun v =>
             (if t.orient = Isotropy.VERTICAL then (v.x, v.y) else (v.y, v.x), ⟨0, if isHole then -v.c else v.c, 0, v.c⟩)) }

/-- `set(value)`, 228-232: the flag for Manhattan data is left as it is. -/
def S45.setData (s : S45) (d : List VC) : S45 := { s with data := d, dirty := true, unsorted := true }

/-- The vertical edges as a `polygon_90_set_data`, 1543-1546. -/
def to90 (d : List VC) : Set90.PSet :=
  (d.filter (fun v => decide (v.2.v ≠ 0))).foldl (fun s v => s.insertVertex ⟨v.1.1, v.1.2, v.2.v⟩ false Isotropy.VERTICAL)
    (Set90.PSet.mk0 Isotropy.VERTICAL)

/-- The outcome of an operation: a set, an undefined access in the Manhattan code, or an exception of the scanline. -/
inductive Out where
  | ok (s : S45)
  | undef
  | fail (e : Err)
  deriving DecidableEq, Repr

/-- The functors of the Manhattan branch, 1557-1569; there is no other `op`. -/
def code90 (op : Nat) : Int → Int → Bool :=
  if op = 0 then BooleanOp.binaryOr else if op = 1 then BooleanOp.binaryAnd
  else if op = 2 then BooleanOp.binaryNot else BooleanOp.binaryXor

/-- `applyAdaptiveBoolean_<op>(rvalue)`, 1224-1233 and 1532-1583. -/
def S45.applyBool (op : Nat) (umin umax : Int) (s t : S45) : Out :=
  if s.manh && t.manh then
    match BooleanOp.applyBooleanBinaryOp (code90 op) umax (to90 s.data).sort.data (to90 t.data).sort.data with
    | none => .undef
    | some d => .ok { ({ S45.new with err := s.err ++ t.err }).insert90 ⟨Isotropy.VERTICAL, d, false, false⟩ false with
        dirty := false, unsorted := false, manh := true }
  else
    match boolean45 (logic2 op) umin s.sort.data t.sort.data with
    | .error e => .fail e
    | .ok (d, m) => .ok ⟨s.err ++ t.err, d, false, false, m⟩

/-- The Manhattan branch of `applyAdaptiveUnary_<op>`, 1667-1690. -/
def clean90 (op : Nat) (umin umax : Int) (s : Set90.PSet) : Option Set90.PSet :=
  if op = 0 then s.clean umax else if op = 1 then s.selfIntersect umin umax else if op = 3 then s.selfXor umax else some s

/-- `applyAdaptiveUnary_<op>()`, 1660-1694 and 1762-1768. -/
def S45.applyUnary (op : Nat) (umin umax : Int) (s : S45) : Out :=
  if s.manh then
    match clean90 op umin umax (to90 s.data).sort with
    | none => .undef
    | some p => .ok { ({ S45.new with err := s.err }).insert90 p false with dirty := false, unsorted := false, manh := true }
  else
    match unary45 (logic1 op) umin s.sort.data with
    | .error e => .fail e
    | .ok (d, m) => .ok ⟨s.err, d, false, false, m⟩

/-- `clean`, 1214-1221. -/
def S45.clean (umin umax : Int) (s : S45) : Out :=
  if s.sort.dirty then s.sort.applyUnary 0 umin umax else .ok s.sort

/-- `self_intersect` and `self_xor`, 280-293, with the number of the operation. -/
def S45.self (op : Nat) (umin umax : Int) (s : S45) : Out := s.sort.applyUnary op umin umax

/-- `operator|=` and `operator+=`, 694-697 and 709-711. -/
def S45.orAssign (s t : S45) : S45 := s.insertSet t false

/-- `operator==`, 162-166: both sets are cleaned first. -/
def S45.eq (umin umax : Int) (s t : S45) : Option Bool :=
  match s.clean umin umax, t.clean umin umax with
  | .ok a, .ok b => some (decide (a.data = b.data))
  | _, _ => none

/-- `empty`, 191. -/
def S45.empty (s : S45) : Bool := s.data.isEmpty

end Verif.Set45
