import Mathlib.Algebra.Group.Prod
import Mathlib.Algebra.Group.Int.Defs
/-!
# Model: the 45-degree scanline

Follows `detail/boolean_op_45.hpp`. A set of 45-degree geometry is a list of vertices; each vertex carries, for the
directions down-right, right, up-right and up, the change of the count across the half line that leaves the
vertex in that direction. The scanline turns such a list into the list for the result of an operation.

The type `C` of counts is `Int` for one set (`Count1`, 65-90) and `Int × Int` for two (`Count2`, 17-63).
Coordinates are unbounded integers, so the tests that drop crossings beyond the coordinate range (838, 866,
873) are left out.
-/
namespace Verif.Deg45

abbrev P := Int × Int

/-- The exception of 857-860, and two outcomes that stand for failures the C++ code would not report: a loop
that does not end and an iterator that is no longer in the set. -/
inductive Err where
  | precision | diverge | dangling
  deriving DecidableEq, Repr

/-- `Scan45CountT`, 197-251: the four counts of a vertex, for the slopes -1, 0 and 1 and the vertical. -/
structure Quad (C : Type) where
  n : C
  z : C
  p : C
  v : C
  deriving DecidableEq, Repr

/-- `Scan45Vertex`, 456. -/
abbrev Vert (C : Type) := P × Quad C

/-- `Scan45ElementT`, 97-117: an edge on the scanline, with a point on it, its slope and the count above it. -/
structure El (C : Type) where
  x : Int
  y : Int
  rise : Int
  count : C
  deriving DecidableEq, Repr

/-- `Vertex45T<int>`, 265-294: one direction of a vertex of the result; slope 2 is the vertical. -/
structure V45 where
  pt : P
  rise : Int
  count : Int
  deriving DecidableEq, Repr

variable {C : Type}

/-- `evalAtX`, 114-116. -/
def El.eval (e : El C) (x : Int) : Int := e.y + e.rise * (x - e.x)

/-- `lessScan45Element`, 178-193. -/
def less (x : Int) (justBefore : Bool) (a b : El C) : Bool :=
  if a.eval x < b.eval x then true
  else if a.eval x == b.eval x then (if justBefore then a.rise > b.rise else a.rise < b.rise)
  else false

/-- `applyLogic` of two counts, 360-369. -/
def edgeType (g : C → Bool) (c1 c2 : C) : Int :=
  if g c1 && !(g c2) then -1 else if !(g c1) && g c2 then 1 else 0

/-- The output functor, the second parameter of `Scan45`, 450: what a call with the counts below and above an edge, a
point of it, its slope and the end that the point is (`true` for `LOW`) writes. The scanline never reads what was written. -/
structure Fn (C O : Type) where
  call : C → C → P → Int → Bool → List O

variable {O : Type}

/-- A call of the functor, for example 405 and 437. -/
def emit (F : Fn C O) (out : List O) (c1 c2 : C) (pt : P) (rise : Int) (low : Bool) : List O :=
  out ++ F.call c1 c2 pt rise low

/-- `boolean_op_45_output_functor` and `unary_op_45_output_functor`, 393-405 and 425-437. -/
def opFn (g : C → Bool) : Fn C V45 :=
  ⟨fun c1 c2 pt rise low =>
    if edgeType g c1 c2 = 0 then [] else [⟨pt, rise, edgeType g c1 c2 * (if low then -1 else 1)⟩]⟩

instance : Coe (C → Bool) (Fn C V45) := ⟨opFn⟩

/-- Insertion into `CrossQueue`, the ordered set of points of 468-477. -/
def insertQ (p : P) : List P → List P
  | [] => [p]
  | q :: Q => if p.1 < q.1 ∨ (p.1 = q.1 ∧ p.2 < q.2) then p :: q :: Q
              else if p = q then q :: Q else q :: insertQ p Q

/-- `local_abs`, `polygon_traits.hpp` 742. -/
def localAbs (a : Int) : Int := if a < 0 then -a else a

/-- `scheduleCross0_`, 831-841; the first edge is horizontal. -/
def cross0 (x : Int) (a b : El C) (Q : List P) : List P :=
  insertQ (x + localAbs (a.eval x - b.eval x), a.eval x) Q

/-- `scheduleCross1_`, 844-878; the first edge has slope -1 and the second slope 1. -/
def cross1 (x : Int) (a b : El C) (Q : List P) : Except Err (List P) :=
  let y1 := a.eval x
  let y2 := b.eval x
  let delta := y1 - y2
  if delta % 2 = 1 then
    if delta = 1 then .error .precision
    else .ok (insertQ (x + delta.tdiv 2, y2 + delta.tdiv 2 + 1) (insertQ (x + delta.tdiv 2, y2 + delta.tdiv 2) Q))
  else .ok (insertQ (x + delta.tdiv 2, y2 + delta.tdiv 2) Q)

/-- The first half of `findCross_`, 883-897: the crossing with the edge below. -/
def crossBelow (x : Int) (below : Option (El C)) (e : El C) (Q : List P) : Except Err (List P) :=
  match below with
  | some b =>
      if e.rise < 1 then
        if e.rise = 0 then (if b.rise = 1 then .ok (cross0 x e b Q) else .ok Q)
        else if b.rise = 1 then cross1 x e b Q
        else if b.rise = 0 then .ok (cross0 x b e Q) else .ok Q
      else .ok Q
  | none => .ok Q

/-- The second half of `findCross_`, 898-914: the crossing with the edge above. -/
def crossAbove (x : Int) (e : El C) (above : Option (El C)) (Q : List P) : Except Err (List P) :=
  match above with
  | some a =>
      if e.rise > -1 then
        if e.rise = 0 then (if a.rise = -1 then .ok (cross0 x e a Q) else .ok Q)
        else if a.rise = -1 then cross1 x a e Q
        else if a.rise = 0 then .ok (cross0 x a e Q) else .ok Q
      else .ok Q
  | none => .ok Q

/-- `findCross_`, 880-916: looks for crossings of an edge with the one below it and the one above it. An iterator
is modelled by the element it points to together with its neighbours. -/
def findCross (x : Int) (below : Option (El C)) (e : El C) (above : Option (El C)) (Q : List P) :
    Except Err (List P) :=
  match crossBelow x below e Q with
  | .error err => .error err
  | .ok Q1 => crossAbove x e above Q1

/-- `lookUp_`, 918-921: the elements before the lower bound and those from it on. -/
def lookUp [Zero C] (x : Int) (justBefore : Bool) (y : Int) (L : List (El C)) : List (El C) × List (El C) :=
  let key : El C := ⟨x, y, if justBefore then 1 else -1, 0⟩
  (L.takeWhile (fun e => less x justBefore e key), L.dropWhile (fun e => less x justBefore e key))

/-- The search for the count below in `advance_`, 596-603: the elements below, nearest first. -/
def searchDown (x y : Int) : C → List (El C) → C
  | c, [] => c
  | _, e :: es => if e.eval x = y then searchDown x y e.count es else e.count

/-- 610-611: from the slot of the slope downwards. -/
def setDown (q : Quad C) (rise : Int) (c : C) : Quad C :=
  if rise = 1 then { q with n := c, z := c, p := c } else if rise = 0 then { q with n := c, z := c }
  else { q with n := c }

/-- 738-740: from the slot of the slope upwards. -/
def setUp (q : Quad C) (rise : Int) (c : C) : Quad C :=
  if rise = -1 then { q with n := c, z := c, p := c } else if rise = 0 then { q with z := c, p := c }
  else { q with p := c }

/-- 624-629: writes out the edges that end in a crossing. -/
def emitLows (F : Fn C O) (pt : P) : C → List (El C) → List O → List O
  | _, [], out => out
  | cur, e :: es, out => emitLows F pt e.count es (emit F out cur e.count pt e.rise true)

/-- The loop of `advance_`, 571-647, over the crossing points at the current abscissa. -/
def advanceLoop [AddCommGroup C] [DecidableEq C] (F : Fn C O) (x : Int) (L : List (El C)) :
    Nat → List P → List O → List (El C) → List (Vert C) →
      Except Err (List P × List O × List (El C) × List (Vert C))
  | 0, _, _, _, _ => .error .diverge
  | _ + 1, [], out, er, cv => .ok ([], out, er, cv)
  | k + 1, p :: Q, out, er, cv =>
      if p.1 ≠ x then .ok (p :: Q, out, er, cv) else
      let (lo, hi) := lookUp x true p.2 L
      match hi with
      | [] => advanceLoop F x L k Q out er cv
      | low :: above =>
          if low.eval x ≠ p.2 then advanceLoop F x L k Q out er cv else
          let below := searchDown x p.2 0 lo.reverse
          let grp := hi.takeWhile (fun e => decide (e.eval x = p.2))
          let cnt := grp.foldl (fun q e => setDown q e.rise e.count) (⟨below, below, below, below⟩ : Quad C)
          if grp.length = 1 then
            match findCross x lo.getLast? low above.head? Q with
            | .error e => .error e
            | .ok Q' => advanceLoop F x L k Q' out er cv
          else
            advanceLoop F x L k Q (emitLows F p below grp out) (er ++ grp)
              (cv ++ [(p, ⟨cnt.n - cnt.z, cnt.z - cnt.p, cnt.p - below, 0⟩)])

/-- One step of 650-659: erases an element and notes its predecessor. -/
def eraseOne [DecidableEq C] (s : List (El C) × List (El C)) (e : El C) : List (El C) × List (El C) :=
  let lo := s.1.takeWhile (fun f => decide (f ≠ e))
  let hi := (s.1.dropWhile (fun f => decide (f ≠ e))).tail
  (lo ++ hi,
    match lo.getLast? with
    | none => s.2
    | some p => if s.2.getLast? = some p then s.2 else s.2 ++ [p])

/-- `findCross_` of an element of the set. -/
def findCrossIn [DecidableEq C] (x : Int) (L : List (El C)) (e : El C) (Q : List P) : Except Err (List P) :=
  match L.dropWhile (fun f => decide (f ≠ e)) with
  | [] => .error .dangling
  | _ :: hi => findCross x (L.takeWhile (fun f => decide (f ≠ e))).getLast? e hi.head? Q

/-- 661-663. -/
def findAll [DecidableEq C] (x : Int) (L : List (El C)) : List (El C) → List P → Except Err (List P)
  | [], Q => .ok Q
  | e :: es, Q =>
      match findCrossIn x L e Q with
      | .error err => .error err
      | .ok Q' => findAll x L es Q'

/-- `advance_`, 567-664: the new scanline, crossing queue, output and crossing vertices. -/
def advance [AddCommGroup C] [DecidableEq C] (F : Fn C O) (x : Int) (L : List (El C)) (Q : List P)
    (out : List O) : Except Err (List (El C) × List P × List O × List (Vert C)) :=
  match advanceLoop F x L (Q.length + 1) Q out [] [] with
  | .error e => .error e
  | .ok (Q', out', er, cv) =>
      let s := er.foldl eraseOne (L, [])
      match findAll x s.1 s.2 Q' with
      | .error e => .error e
      | .ok Q'' => .ok (s.1, Q'', out', cv)

/-- The merge of `mergeCross_`, 667-691, for the input vertices at the current abscissa. -/
def mergeCross : List (Vert C) → List (Vert C) → List (Vert C)
  | [], ins => ins
  | v :: cv, ins =>
      ins.takeWhile (fun w => decide (w.1.2 < v.1.2)) ++ v ::
        mergeCross cv (ins.dropWhile (fun w => decide (w.1.2 < v.1.2)))

/-- `operator+=` of `Scan45CountT`, 229-234. -/
def Quad.add [Add C] (a b : Quad C) : Quad C := ⟨a.n + b.n, a.z + b.z, a.p + b.p, a.v + b.v⟩

/-- 715-721: adds the counts of the following vertices at the same point. -/
def accumulate [Add C] : Vert C → List (Vert C) → Vert C × List (Vert C)
  | v, [] => (v, [])
  | v, w :: ws => if w.1 = v.1 then accumulate (v.1, v.2.add w.2) ws else (v, w :: ws)

/-- 736-756: ends the edges that arrive at the point. `lo` is the scanline below the point; the result is the
count above the last edge, the counts by slope, the rest of the scanline, the queue and the output. -/
def endEdges (F : Fn C O) (x : Int) (pt : P) (lo : List (El C)) :
    List (El C) → C → Quad C → List P → List O → Except Err (Quad C × List (El C) × List P × List O)
  | [], _, at_, Q, out => .ok (at_, [], Q, out)
  | e :: hi, cur, at_, Q, out =>
      if e.eval x = pt.2 then
        let at' := setUp at_ e.rise e.count
        let out' := if (e.x, e.y) ≠ pt then emit F out cur e.count pt e.rise true else out
        match (match hi with
          | [] => Except.ok Q
          | f :: hi' => findCross x lo.getLast? f hi'.head? Q) with
        | .error err => .error err
        | .ok Q' => endEdges F x pt lo hi e.count at' Q' out'
      else .ok (at_, e :: hi, Q, out)

/-- Insertion into the ordered set of 466: the elements before, the element and those after. An equivalent
element keeps its place. -/
def insertEl (x : Int) (e : El C) (L : List (El C)) : List (El C) × El C × List (El C) :=
  let lo := L.takeWhile (fun f => less x false f e)
  match L.dropWhile (fun f => less x false f e) with
  | [] => (lo, e, [])
  | f :: hi => if less x false e f then (lo, e, f :: hi) else (lo, f, hi)

/-- One round of 770-783: starts an edge at the point if the count above it differs from the one below it. -/
def startEdge [DecidableEq C] (F : Fn C O) (pt : P) (rise : Int) (below c : C) (L : List (El C)) (Q : List P)
    (out : List O) : Except Err (List (El C) × List P × List O) :=
  if c = below then .ok (L, Q, out) else
  let (lo, e, hi) := insertEl pt.1 ⟨pt.1, pt.2, rise, c⟩ L
  match findCross pt.1 lo.getLast? e hi.head? Q with
  | .error err => .error err
  | .ok Q' => .ok (lo ++ e :: hi, Q', emit F out below c pt rise false)

/-- `lowIter->count` of the element below, 733-738. -/
def countBelow [Zero C] (lo : List (El C)) : C := match lo.getLast? with | none => 0 | some e => e.count

/-- 722-783: everything that happens at one point. -/
def stepAt [AddCommGroup C] [DecidableEq C] (F : Fn C O) (x : Int) (vtx : Vert C) (V : C) (prev : P)
    (L : List (El C)) (Q : List P) (out : List O) : Except Err (List (El C) × List P × List O × Option (El C)) :=
      let s0 := V + vtx.2.n
      let s1 := s0 + vtx.2.z
      let s2 := s1 + vtx.2.p
      let (lo, hi) := lookUp x false vtx.1.2 L
      let below := countBelow lo
      let base := below - V
      let out1 := if V ≠ 0 then
          emit F (emit F out base below prev 2 false) base below vtx.1 2 true else out
      match endEdges F x vtx.1 lo hi base ⟨base, base, base, base⟩ Q out1 with
      | .error err => .error err
      | .ok (at_, hi', Q1, out2) =>
          let c0 := s0 + at_.n
          let c1 := s1 + at_.z
          let c2 := s2 + at_.p
          match startEdge F vtx.1 (-1) below c0 (lo ++ hi') Q1 out2 with
          | .error err => .error err
          | .ok (L3, Q3, out3) =>
              match startEdge F vtx.1 0 c0 c1 L3 Q3 out3 with
              | .error err => .error err
              | .ok (L4, Q4, out4) =>
                  match startEdge F vtx.1 1 c1 c2 L4 Q4 out4 with
                  | .error err => .error err
                  | .ok (L5, Q5, out5) => .ok (L5, Q5, out5, hi'.head?)

/-- The vertex of the next round, 700-721. -/
def nextV [AddCommGroup C] [DecidableEq C] (x : Int) (w : Vert C) (ws : List (Vert C)) (V : C) (nxt : Option (El C)) :
    Vert C × List (Vert C) :=
  match nxt with
  | some e => if V ≠ 0 ∧ e.eval x < w.1.2 then (((x, e.eval x), ⟨0, 0, 0, 0⟩), w :: ws) else accumulate w ws
  | none => accumulate w ws

/-- The loop of `processEvent_`, 693-787. `V` is the count carried upwards by vertical edges, `prev` the
last point and `nxt` the first element above it. -/
def procLoop [AddCommGroup C] [DecidableEq C] (F : Fn C O) (x : Int) :
    Nat → List (Vert C) → List (El C) → List P → List O → C → P → Option (El C) →
      Except Err (List (Vert C) × List (El C) × List P × List O)
  | _, [], L, Q, out, _, _, _ => .ok ([], L, Q, out)
  | 0, _ :: _, _, _, _, _, _, _ => .error .diverge
  | k + 1, w :: ws, L, Q, out, V, prev, nxt =>
      if w.1.1 ≠ x then .ok (w :: ws, L, Q, out) else
      match stepAt F x (nextV x w ws V nxt).1 V prev L Q out with
      | .error err => .error err
      | .ok (L5, Q5, out5, nx) => procLoop F x k (nextV x w ws V nxt).2 L5 Q5 out5
          (V + (nextV x w ws V nxt).1.2.v) (nextV x w ws V nxt).1.1 nx

/-- `processEvent_`, 693-787: the vertices that remain, the scanline, the queue and the output. -/
def processEvent [AddCommGroup C] [DecidableEq C] (F : Fn C O) (x : Int) (vs : List (Vert C)) (L : List (El C))
    (Q : List P) (out : List O) : Except Err (List (Vert C) × List (El C) × List P × List O) :=
  procLoop F x (vs.length + L.length) vs L Q out 0 (0, 0) none

/-- The state of `Scan45` between two calls of `scan`, 480-485: `scanData_`, `crossQueue_` and `x_`. -/
structure St (C : Type) where
  L : List (El C)
  Q : List P
  x : Int
  deriving DecidableEq, Repr

/-- The next stop, 529-540: the next vertex or a crossing before it. -/
def nextStop (Q : List P) (x : Int) : Int :=
  match Q with
  | [] => x
  | p :: _ => if p.1 < x then min x p.1 else x

/-- The loop of `scan`, 513-563. `crossVector_` is empty whenever the loop starts over, so the test of 528 is
left out. -/
def scanLoop [AddCommGroup C] [DecidableEq C] (F : Fn C O) :
    Nat → St C → List (Vert C) → List O → Except Err (St C × List O)
  | _, st, [], out => .ok (st, out)
  | 0, _, _ :: _, _ => .error .diverge
  | k + 1, st, w :: ws, out =>
      if w.1.1 ≠ st.x then
        let nextX := nextStop st.Q w.1.1
        match advance F nextX st.L st.Q out with
        | .error err => .error err
        | .ok (L, Q, out1, cv) =>
            let (ev, rest) : List (Vert C) × List (Vert C) :=
              if cv ≠ [] ∧ nextX = w.1.1 then
                (mergeCross cv ((w :: ws).takeWhile (fun u => decide (u.1.1 = nextX))),
                  (w :: ws).dropWhile (fun u => decide (u.1.1 = nextX)))
              else (cv, w :: ws)
            match processEvent F nextX ev L Q out1 with
            | .error err => .error err
            | .ok (_, L2, Q2, out2) => scanLoop F k ⟨L2, Q2, nextX⟩ rest out2
      else
        match processEvent F st.x (w :: ws) st.L st.Q out with
        | .error err => .error err
        | .ok (rest, L2, Q2, out2) => scanLoop F k ⟨L2, Q2, st.x⟩ rest out2

/-- `scan`, 513-563: one call with vertices in order; the output is appended to `out`. The bound on the rounds is enough because every round uses
up a vertex or moves the scanline to the right. -/
def scan [AddCommGroup C] [DecidableEq C] (F : Fn C O) (st : St C) (vs : List (Vert C)) (out : List O) :
    Except Err (St C × List O) :=
  scanLoop F (vs.length + (vs.foldl (fun m v => max m v.1.1) st.x - st.x).toNat) st vs out

end Verif.Deg45
