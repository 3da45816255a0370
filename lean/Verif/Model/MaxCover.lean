import Verif.Model.RectForm
/-!
# Model of `detail/max_cover.hpp` and `get_max_rectangles`

Line numbers refer to `/repo/include/boost/polygon/detail/max_cover.hpp` unless another file is
named. A rectangle is kept as in `Model/RectForm.lean`: its interval along `orient` (`lo`, `hi`) and
its interval along the perpendicular orientation (`pl`, `ph`).
-/
namespace Verif.MaxCover
open Verif.Set90 Verif.Isotropy Verif.Interval Verif.Rectangle Verif.RectForm

/-- `class Node`, lines 17-35, as a pointer to it: the position in the vector of nodes and the
rectangle. Simplification: the children of all nodes are kept in one list of edges (parent, child), and
the traced intervals of all nodes in one list of pairs (node, interval). -/
structure Nd where
  id : Nat
  rect : SR
deriving DecidableEq, Repr

/-- `rect.get(orient)`. -/
def ivl (r : SR) : Ivl := ⟨r.lo, r.hi⟩

/-- The rectangle of the plane as seen with `get(orient)` and `get(orient.get_perpendicular())`. -/
def toSR (orient : Nat) (r : Rect) : SR :=
  if orient = HORIZONTAL then ⟨r.h.lo, r.h.hi, r.v.lo, r.v.hi⟩ else ⟨r.v.lo, r.v.hi, r.h.lo, r.h.hi⟩

/-- `children_` of a node, in the order in which they were added. -/
def children (E : List (Nat × Nd)) (n : Nd) : List Nd := (E.filter (fun e => e.1 == n.id)).map (·.2)

/-- `lessEdgeAssociation`, lines 39-50: leading coordinate, then interval. -/
def lessEdge (a b : SR) : Bool :=
  if a.pl < b.pl then true else if a.pl > b.pl then false else (ivl a).blt (ivl b)

/-- `polygon_sort` of the leading edges, line 219. Simplification: insertion sort, which keeps equivalent
elements in order. -/
def insertEdge (n : Nd) : List Nd → List Nd
  | [] => [n]
  | a :: t => if lessEdge n.rect a.rect then n :: a :: t else a :: insertEdge n t

/-- The leading edges in order, lines 212-219. -/
def leading (nds : List Nd) : List Nd := nds.foldl (fun L n => insertEdge n L) []

/-- The loop of `computeDag`, lines 222-255: remaining leading edges, remaining nodes (trailing edges).
Dereferencing past the last node is `none`. -/
def dagGo : List Nd → List Nd → List (Nat × Nd) → Option (List (Nat × Nd))
  | [], _, E => some E
  | _ :: _, [], _ => none
  | a :: ls, b :: ts, E =>
    if a.rect.pl < b.rect.ph then dagGo ls (b :: ts) E
    else if a.rect.pl > b.rect.ph then dagGo (a :: ls) ts E
    else if a.rect.hi ≤ b.rect.lo then dagGo ls (b :: ts) E
    else if b.rect.hi ≤ a.rect.lo then dagGo (a :: ls) ts E
    else
      let E := E ++ [(b.id, a)]
      if a.rect.hi > b.rect.hi then dagGo (a :: ls) ts E
      else if b.rect.hi > a.rect.hi then dagGo ls (b :: ts) E
      else dagGo ls ts E
termination_by ls ts => ls.length + ts.length

/-- `computeDag`, lines 209-256. -/
def computeDag (nds : List Nd) : Option (List (Nat × Nd)) := dagGo (leading nds) nds []

/-- Traced intervals and rectangles written. -/
structure Mem where
  T : List (Nat × Ivl)
  O : List SR

/-- The state of the loop in `getMaxCover(outputContainer, node, orient, rect)`, lines 89-172: `node`,
`rect`, `itr` (the children from the iterator on), the stack, top first. -/
structure Ls where
  n : Nd
  r : SR
  it : List Nd
  st : List (Nd × SR × List Nd)
  m : Mem

/-- `rectIvl` clipped to the node, lines 96-98. -/
def clip (n : Nd) (r : SR) : Ivl × Bool := intersect (ivl r) (ivl n.rect) false

/-- `nextRect1`, `nextRect2`: lines 101-104, 115-118, 156-163. -/
def nextRect (n : Nd) (r : SR) : SR := ⟨(clip n r).1.lo, (clip n r).1.hi, r.pl, n.rect.ph⟩

/-- The node can be entered with this rectangle, lines 98-99. -/
def fresh (n : Nd) (r : SR) (m : Mem) : Bool := (clip n r).2 && !m.T.contains (n.id, (clip n r).1)

/-- Some child contains the interval, lines 60-64, 109-114. -/
def extends_ (ch : Nd → List Nd) (n : Nd) (i : Ivl) : Bool := (ch n).any (fun c => containsIvl (ivl c.rect) i true)

/-- Lines 105-125: the interval is recorded, and the rectangle written unless a child contains it. -/
def enter (ch : Nd → List Nd) (n : Nd) (r : SR) (m : Mem) : Mem :=
  ⟨m.T ++ [(n.id, (clip n r).1)], if extends_ ch n (clip n r).1 then m.O else m.O ++ [nextRect n r]⟩

/-- Lines 149-168: on to the next child of the node, if there is one. -/
def advance (ch : Nd → List Nd) (s : Ls) : Ls :=
  match s.it with
  | [] => s
  | [_] => { s with it := [] }
  | _ :: c :: t => ⟨c, nextRect s.n s.r, ch c, (s.n, s.r, c :: t) :: s.st, s.m⟩

/-- One pass of the loop, lines 93-170. -/
def step (ch : Nd → List Nd) (s : Ls) : Ls :=
  let f := fresh s.n s.r s.m
  let m := if f then enter ch s.n s.r s.m else s.m
  match f, s.it with
  | true, c :: t => ⟨c, nextRect s.n s.r, ch c, (s.n, s.r, c :: t) :: s.st, m⟩
  | _, _ =>
    match s.st with
    | [] => advance ch { s with m := m }
    | (n, r, it) :: st => advance ch ⟨n, r, it, st, m⟩

/-- The loop condition of line 171. -/
def done (s : Ls) : Bool := s.st.isEmpty && s.it.isEmpty

/-- `do { ... } while(!stack.empty() || itr != node->end())`. `fuel` bounds the passes, `none` when it
runs out. -/
def loop (ch : Nd → List Nd) : Nat → Ls → Option Mem
  | 0, _ => none
  | k + 1, s => if done (step ch s) then some (step ch s).m else loop ch k (step ch s)

/-- `getMaxCover(outputContainer, node, orient)`, lines 53-74. -/
def coverRoot (ch : Nd → List Nd) (fuel : Nat) (m : Mem) (n : Nd) : Option Mem :=
  if m.T.contains (n.id, ivl n.rect) then some m
  else do
    let m := ⟨m.T ++ [(n.id, ivl n.rect)], m.O⟩
    if (ch n).isEmpty then some ⟨m.T, m.O ++ [n.rect]⟩
    else
      let m ← (ch n).foldlM (fun m c => loop ch fuel ⟨c, n.rect, ch c, [], m⟩) m
      if extends_ ch n (ivl n.rect) then some m else some ⟨m.T, m.O ++ [n.rect]⟩

/-- The nodes, lines 264-271. -/
def nodes (rs : List SR) : List Nd := rs.zipIdx.map (fun p => ⟨p.2, p.1⟩)

/-- `getMaxCover(outputContainer, rects, orient)`, lines 258-276. -/
def getMaxCover (fuel : Nat) (rs : List SR) : Option (List SR) :=
  match rs with
  | [] => some []
  | [r] => some [r]
  | rs => do
    let E ← computeDag (nodes rs)
    let m ← (nodes rs).foldlM (coverRoot (children E) fuel) ⟨[], []⟩
    some m.O

/-- `get_max_rectangles`, polygon_90_set_concept.hpp lines 100-115, for a `polygon_90_set_data`: `assign`
to a vector of rectangles as for `area`, then the maximal rectangles made of them. -/
def _root_.Verif.Set90.PSet.getMaxRectangles (umax : Int) (fuel : Nat) (s : PSet) : Option (List Rect) := do
  let (rs, _) ← ((PSet.mk0 s.orient).insertRange s.data s.orient).getRectangles umax
  let out ← getMaxCover fuel (rs.map (toSR s.orient))
  return out.map (SR.toRect s.orient)

end Verif.MaxCover
