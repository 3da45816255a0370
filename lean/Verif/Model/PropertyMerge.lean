import Verif.Model.Set90
/-!
# Model: property merge for Manhattan geometry

Models include/boost/polygon/detail/property_merge.hpp (`merge_scanline`) and
`property_merge_90` of polygon_90_set_data.hpp lines 919-946.

The property type is any linearly ordered type. A `property_map` is the vector of
(property, count) pairs. The scanline (`std::map` from y to property maps) is the list of its
elements in key order; an iterator is a split of that list. A `property_set` is the list of its
elements in order, which is what `std::set` and `std::vector` keys both contain, because
`setProperty` inserts at the end in increasing order.
-/
namespace Verif.PropertyMerge
open Verif.BooleanOp Verif.Set90 Verif.Isotropy

variable {α : Type} [LinearOrder α]

/-- `property_map`, line 60. -/
abbrev PMap (α : Type) := List (α × Int)

/-- `vertex_property`, line 61: the point, the property, the count. -/
structure VP (α : Type) where
  x : Int
  y : Int
  prop : α
  c : Int
deriving DecidableEq

/-- `edge_property`, line 67: the interval on the scanline, the property sets left and right of it. -/
structure Edge (α : Type) where
  lo : Int
  hi : Int
  left : List α
  right : List α
deriving DecidableEq

/-- `populate_property_merge_data`, lines 72-86: what it appends. -/
def populate (data : List V) (prop : α) (orient : Nat) : List (VP α) :=
  data.map (fun v => if orient = HORIZONTAL then ⟨v.y, v.x, prop, v.c⟩ else ⟨v.x, v.y, prop, v.c⟩)

/-- `mergeProperty`, lines 177-187. -/
def mergeProperty : PMap α → α × Int → PMap α
  | [], r => [r]
  | a :: l, r =>
    if a.1 < r.1 then a :: mergeProperty l r
    else if a.1 ≠ r.1 then r :: a :: l
    else if a.2 + r.2 = 0 then l
    else (a.1, a.2 + r.2) :: l

/-- `setProperty` into an empty set, lines 213-219. -/
def setProperty (m : PMap α) : List α := (m.filter (fun a => 0 < a.2)).map Prod.fst

/-- Appending to `tmpVector`, lines 239-244 (and the three copies of it). -/
def pushTmp (tmp : PMap α) (a : α × Int) : PMap α :=
  match tmp.getLast? with
  | some b => if a.1 = b.1 then tmp.dropLast ++ [(b.1, b.2 + a.2)] else tmp ++ [a]
  | none => [a]

/-- The merging loops, lines 237-273. -/
def mergeLoop (tmp : PMap α) : PMap α → PMap α → PMap α
  | [], [] => tmp
  | a :: l, [] => mergeLoop (pushTmp tmp a) l []
  | [], b :: r => mergeLoop (pushTmp tmp b) [] r
  | a :: l, b :: r => if a.1 ≤ b.1 then mergeLoop (pushTmp tmp a) l (b :: r) else mergeLoop (pushTmp tmp b) (a :: l) r
termination_by l r => l.length + r.length

/-- `mergeCount`, lines 233-279: the new value of `lvalue`. -/
def mergeCount (l r : PMap α) : PMap α := (mergeLoop [] l r).filter (fun a => a.2 ≠ 0)

/-- Lines 306-325: append the edge for one changed interval, dropping it when nothing changes and
gluing it to the previous one when that ends where it starts and has the same sets. -/
def pushEdge (out : List (Edge α)) (e : Edge α) : List (Edge α) :=
  if e.left = e.right then out
  else match out.getLast? with
    | some s => if s.hi = e.lo ∧ s.left = e.left ∧ s.right = e.right
        then out.dropLast ++ [⟨s.lo, e.hi, s.left, s.right⟩] else out ++ [e]
    | none => [e]

/-- Lines 326-335 (and 378-392): keep an element unless it repeats its predecessor, where the
predecessor of the first element counts as empty. `below` are the elements before it. -/
def addElem (below : List (Int × PMap α)) (k : Int) (m : PMap α) : List (Int × PMap α) :=
  match below.getLast? with
  | none => if m = [] then below else below ++ [(k, m)]
  | some b => if b.2 = m then below else below ++ [(k, m)]

/-- The result of the loop of lines 302-358: the elements before `previousScanlinePosition`, that
element, the elements from `scanlinePosition` on, and the output. -/
structure Pos (α : Type) where
  below : List (Int × PMap α)
  prev : Int × PMap α
  rest : List (Int × PMap α)
  out : List (Edge α)

/-- One step over the interval from `prev` to `top`, lines 305-335. -/
def stepBelow (below : List (Int × PMap α)) (prev : Int × PMap α) (cfb : PMap α) : List (Int × PMap α) :=
  addElem below prev.1 (mergeCount prev.2 cfb)

/-- The output of that step. -/
def stepOut (out : List (Edge α)) (prev : Int × PMap α) (top : Int) (cfb : PMap α) : List (Edge α) :=
  pushEdge out ⟨prev.1, top, setProperty prev.2, setProperty (mergeCount prev.2 cfb)⟩

/-- The loop of lines 302-358. `currentY` is the key of `prev` (it is `previousY` on entry and
`elementY` after a step). The two insertions inside the loop, at lines 343 and 356, are followed
there by exactly one more step, over the interval ending at the inserted element, after which the
loop ends; they are unrolled here. -/
def scan (cfb : PMap α) (high : Int) (below : List (Int × PMap α)) (prev : Int × PMap α) (out : List (Edge α)) :
    List (Int × PMap α) → Pos α
  | [] => ⟨below, prev, [], out⟩
  | e :: r =>
    if e.1 ≤ high then
      let below' := stepBelow below prev cfb
      let out' := stepOut out prev e.1 cfb
      if r = [] ∧ e.1 < high then
        ⟨stepBelow below' e cfb, (high, []), [], stepOut out' e high cfb⟩
      else scan cfb high below' e out' r
    else if prev.1 < high then
      ⟨stepBelow below prev cfb, (high, prev.2), e :: r, stepOut out prev high cfb⟩
    else ⟨below, prev, e :: r, out⟩

/-- The members a vertex updates, lines 223-229; `scanlinePosition` is recomputed from `previousY`
(line 296: an element with that key is what `lower_bound` finds). -/
structure St (α : Type) where
  scanline : List (Int × PMap α)
  cfb : PMap α
  prevY : Int
  out : List (Edge α)

/-- The elements before `lower_bound(y)` and from there on. -/
def lowerBound (s : List (Int × PMap α)) (y : Int) : List (Int × PMap α) × List (Int × PMap α) :=
  s.span (fun e => e.1 < y)

/-- `processVertex`, lines 286-421. `none`: an iterator past the end would be used. -/
def processVertex (st : St α) (y : Int) (cur : PMap α) : Option (St α) :=
  if st.cfb ≠ [] then
    match lowerBound st.scanline st.prevY with
    | (_, []) => none
    | (below, prev :: rest) =>
      -- line 365 `scanline[currentY]` is the element `prev`, when its key is `previousY`
      if prev.1 ≠ st.prevY then none
      else
        let p := scan st.cfb y below prev st.out rest
        if p.rest = [] ∧ p.prev.1 < y then
          some ⟨p.below ++ [(p.prev.1, mergeCount p.prev.2 st.cfb), (y, [])], mergeCount st.cfb cur, y,
            p.out ++ [⟨p.prev.1, y, [], setProperty st.cfb⟩]⟩
        else
          let c := mergeCount st.cfb cur
          let below' := if c = [] then addElem p.below p.prev.1 p.prev.2 else p.below ++ [p.prev]
          some ⟨below' ++ p.rest, c, y, p.out⟩
  else
    match lowerBound st.scanline y with
    | (below, []) => some ⟨below ++ [(y, [])], cur, y, st.out⟩
    | (below, e :: r) =>
      if e.1 = y then some ⟨below ++ e :: r, cur, y, st.out⟩
      else some ⟨below ++ (y, (below.getLast?.map Prod.snd).getD []) :: e :: r, cur, y, st.out⟩

/-- The result map: key to polygon set. -/
abbrev Result (α : Type) := List (List α × PSet)

/-- `result.find(key)`, creating a vertical set when absent, then `insert(x, (interval, c))`:
lines 562-570 and 571-580. -/
def insertKey (res : Result α) (key : List α) (x lo hi c : Int) : Result α :=
  match res with
  | [] => [(key, (PSet.mk0 VERTICAL).insertMajor x ⟨lo, hi⟩ c)]
  | (k, s) :: r => if k = key then (k, s.insertMajor x ⟨lo, hi⟩ c) :: r else (k, s) :: insertKey r key x lo hi c

/-- `result.find(key)`. -/
def find (res : Result α) (key : List α) : Option PSet :=
  match res with
  | [] => none
  | (k, s) :: r => if k = key then some s else find r key

/-- `writeOutput`, lines 557-583. -/
def writeOutput (x : Int) (res : Result α) (out : List (Edge α)) : Result α :=
  out.foldl (fun res e =>
    let res := if e.left ≠ [] then insertKey res e.left x e.lo e.hi (-1) else res
    if e.right ≠ [] then insertKey res e.right x e.lo e.hi 1 else res) res

/-- The loop of `perform_merge`, lines 119-147, after the first element: `cx`, `cy`, `cur` are
`currentVertex`. -/
def mergeGo (st : St α) (cx cy : Int) (cur : PMap α) (res : Result α) : List (VP α) → Option (Result α)
  | [] => do
    let st ← processVertex st cy cur
    return writeOutput cx res st.out
  | d :: r =>
    if ¬ (d.x = cx ∧ d.y = cy) then
      if d.x ≠ cx then do
        let st ← processVertex st cy cur
        mergeGo { st with cfb := [], out := [] } d.x d.y (mergeProperty [] (d.prop, d.c)) (writeOutput cx res st.out) r
      else do
        let st ← processVertex st cy cur
        mergeGo st d.x d.y (mergeProperty [] (d.prop, d.c)) res r
    else mergeGo st cx cy (mergeProperty cur (d.prop, d.c)) res r

/-- `perform_merge`, lines 111-150, on data already sorted by (x, y). `polygon_sort` is `std::sort`,
which may leave elements with equal points in any order, so the sorted vector is the argument. -/
def performMerge (data : List (VP α)) (res : Result α) : Option (Result α) :=
  match data with
  | [] => some res
  | d :: r => mergeGo ⟨[], [], 0, []⟩ d.x d.y (mergeProperty [] (d.prop, d.c)) res r

/-- `property_merge_90`: what the inserts of sets with their properties have appended to `pmd_`,
polygon_90_set_data.hpp lines 927-930. -/
def pmd (ins : List (PSet × α)) : List (VP α) := ins.flatMap (fun i => populate i.1.data i.2 i.1.orient)

/-- `property_merge_90::merge` into an empty result, lines 941-945, where `sorted` is what
`polygon_sort` made of `pmd_`. -/
def merge (sorted : List (VP α)) : Option (Result α) := performMerge sorted []

end Verif.PropertyMerge
