import Verif.Model.Set90
/-!
# Model of the Manhattan connectivity extraction

Line numbers refer to include/boost/polygon/detail/polygon_90_touch.hpp. The map operations
(iterators, hinted insertion, splitting and merging of scan elements) are those of
`Model/BooleanOp.lean`: `processInterval` here has the same text as in boolean_op.hpp for lookup,
insertion and merging.

A `std::set<int>` is the increasing list of its elements. The output graph is the list of the pairs
`(i, j)` for which `graph[i].insert(j)` was executed.
-/
namespace Verif.Touch
open Verif.BooleanOp Verif.Set90

/-- `std::set<int>`. -/
abbrev Ids := List Nat

/-- `nullT_` of the scan: the empty set. -/
scoped instance : Zero Ids := ⟨[]⟩

/-- `set.insert(i)`. -/
def insId (i : Nat) : Ids → Ids
  | [] => [i]
  | a :: l => if i < a then i :: a :: l else if a = i then a :: l else a :: insId i l

/-- `set.erase(i)`. -/
def eraseId (i : Nat) (s : Ids) : Ids := s.filter (fun a => a ≠ i)

/-- Erase when present, insert when absent, lines 56-63 and 114-119. -/
def toggle (i : Nat) (s : Ids) : Ids := if i ∈ s then eraseId i s else insId i s

/-- The pairs inserted in the graph. -/
abbrev Graph := List (Nat × Nat)

/-! ### Scan events -/

/-- `EventData`, line 18. -/
abbrev Event := List (Int × Ids)

/-- `TouchScanEvent::insert(pos, id)`, lines 109-123. -/
def Event.insertPos : Event → Int → Nat → Event
  | [], p, i => [(p, [i])]
  | e :: r, p, i => if p < e.1 then (p, [i]) :: e :: r else if e.1 = p then (p, toggle i e.2) :: r else e :: Event.insertPos r p i

/-- `TouchScanEvent::insert(intervalId)`, lines 103-106. -/
def Event.insertIvl (E : Event) (lo hi : Int) (i : Nat) : Event := (E.insertPos lo i).insertPos hi i

/-- `TouchScanEvent::iterator`, lines 25-43: the elements from `itr_` on, `ivlIds_`, `incremented_`. -/
structure Iter where
  rest : Event
  lo : Int
  hi : Int
  ids : Ids
  inc : Bool

/-- `operator++`, lines 47-73; `none` at the end. -/
def Iter.next (it : Iter) : Option Iter :=
  match it.rest with
  | [] => none
  | e :: r => some { it with rest := r, ids := e.2.foldl (fun s i => toggle i s) it.ids, inc := true }

/-- Lines 80-81 and 83-84. -/
def Iter.update (it : Iter) : Option Iter :=
  if it.inc then
    match it.rest with
    | [] => none
    | e :: _ => some { it with lo := it.hi, hi := e.1, inc := false }
  else some it

/-- `operator*`, lines 79-85. -/
def Iter.deref (it : Iter) : Option Iter := do
  let it ← it.update
  let it ← if it.ids = [] then it.next else some it
  it.update

/-- `begin()`, lines 134-142; `end()` is an iterator whose `rest` is empty. `none` when the event
has only one element, whose successor does not exist. -/
def Event.begin (E : Event) : Option Iter :=
  match E with
  | [] => some ⟨[], 0, 0, [], false⟩
  | [_] => none
  | a :: b :: r => some ⟨b :: r, a.1, b.1, a.2, false⟩

/-! ### The scan -/

/-- `evaluateBorderId_`, lines 301-309. -/
def borderId (g : Graph) (ids : Ids) (c : Nat) : Graph :=
  ids.foldl (fun g s => if c ≠ s then g ++ [(c, s), (s, c)] else g) g

/-- `evaluateBorder_`, lines 294-299. -/
def border (g : Graph) (ids changing : Ids) : Graph := changing.foldl (fun g c => borderId g ids c) g

/-- `evaluateId_`, lines 311-341: the new set and graph. -/
def evalId (lead : Bool) (p : Ids × Graph) (c : Nat) : Ids × Graph :=
  if c ∉ p.1 then
    if lead then (insId c p.1, borderId p.2 p.1 c) else p
  else if lead then p else (eraseId c p.1, p.2)

/-- `evaluateInterval_`, lines 286-292. -/
def evalIvl (lead : Bool) (p : Ids × Graph) (changing : Ids) : Ids × Graph := changing.foldl (evalId lead) p

/-- The loop of lines 229-235. -/
def walk (lead : Bool) (ids : Ids) (high : Int) : Nat → Map Ids → Int → Graph → Option (Map Ids × Graph)
  | 0, _, _, _ => none
  | fuel + 1, m, itr, g =>
    if itr = high then some (m, g) else do
      let before ← valAt m itr
      let r := evalIvl lead (before, g) ids
      let m := setK m itr r.1
      let nxt ← nextIt m itr
      let hi ← nxt
      walk lead ids high fuel m hi r.2

/-- The border at the upper end, lines 200-204 (the `else` of the condition of line 188). -/
def borderHigh (lead : Bool) (g : Graph) (m : Map Ids) (highItr : It) (hi : Int) (ids : Ids) : Option Graph :=
  match highItr with
  | none => some g
  | some k =>
    if k > hi then some g
    else if lead then do
      let v ← valAt m k
      return border g v ids
    else some g

/-- The border at the lower end, lines 219-226 (the `else` of the condition of line 206). -/
def borderLow (lead : Bool) (g : Graph) (m : Map Ids) (lowK lo : Int) (ids : Ids) : Option Graph :=
  if lowK > lo then some g
  else if lead && (some lowK != beginIt m) then do
    let p ← prevIt m (some lowK)
    let v ← valAt m p
    return border g v ids
  else some g

/-- `TouchOp::processInterval`, lines 178-258. -/
def processInterval (lead : Bool) (g : Graph) (s : State Ids) (lo hi : Int) (ids : Ids) : Option (State Ids × Graph) :=
  let (lowItr, s) := lookup s lo
  let (highItr, s) := lookup s hi
  match lowItr with
  | none => do
    let s ← insert s lo ids
    let s ← insert s hi 0
    pure (s, border g ids ids)
  | some lowK => do
    let g ← borderHigh lead g s.scan highItr hi ids
    let (s, highK) ← splitHigh s highItr hi
    let g ← borderLow lead g s.scan lowK lo ids
    let (s, lowK) ← splitLow s lowK lo
    let (m, g) ← walk lead ids highK (s.scan.length + 1) s.scan lowK g
    let m ← mergeLow m lowK
    let s ← mergeHigh m highK
    pure (s, g)

/-- `processEvent`, lines 345-350, from an iterator on. The iterator is dereferenced once for the
interval and once for the set. `fuel` bounds the number of iterations. -/
def eventGo (lead : Bool) : Nat → Iter → Graph → State Ids → Option (Graph × State Ids)
  | fuel, it, g, s =>
    match it.rest with
    | [] => some (g, s)
    | _ :: _ =>
      match fuel with
      | 0 => none
      | fuel + 1 => do
        let it ← it.deref
        let it' ← it.deref
        let (s, g) ← processInterval lead g s it.lo it.hi it'.ids
        eventGo lead fuel (← it'.next) g s

/-- `processEvent`, lines 345-350. -/
def processEvent (lead : Bool) (g : Graph) (s : State Ids) (E : Event) : Option (Graph × State Ids) := do
  eventGo lead (E.length + 1) (← E.begin) g s

/-- One of the two maps of `TouchSetData`, line 157. -/
abbrev Events := List (Int × Event)

/-- `performTouch`, lines 353-376: the loop over both maps. With left edges remaining and no right
edges the code would follow the end iterator of the right edges: `none`. -/
def touchGo : Graph → State Ids → Events → Events → Option Graph
  | g, _, [], [] => some g
  | _, _, _ :: _, [] => none
  | g, s, [], r :: rs => do
    let (g, s) ← processEvent false g s.advance r.2
    touchGo g s [] rs
  | g, s, l :: ls, r :: rs =>
    if l.1 ≤ r.1 then do
      let (g, s) ← processEvent true g s.advance l.2
      touchGo g s ls (r :: rs)
    else do
      let (g, s) ← processEvent false g s.advance r.2
      touchGo g s (l :: ls) rs
termination_by _ _ l r => l.length + r.length

/-! ### Filling the events -/

/-- `data[pos].insert(element)`, lines 396 and 398. -/
def Events.add : Events → Int → Int → Int → Nat → Events
  | [], x, lo, hi, i => [(x, Event.insertIvl [] lo hi i)]
  | e :: r, x, lo, hi, i =>
    if x < e.1 then (x, Event.insertIvl [] lo hi i) :: e :: r
    else if e.1 = x then (x, e.2.insertIvl lo hi i) :: r
    else e :: Events.add r x lo hi i

/-- `TouchSetData`, line 157: left and right edges. -/
structure Data where
  left : Events
  right : Events

/-- The loop of `populateTouchSetData`, lines 382-402; `px`, `py`, `count` are `prevPos`, `prevY`, `count`. -/
def populateGo (id : Nat) : Int → Int → Int → Data → List V → Data
  | _, _, _, d, [] => d
  | px, py, count, d, v :: r =>
    if v.x ≠ px then populateGo id v.x v.y v.c d r
    else
      let d := if count ≠ 0 ∧ v.y ≠ py then
          if count > 0 then { d with left := d.left.add v.x py v.y id } else { d with right := d.right.add v.x py v.y id }
        else d
      populateGo id px v.y (count + v.c) d r

/-- `populateTouchSetData`, lines 379-403. -/
def populate (umax : Int) (d : Data) (data : List V) (id : Nat) : Data := populateGo id umax umax 0 d data

/-- The members of `connectivity_extraction_90`, polygon_90_set_data.hpp lines 953-955. -/
structure Conn where
  tsd : Data
  nodeCount : Nat

/-- The constructor, line 957. -/
def Conn.new : Conn := ⟨⟨[], []⟩, 0⟩

/-- `connectivity_extraction_90::insert`, polygon_90_set_data.hpp lines 967-971: the object after the
insertion; the node id returned is `nodeCount` before it. `ps.clean()` changes `ps` too (it is the
observable-preserving `clean` of `Model/Set90.lean`). -/
def Conn.insert (umax : Int) (c : Conn) (ps : PSet) : Option Conn := do
  let ps ← ps.clean umax
  return ⟨populate umax c.tsd ps.data c.nodeCount, c.nodeCount + 1⟩

/-- Inserting several sets in order. -/
def Conn.insertAll (umax : Int) : Conn → List PSet → Option Conn
  | c, [] => some c
  | c, p :: r => do (← c.insert umax p).insertAll umax r

/-- `extract`, polygon_90_set_data.hpp lines 982-985, into an empty graph. -/
def Conn.extract (c : Conn) : Option Graph := touchGo [] State.init c.tsd.left c.tsd.right

end Verif.Touch
