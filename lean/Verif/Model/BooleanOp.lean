import Mathlib.Data.Int.Basic
import Mathlib.Algebra.Group.Basic
import Mathlib.Algebra.Group.Prod
/-!
# Model of detail/boolean_op.hpp: the Manhattan Boolean scanline

All line numbers refer to include/boost/polygon/detail/boolean_op.hpp.

`std::map<Unit, T>` is an association list kept in increasing key order. An iterator is
the key it points to (`none` is `end()`); following an iterator whose key is not in the
map (erased, or past the end) is undefined behaviour and yields `none` in the `Option`
monad. Coordinates are unbounded integers.

The count type `T` of the C++ template is a type with `+`, `0` and decidable equality
together with `pos : T → Bool`, which is `(int)t > 0` (lines 219-220).
-/
namespace Verif.BooleanOp

variable {T : Type} [Add T] [Zero T] [DecidableEq T]

/-- `std::map<Unit, T>` (line 22). -/
abbrev Map (T : Type) := List (Int × T)

/-- A map iterator: the key, or `none` for `end()`. -/
abbrev It := Option Int

/-- `map.begin()`. -/
def beginIt (m : Map T) : It := m.head?.map Prod.fst

/-- `it->second`; `none` when there is no such element. -/
def valAt (m : Map T) (k : Int) : Option T := (m.find? (fun e => e.1 == k)).map Prod.snd

/-- An iterator that may be used as an insertion hint: `end()` or an existing element. -/
def validIt (m : Map T) : It → Bool
  | none => true
  | some k => m.any (fun e => e.1 == k)

/-- `map.lower_bound(pos)`: first element whose key is not less than `pos`. -/
def lowerBound (m : Map T) (pos : Int) : It := (m.find? (fun e => decide (pos ≤ e.1))).map Prod.fst

/-- `++it` on an element: outer `none` when the element does not exist, inner `none` is `end()`. -/
def nextIt : Map T → Int → Option It
  | [], _ => none
  | e :: r, k => if e.1 = k then some (beginIt r) else nextIt r k

/-- `--it` on the element `k`: `none` when it is `begin()` or does not exist. -/
def prevOf : Map T → Int → Option Int
  | e :: f :: r, k => if f.1 = k then some e.1 else prevOf (f :: r) k
  | _, _ => none

/-- `--it` for any iterator (`--end()` is the last element). -/
def prevIt (m : Map T) : It → Option Int
  | none => m.getLast?.map Prod.fst
  | some k => prevOf m k

/-- `map.insert(hint, value)` on a valid hint: inserts unless the key exists. -/
def insertKV : Map T → Int → T → Map T
  | [], k, v => [(k, v)]
  | e :: r, k, v => if k < e.1 then (k, v) :: e :: r else if e.1 = k then e :: r else e :: insertKV r k v

/-- `map.erase(it)` on an existing element. -/
def eraseK (m : Map T) (k : Int) : Map T := m.filter (fun e => e.1 != k)

/-- `it->second = v`. -/
def setK (m : Map T) (k : Int) (v : T) : Map T := m.map (fun e => if e.1 = k then (k, v) else e)

/-- The two mutable members of `BooleanOp` (lines 25-26). `nullT_` (line 27) is `0` in every
instantiation (`int`, `UnaryCount` and `BinaryCount` all start at 0; `defaultCount` is always a
default constructed `BinaryCount`). -/
structure State (T : Type) where
  scan : Map T
  next : It

/-- `BooleanOp()` / `BooleanOp(nullT)`, lines 29-30. -/
def State.init : State T := ⟨[], none⟩

/-- `advanceScan`, line 36. -/
def State.advance (s : State T) : State T := ⟨s.scan, beginIt s.scan⟩

/-- An output element: `(low, high, value)` (line 223). -/
abbrev Piece := Int × Int × Int

/-- `lookup_`, lines 44-49: returns the iterator and the new state. -/
def lookup (s : State T) (pos : Int) : It × State T :=
  match s.next with
  | some k => if k ≥ pos then (some k, s) else
      let l := lowerBound s.scan pos; (l, ⟨s.scan, l⟩)
  | none => let l := lowerBound s.scan pos; (l, ⟨s.scan, l⟩)

/-- `insert_`, lines 50-52. The hint `nextItr_` must be valid; the iterator returned is at `pos`. -/
def insert (s : State T) (pos : Int) (count : T) : Option (State T) :=
  if validIt s.scan s.next then some ⟨insertKV s.scan pos count, some pos⟩ else none

/-- `evaluateInterval_`, lines 217-225, as the list of elements it appends. -/
def evaluate (pos : T → Bool) (lo hi : Int) (before after : T) : List Piece :=
  let b := pos before
  let a := pos after
  let value : Int := (if !b && a then 1 else 0) - (if b && !a then 1 else 0)
  if value ≠ 0 then [(lo, hi, value)] else []

/-- The loop of lines 186-193 from iterator `itr` to `highItr`. `fuel` bounds the number of
iterations; running out of it (which would mean running off the map) is `none`. -/
def walk (pos : T → Bool) (delta : T) (high : Int) :
    Nat → Map T → Int → List Piece → Option (Map T × List Piece)
  | 0, _, _, _ => none
  | fuel + 1, m, itr, out =>
    if itr = high then some (m, out) else do
      let before ← valAt m itr
      let after := before + delta
      let m := setK m itr after
      let nxt ← nextIt m itr
      let hi ← nxt
      walk pos delta high fuel m hi (out ++ evaluate pos itr hi before after)

/-- Lines 165-173 of `processInterval`: make sure an element exists at `hi`; returns the state
and the key of `highItr`. -/
def splitHigh (s : State T) (highItr : It) (hi : Int) : Option (State T × Int) :=
  if (match highItr with | none => true | some k => decide (k > hi)) then
    if highItr ≠ beginIt s.scan then do
      let p ← prevIt s.scan highItr
      let value ← valAt s.scan p
      let s ← insert ⟨s.scan, some p⟩ hi value
      pure (s, hi)
    else do
      let s ← insert ⟨s.scan, highItr⟩ hi 0
      pure (s, hi)
  else do
    let k ← highItr
    pure (s, k)

/-- Lines 175-184 of `processInterval`: make sure an element exists at `lo`; returns the state
and the key of `lowItr`. -/
def splitLow (s : State T) (lowK lo : Int) : Option (State T × Int) :=
  if lowK > lo then
    if some lowK ≠ beginIt s.scan then do
      let p ← prevIt s.scan (some lowK)
      let value ← valAt s.scan p
      let s ← insert ⟨s.scan, some p⟩ lo value
      pure (s, lo)
    else do
      let s ← insert ⟨s.scan, some lowK⟩ lo 0
      pure (s, lo)
  else pure (s, lowK)

/-- Lines 195-201 of `processInterval`: merge the bottom interval with the one below. -/
def mergeLow (m : Map T) (lowK : Int) : Option (Map T) :=
  if some lowK ≠ beginIt m then do
    let p ← prevIt m (some lowK)
    let a ← valAt m p
    let b ← valAt m lowK
    pure (if a = b then eraseK m lowK else m)
  else pure m

/-- Lines 203-212 of `processInterval`: merge the top interval with the one above and leave
`nextItr_` at the end of the interval. -/
def mergeHigh (m : Map T) (highK : Int) : Option (State T) :=
  if some highK ≠ beginIt m then do
    let p ← prevIt m (some highK)
    let a ← valAt m p
    let b ← valAt m highK
    if a = b then do
      let m := eraseK m highK
      let n ← nextIt m p
      pure ⟨m, n⟩
    else pure ⟨m, some highK⟩
  else pure ⟨m, some highK⟩

/-- `processInterval`, lines 154-213: the new state and the elements appended to the
container (which the callers clear first, lines 348 and 409). -/
def processInterval (pos : T → Bool) (s : State T) (lo hi : Int) (delta : T) :
    Option (State T × List Piece) :=
  let (lowItr, s) := lookup s lo                               -- 155
  let (highItr, s) := lookup s hi                              -- 156
  match lowItr with
  | none => do                                                  -- 158-163
    let s ← insert s lo delta
    let s ← insert s hi 0
    pure (s, evaluate pos lo hi 0 delta)
  | some lowK => do
    let (s, highK) ← splitHigh s highItr hi                     -- 165-173
    let (s, lowK) ← splitLow s lowK lo                          -- 175-184
    let (m, out) ← walk pos delta highK (s.scan.length + 1) s.scan lowK []   -- 186-193
    let m ← mergeLow m lowK                                     -- 195-201
    let s ← mergeHigh m highK                                   -- 203-212
    pure (s, out)

/-! ## The column scan shared by `applyBooleanBinaryOp` and `applyBooleanOr` -/

/-- A vertex of the output, `pair<Unit, pair<Unit, int>>`. -/
structure V where
  x : Int
  y : Int
  c : Int
deriving DecidableEq, Repr

/-- Lines 350-362 and 411-423 for one element, on the output vector kept in reverse order. -/
def emit (x : Int) (out : List V) (e : Piece) : List V :=
  let out := match out with
    | last :: rest =>
      if last.x = x ∧ last.y = e.1 ∧ last.c = e.2.2 * -1 then rest
      else ⟨x, e.1, e.2.2⟩ :: last :: rest
    | [] => [⟨x, e.1, e.2.2⟩]
  ⟨x, e.2.1, e.2.2 * -1⟩ :: out

/-- The local variables of the two scan loops: `boolean`, `prevCoord`/`prevPos`,
`prevPosition`/`prevY`, `count`, and `output` (reversed). -/
structure Loop (T : Type) where
  st : State T
  px : Int
  py : Int
  cnt : T
  out : List V

/-- One iteration of the loops: lines 339-365 and lines 400-426 (the two copies have the same
text up to variable names). The arguments are `curCoord`, `curPosition`, `curCount`. -/
def scanBody (pos : T → Bool) (s : Loop T) (cx cy : Int) (cc : T) : Option (Loop T) :=
  if s.px ≠ cx then
    some ⟨s.st.advance, cx, cy, cc, s.out⟩
  else if cy ≠ s.py ∧ s.cnt ≠ 0 then do
    let (st, pieces) ← processInterval pos s.st s.py cy s.cnt
    pure ⟨st, s.px, cy, s.cnt + cc, pieces.foldl (emit s.px) s.out⟩
  else
    some ⟨s.st, s.px, cy, s.cnt + cc, s.out⟩

/-! ## applyBooleanOr -/

/-- The loop of `applyBooleanOr`, lines 396-427. The template argument `count_type` is `int`
or `UnaryCount`; both store an `int` and differ in the conversion `pos`. -/
def orLoop (pos : Int → Bool) : List V → Loop Int → Option (Loop Int)
  | [], s => some s
  | v :: r, s => do orLoop pos r (← scanBody pos s v.x v.y v.c)

/-- `default_arg_workaround<count_type>::applyBooleanOr`, lines 386-434. -/
def applyBooleanOr (pos : Int → Bool) (umax : Int) (input : List V) : Option (List V) := do
  let s ← orLoop pos input ⟨State.init, umax, umax, 0, []⟩
  pure s.out.reverse

/-- `(int)count > 0` for `count_type = int`. -/
def posInt (c : Int) : Bool := decide (c > 0)

/-- `(int)count > 0` for `UnaryCount`, whose cast is `count_ % 2` (line 138; `%` truncates). -/
def posUnary (c : Int) : Bool := decide (c.tmod 2 > 0)

/-! ## applyBooleanBinaryOp -/

/-- `BinaryAnd`, lines 57-61. -/
def binaryAnd (a b : Int) : Bool := decide (a > 0) && decide (b > 0)
/-- `BinaryOr`, lines 62-66. -/
def binaryOr (a b : Int) : Bool := decide (a > 0) || decide (b > 0)
/-- `BinaryNot`, lines 67-71. -/
def binaryNot (a b : Int) : Bool := decide (a > 0) && !decide (b > 0)
/-- `BinaryXor`, lines 72-76. -/
def binaryXor (a b : Int) : Bool := xor (decide (a > 0)) (decide (b > 0))

/-- `BinaryCount` (lines 85-119, 227-243) is a pair of counts; the cast to int (line 116)
applies the functor. `operator-` (lines 244-264) is not used by the scan. -/
def posBinary (f : Int → Int → Bool) (c : Int × Int) : Bool := f c.1 c.2

/-- Lines 287-309 and 315-337: choose the next event of the two sequences.
Returns `(coord, position, count)` and the remaining sequences. -/
def nextEvent (umax : Int) (l1 l2 : List V) : (Int × Int × (Int × Int)) × List V × List V :=
  match l1, l2 with
  | [], [] => ((umax, umax, (0, 0)), [], [])
  | a :: r1, [] => ((a.x, a.y, (0 + a.c, 0)), r1, [])
  | [], b :: r2 =>
    if b.x < umax ∨ (b.x = umax ∧ b.y < umax) then ((b.x, b.y, (0, 0 + b.c)), [], r2)
    else if b.x = umax ∧ b.y = umax then ((umax, umax, (0, 0 + b.c)), [], r2)
    else ((umax, umax, (0, 0)), [], b :: r2)
  | a :: r1, b :: r2 =>
    if b.x < a.x ∨ (b.x = a.x ∧ b.y < a.y) then ((b.x, b.y, (0, 0 + b.c)), a :: r1, r2)
    else if b.x = a.x ∧ b.y = a.y then ((a.x, a.y, (0 + a.c, 0 + b.c)), r1, r2)
    else ((a.x, a.y, (0 + a.c, 0)), r1, b :: r2)

/-- The loop of `applyBooleanBinaryOp`, lines 311-366. Running out of `fuel` (which would be an
endless loop) is `none`. -/
def binLoop (pos : Int × Int → Bool) (umax : Int) :
    Nat → List V → List V → Loop (Int × Int) → Option (Loop (Int × Int))
  | _, [], [], s => some s
  | 0, _, _, _ => none
  | fuel + 1, l1, l2, s => do
    let ((cx, cy, cc), l1, l2) := nextEvent umax l1 l2
    binLoop pos umax fuel l1 l2 (← scanBody pos s cx cy cc)

/-- `applyBooleanBinaryOp`, lines 268-367: the setup of lines 282-309, then the loop. -/
def applyBooleanBinaryOp (f : Int → Int → Bool) (umax : Int) (input1 input2 : List V) :
    Option (List V) := do
  let ((x, y, c), l1, l2) := nextEvent umax input1 input2
  let s ← binLoop (posBinary f) umax (l1.length + l2.length) l1 l2 ⟨State.init, x, y, c, []⟩
  pure s.out.reverse

end Verif.BooleanOp
