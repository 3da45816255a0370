import Mathlib.Data.List.Basic
import Verif.Model.Machine
/-!
# Model of `extended_int<N>`

Line numbers refer to `/repo/include/boost/polygon/detail/voronoi_ctypes.hpp`. The first
`|count_|` elements of `chunks_` are a list, least significant chunk first; the elements after them
are never read. `uint32` and `uint64` arithmetic wraps.
-/
namespace Verif.ExtInt

/-- `2^32`. -/
def B : Nat := 2 ^ 32
/-- `static_cast<uint32>`. -/
def w32 (z : Int) : Nat := (z % 2 ^ 32).toNat
/-- `uint64` wrap-around. -/
def w64 (n : Nat) : Nat := n % 2 ^ 64

/-- The members, lines 578-579. -/
structure EInt where
  count : Int
  chunks : List Nat
deriving DecidableEq, Repr

/-- `extended_int(int32)`, lines 232-242. `-that` overflows for the least value. -/
def ofInt32 (z : Int) : Option EInt :=
  if z > 0 then some ⟨1, [w32 z]⟩
  else if z < 0 then do some ⟨-1, [w32 (← Machine.i32 (-z))]⟩
  else some ⟨0, []⟩

/-- The common part of lines 245-254: the chunks of a positive `int64`. -/
def split64 (z : Int) : List Nat :=
  if w32 (z / 2 ^ 32) ≠ 0 then [w32 z, w32 (z / 2 ^ 32)] else [w32 z]

/-- `extended_int(int64)`, lines 244-257. `-that` overflows for the least value. -/
def ofInt64 (z : Int) : Option EInt :=
  if z > 0 then some ⟨(split64 z).length, split64 z⟩
  else if z < 0 then do
    let z ← Machine.i64 (-z)
    some ⟨-(split64 z).length, split64 z⟩
  else some ⟨0, []⟩

/-- `size`, lines 453-455. -/
def EInt.size (e : EInt) : Nat := e.count.natAbs

/-- `is_pos`, line 309. -/
def EInt.isPos (e : EInt) : Bool := decide (e.count > 0)
/-- `is_neg`, line 313. -/
def EInt.isNeg (e : EInt) : Bool := decide (e.count < 0)
/-- `is_zero`, line 317. -/
def EInt.isZero (e : EInt) : Bool := e.count == 0

/-- `operator==`, lines 321-328. -/
def EInt.eq (a b : EInt) : Bool :=
  if a.count ≠ b.count then false
  else (List.range a.size).all (fun i => a.chunks.getD i 0 == b.chunks.getD i 0)

/-- The loop of `operator<`, lines 340-344, from index `i` down. -/
def ltGo (a b : EInt) : Nat → Bool
  | 0 => false
  | i + 1 =>
    if a.chunks.getD i 0 ≠ b.chunks.getD i 0 then
      xor (decide (a.chunks.getD i 0 < b.chunks.getD i 0)) (decide (a.count < 0))
    else ltGo a b i

/-- `operator<`, lines 334-346. -/
def EInt.lt (a b : EInt) : Bool :=
  if a.count ≠ b.count then decide (a.count < b.count) else ltGo a b a.size

/-- `operator-()` and `neg`, lines 360-368. -/
def EInt.neg (e : EInt) : EInt := ⟨-e.count, e.chunks⟩

/-- The loops of the private `add`, lines 496-505, for `sz1 ≥ sz2`: the chunks and the carry. -/
def addGo : List Nat → List Nat → Nat → List Nat × Nat
  | [], _, t => ([], t)
  | a :: c1, [], t =>
    let t := w64 (t + a)
    let r := addGo c1 [] (t / B)
    (t % B :: r.1, r.2)
  | a :: c1, b :: c2, t =>
    let t := w64 (t + w64 (a + b))
    let r := addGo c1 c2 (t / B)
    (t % B :: r.1, r.2)

/-- Private `add`, lines 488-510. -/
def addU (N : Nat) (c1 c2 : List Nat) : EInt :=
  let (c1, c2) := if c1.length < c2.length then (c2, c1) else (c1, c2)
  let r := addGo c1 c2 0
  if r.2 ≠ 0 ∧ c1.length ≠ N then ⟨(c1.length : Int) + 1, r.1 ++ [r.2 % B]⟩ else ⟨c1.length, r.1⟩

/-- The loops of the private `dif`, lines 540-547, for `sz1 ≥ sz2`. -/
def difGo : List Nat → List Nat → Bool → List Nat
  | [], _, _ => []
  | a :: c1, [], f => w32 ((a : Int) - (if f then 1 else 0)) :: difGo c1 [] (decide (a = 0) && f)
  | a :: c1, b :: c2, f =>
    w32 ((a : Int) - b - (if f then 1 else 0)) :: difGo c1 c2 (decide (a < b) || (decide (a = b) && f))

/-- Lines 538-549: the subtraction proper. The result has `sz1 - 1` chunks, one more if the
chunk at that place is not zero. -/
def difCore (c1 c2 : List Nat) : EInt :=
  let r := difGo c1 c2 false
  if r.getD (c1.length - 1) 0 ≠ 0 then ⟨((c1.length - 1 : Nat) : Int) + 1, r⟩
  else ⟨((c1.length - 1 : Nat) : Int), r.take (c1.length - 1)⟩

/-- The loop of lines 520-532, for operands of equal size `sz`: `none` when all chunks agree,
otherwise whether the first is less and the number of chunks up to the highest difference. -/
def scanTop (c1 c2 : List Nat) : Nat → Option (Bool × Nat)
  | 0 => none
  | i + 1 =>
    if c1.getD i 0 < c2.getD i 0 then some (true, i + 1)
    else if c1.getD i 0 > c2.getD i 0 then some (false, i + 1)
    else scanTop c1 c2 i

/-- Private `dif`, lines 512-550. -/
def difU (c1 c2 : List Nat) : EInt :=
  if c1.length < c2.length then (difCore c2 c1).neg
  else if c1.length = c2.length then
    match scanTop c1 c2 c1.length with
    | none => ⟨0, []⟩
    | some (true, sz) => (difCore (c2.take sz) (c1.take sz)).neg
    | some (false, sz) => difCore (c1.take sz) (c2.take sz)
  else difCore c1 c2

/-- `add` and `operator+`, lines 370-392. -/
def EInt.add (N : Nat) (e1 e2 : EInt) : EInt :=
  if e1.count = 0 then e2
  else if e2.count = 0 then e1
  else
    let r := if xor (decide (e1.count > 0)) (decide (e2.count > 0)) then difU e1.chunks e2.chunks
      else addU N e1.chunks e2.chunks
    if e1.count < 0 then r.neg else r

/-- `dif` and `operator-`, lines 394-417. -/
def EInt.sub (N : Nat) (e1 e2 : EInt) : EInt :=
  if e1.count = 0 then e2.neg
  else if e2.count = 0 then e1
  else
    let r := if xor (decide (e1.count > 0)) (decide (e2.count > 0)) then addU N e1.chunks e2.chunks
      else difU e1.chunks e2.chunks
    if e1.count < 0 then r.neg else r

/-- The inner loop of the private `mul`, lines 559-568, for one `shift`: the new `cur` and `nxt`.
The `break` of line 560 is the same as skipping, as `first` only grows. -/
def mulInner (c1 c2 : List Nat) (shift cur : Nat) : Nat × Nat :=
  (List.range (shift + 1)).foldl (fun s first =>
    if first ≥ c1.length then s
    else if shift - first ≥ c2.length then s
    else
      let tmp := w64 (c1.getD first 0 * c2.getD (shift - first) 0)
      (w64 (s.1 + tmp % B), w64 (s.2 + tmp / B))) (cur, 0)

/-- The outer loop, lines 556-571: `n` rounds from `shift`, carrying `cur`. -/
def mulGo (c1 c2 : List Nat) : Nat → Nat → Nat → List Nat × Nat
  | 0, _, cur => ([], cur)
  | n + 1, shift, cur =>
    let s := mulInner c1 c2 shift cur
    let r := mulGo c1 c2 n (shift + 1) (w64 (s.2 + s.1 / B))
    (s.1 % B :: r.1, r.2)

/-- Private `mul`, lines 552-576. -/
def mulU (N : Nat) (c1 c2 : List Nat) : EInt :=
  let count := min N (c1.length + c2.length - 1)
  let r := mulGo c1 c2 count 0 0
  if r.2 ≠ 0 ∧ count ≠ N then ⟨(count : Int) + 1, r.1 ++ [r.2 % B]⟩ else ⟨count, r.1⟩

/-- `mul` and `operator*`, lines 429-443. -/
def EInt.mul (N : Nat) (e1 e2 : EInt) : EInt :=
  if e1.count = 0 ∨ e2.count = 0 then ⟨0, []⟩
  else
    let r := mulU N e1.chunks e2.chunks
    if xor (decide (e1.count > 0)) (decide (e2.count > 0)) then r.neg else r

end Verif.ExtInt
