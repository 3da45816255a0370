import Verif.Model.Isotropy
/-!
# Model of `interval_concept.hpp` / `interval_data.hpp`

All line numbers refer to `/repo/include/boost/polygon/interval_concept.hpp`
unless another file is named. Coordinates are unbounded integers; C++ integer
division is `Int.tdiv`. Functions that mutate their first argument return the
new value.
-/
namespace Verif.Interval
open Verif.Isotropy

/-- `interval_data`, interval_data.hpp lines 21-109 (`coords_[0]`, `coords_[1]`). -/
structure Ivl where
  lo : Int
  hi : Int
deriving DecidableEq, Repr

/-- `get(interval, dir)`, lines 87-98 and interval_data.hpp lines 54-56. -/
def Ivl.get (i : Ivl) (dir : Nat) : Int := if dir = 0 then i.lo else i.hi

/-- `set(interval, dir, value)`, lines 102-114. -/
def Ivl.set (i : Ivl) (dir : Nat) (v : Int) : Ivl :=
  if dir = 0 then ⟨v, i.hi⟩ else ⟨i.lo, v⟩

/-- `construct`, lines 118-134. -/
def construct (low high : Int) : Ivl := if low > high then ⟨high, low⟩ else ⟨low, high⟩

/-- `contains(interval, value, consider_touch)`, lines 259-277. -/
def containsVal (i : Ivl) (v : Int) (touch : Bool) : Bool :=
  if touch then v ≤ i.hi && v ≥ i.lo else v < i.hi && v > i.lo

/-- `contains(interval, interval, consider_touch)`, lines 281-299. -/
def containsIvl (a b : Ivl) (touch : Bool) : Bool :=
  containsVal a (b.get LOW) touch && containsVal a (b.get HIGH) touch

/-- `center`, lines 303-314. -/
def center (i : Ivl) : Int := (i.hi + i.lo).tdiv 2

/-- `delta`, lines 318-331. -/
def delta (i : Ivl) : Int := i.hi - i.lo

/-- `flip`, lines 335-352. -/
def flip (i : Ivl) (axis : Int) : Ivl := ⟨2 * axis - i.hi, 2 * axis - i.lo⟩

/-- `scale_up`, lines 356-373. -/
def scaleUp (i : Ivl) (f : Int) : Ivl := ⟨i.lo * f, i.hi * f⟩

/-- `scale_down`, lines 377-394. -/
def scaleDown (i : Ivl) (f : Int) : Ivl := ⟨i.lo.tdiv f, i.hi.tdiv f⟩

/-- `move`, lines 420-439. -/
def move (i : Ivl) (d : Int) : Ivl := ⟨i.lo + d, i.hi + d⟩

/-- `convolve(interval, value)`, lines 443-461. -/
def convolveVal (i : Ivl) (v : Int) : Ivl := ⟨i.lo + v, i.hi + v⟩

/-- `deconvolve(interval, value)`, lines 465-483. -/
def deconvolveVal (i : Ivl) (v : Int) : Ivl := ⟨i.lo - v, i.hi - v⟩

/-- `convolve(interval, interval)`, lines 487-506. -/
def convolve (a b : Ivl) : Ivl := ⟨a.lo + b.lo, a.hi + b.hi⟩

/-- `deconvolve(interval, interval)`, lines 510-529. -/
def deconvolve (a b : Ivl) : Ivl := ⟨a.lo - b.lo, a.hi - b.hi⟩

/-- `reflected_convolve`, lines 533-554. -/
def reflectedConvolve (a b : Ivl) : Ivl := ⟨a.lo - b.hi, a.hi - b.lo⟩

/-- `reflected_deconvolve`, lines 558-579. -/
def reflectedDeconvolve (a b : Ivl) : Ivl := ⟨a.lo + b.hi, a.hi + b.lo⟩

/-- The table look-up `dist[(dist[1] > 0) + ((dist[2] > 0) << 1)]` of lines 600 and 626.
The array has three elements; index 3 is out of bounds (`none`). -/
def distPick (d1 d2 : Int) : Option Int :=
  match (decide (d1 > 0)).toNat + ((decide (d2 > 0)).toNat <<< 1) with
  | 0 => some 0
  | 1 => some d1
  | 2 => some d2
  | _ => none

/-- `euclidean_distance(interval, position)`, lines 583-601. -/
def distVal (i : Ivl) (p : Int) : Option Int := distPick (i.lo - p) (p - i.hi)

/-- `euclidean_distance(interval, interval)`, lines 605-627. -/
def distIvl (a b : Ivl) : Option Int := distPick (a.lo - b.hi) (b.lo - a.hi)

/-- `intersects`, lines 631-652. -/
def intersects (a b : Ivl) (touch : Bool) : Bool :=
  if touch then a.lo ≤ b.hi && a.hi ≥ b.lo else a.lo < b.hi && a.hi > b.lo

/-- `boundaries_intersect`, lines 656-676. -/
def boundariesIntersect (a b : Ivl) (touch : Bool) : Bool :=
  (containsVal a b.lo touch || containsVal a b.hi touch) &&
  (containsVal b a.lo touch || containsVal b a.hi touch)

/-- `intersect`, lines 680-705: (new lvalue, return value). -/
def intersect (a b : Ivl) (touch : Bool) : Ivl × Bool :=
  let lowVal := max a.lo b.lo
  let highVal := min a.hi b.hi
  let valid : Bool := if touch then lowVal ≤ highVal else lowVal < highVal
  (if valid then ⟨lowVal, highVal⟩ else a, valid)

/-- Insertion into a sorted list, used for `polygon_sort(coords, coords + 4)`, line 729. -/
def insertSorted (x : Int) : List Int → List Int
  | [] => [x]
  | y :: ys => if x ≤ y then x :: y :: ys else y :: insertSorted x ys

/-- `generalized_intersect`, lines 710-733: sort the four coordinates, keep [1] and [2]. -/
def generalizedIntersect (a b : Ivl) : Ivl :=
  match insertSorted a.lo (insertSorted a.hi (insertSorted b.lo (insertSorted b.hi []))) with
  | [_, c1, c2, _] => ⟨c1, c2⟩
  | _ => a

/-- `abuts(interval1, interval2, dir)`, lines 737-755. -/
def abutsDir (a b : Ivl) (dir : Nat) : Bool := if dir != 0 then b.lo == a.hi else a.lo == b.hi

/-- `abuts(interval1, interval2)`, lines 759-776. -/
def abuts (a b : Ivl) : Bool := abutsDir a b HIGH || abutsDir a b LOW

/-- `bloat(interval, bloating)`, lines 780-795. -/
def bloat (i : Ivl) (b : Int) : Ivl := ⟨i.lo - b, i.hi + b⟩

/-- `bloat(interval, dir, bloating)`, lines 799-814. -/
def bloatDir (i : Ivl) (dir : Nat) (b : Int) : Ivl := i.set dir (i.get dir + dir1Sign dir * b)

/-- `shrink(interval, shrinking)`, lines 818-831. -/
def shrink (i : Ivl) (s : Int) : Ivl := bloat i (-s)

/-- `shrink(interval, dir, shrinking)`, lines 835-849. -/
def shrinkDir (i : Ivl) (dir : Nat) (s : Int) : Ivl := bloatDir i dir (-s)

/-- `encompass(interval, interval)`, lines 853-870. -/
def encompass (a b : Ivl) : Ivl × Bool :=
  (⟨min a.lo b.lo, max a.hi b.hi⟩, !containsIvl a b true)

/-- `encompass(interval, value)`, lines 874-890. -/
def encompassVal (a : Ivl) (v : Int) : Ivl × Bool :=
  (⟨min a.lo v, max a.hi v⟩, !containsVal a v true)

/-- `get_half`, lines 894-909. -/
def getHalf (i : Ivl) (dir : Nat) : Ivl :=
  let c := (i.get LOW + i.get HIGH).tdiv 2
  construct (if dir = LOW then i.get LOW else c) (if dir = LOW then c else i.get HIGH)

/-- `join_with`, lines 913-930. -/
def joinWith (a b : Ivl) : Ivl × Bool :=
  if abuts a b then ((encompass a b).1, true) else (a, false)

/-- `interval_data::operator<`, interval_data.hpp lines 88-93. -/
def Ivl.blt (a b : Ivl) : Bool := if a.lo != b.lo then a.lo < b.lo else a.hi < b.hi

end Verif.Interval
