import Mathlib.Data.Rat.Defs
import Mathlib.Algebra.Order.Ring.Rat
import Mathlib.Algebra.Field.Rat
/-!
# Model of `simplify`

Line numbers refer to `/repo/include/boost/polygon/detail/polygon_simplify.hpp`. Coordinates and the
floating-point type `ftype` are exact rationals; `none` stands for a NaN (`0 / 0`), which compares
false with everything.
-/
namespace Verif.Simplify

abbrev P := ℚ × ℚ

/-- The squared distance computed for the vertex `b` between `a` and `c`, lines 53-86. When `c = a`
the quotient `projf` is `0 / 0`, everything computed from it is NaN, both comparisons with `f2` are
false and `dist2` is NaN. -/
def dist2 (a b c : P) : Option ℚ :=
  let abx := b.1 - a.1
  let aby := b.2 - a.2
  let bcx := c.1 - b.1
  let bcy := c.2 - b.2
  let acx := c.1 - a.1
  let acy := c.2 - a.2
  let ab_ab := abx * abx + aby * aby
  let bc_bc := bcx * bcx + bcy * bcy
  let ac_ac := acx * acx + acy * acy
  let ab_ac := abx * acx + aby * acy
  if ac_ac = 0 then none
  else
    let projf := ab_ac / ac_ac
    let projx := acx * projf
    let projy := acy * projf
    let perpx := abx - projx
    let perpy := aby - projy
    let f2 := (projx * acx + projy * acx) / ac_ac
    if f2 < 0 then some ab_ab
    else if f2 > 1 then some bc_bc
    else some (perpx * perpx + perpy * perpy)

/-- `dist2 > len2`, lines 47 and 88. -/
def keep (len : ℚ) (a b c : P) : Bool :=
  match dist2 a b c with
  | none => false
  | some d => decide (d > len * len)

/-- The `for` loop of lines 48-95 from the vertex `i` on: `prev` is the vertex kept last, the list
holds the vertices from `i` to the end, and the first vertex is looked at last. The result is what is
appended to `out`. -/
def passGo (len : ℚ) (first second : P) : P → List P → List P
  | prev, [] => if keep len prev first second then [first] else []
  | prev, b :: r =>
    let next := r.head?.getD first
    if keep len prev b next then b :: passGo len first second b r else passGo len first second prev r

/-- One pass over `dst`, lines 47-95. -/
def pass (len : ℚ) : List P → List P
  | a :: b :: r => passGo len a b a (b :: r)
  | d => d

theorem passGo_length (len : ℚ) (f s p : P) (l : List P) : (passGo len f s p l).length ≤ l.length + 1 := by
  induction l generalizing p with
  | nil => unfold passGo; split <;> simp
  | cons b r ih =>
    unfold passGo
    dsimp only
    split
    · simpa using ih b
    · have := ih p; simp only [List.length_cons]; omega

theorem pass_length (len : ℚ) (d : List P) : (pass len d).length ≤ d.length := by
  unfold pass
  split
  · exact passGo_length len _ _ _ _
  · exact Nat.le_refl _

/-- The `while` loop, lines 38-104: the final `dst` and `final_result`; `none` when the loop returns
early because fewer than three vertices are left (lines 40-43). -/
def loop (len : ℚ) (d : List P) (n : Nat) : Option (List P × Nat) :=
  if d.length < 3 then none
  else
    if d.length - (pass len d).length = 0 then some (d, n)
    else loop len (pass len d) (n + (d.length - (pass len d).length))
termination_by d.length
decreasing_by
  have := pass_length len d
  omega

/-- `simplify`, lines 16-111: the vertices left in `dst` and the returned count. `none` for an empty
`src`, whose `front` and `back` do not exist. `--final_result` is on a `size_t`. -/
def simplify (src : List P) (len : ℚ) : Option (List P × Int) :=
  match src.head?, src.getLast? with
  | some f, some l =>
    match loop len src 0 with
    | none => some ([], src.length)
    | some (d, n) =>
      if f = l then some (d ++ d.head?.toList, if n = 0 then 2 ^ 64 - 1 else (n : Int) - 1)
      else some (d, n)
  | _, _ => none

end Verif.Simplify
