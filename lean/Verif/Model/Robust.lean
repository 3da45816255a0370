import Mathlib.Analysis.Real.Sqrt
import Mathlib.Algebra.Order.Field.Basic
/-!
# Model of `detail/voronoi_robust_fpt.hpp`: `robust_fpt`, `robust_dif`, `robust_sqrt_expr`

Line numbers refer to `/repo/include/boost/polygon/detail/voronoi_robust_fpt.hpp`.

`robust_dif` is a template over a number type; it is modelled over any ordered field `K` (the
instantiations over a rounding type are outside this model). `robust_sqrt_expr` is modelled with
unbounded integers for `_int` and exact reals for `_fpt`. `robust_fpt` is modelled over the reals
with an explicit rounding function applied to the result of every floating-point operation on the
value; the arithmetic on the error counter is exact.
-/
namespace Verif.Robust

/-! ### `robust_dif` -/

/-- `robust_dif`, lines 241-333. -/
structure Dif (K : Type*) where
  pos : K
  neg : K

namespace Dif
variable {K : Type*} [Field K] [LinearOrder K]

/-- `robust_dif()`, lines 244-246. -/
def zero : Dif K := ⟨0, 0⟩
/-- `robust_dif(value)`, lines 248-250. -/
def ofVal (v : K) : Dif K := ⟨if v > 0 then v else 0, if v < 0 then -v else 0⟩
/-- `dif()`, lines 256-258. -/
def dif (a : Dif K) : K := a.pos - a.neg
/-- `operator-()`, lines 268-270. -/
def negate (a : Dif K) : Dif K := ⟨a.neg, a.pos⟩
/-- `operator+=(T)`, lines 272-278. -/
def addEqT (a : Dif K) (v : K) : Dif K := if ¬ v < 0 then ⟨a.pos + v, a.neg⟩ else ⟨a.pos, a.neg - v⟩
/-- `operator+=(robust_dif)`, lines 280-284. -/
def addEq (a b : Dif K) : Dif K := ⟨a.pos + b.pos, a.neg + b.neg⟩
/-- `operator-=(T)`, lines 286-292. -/
def subEqT (a : Dif K) (v : K) : Dif K := if ¬ v < 0 then ⟨a.pos, a.neg + v⟩ else ⟨a.pos - v, a.neg⟩
/-- `operator-=(robust_dif)`, lines 294-298. -/
def subEq (a b : Dif K) : Dif K := ⟨a.pos + b.neg, a.neg + b.pos⟩
/-- `operator*=(T)`, lines 300-310. -/
def mulEqT (a : Dif K) (v : K) : Dif K := if ¬ v < 0 then ⟨a.pos * v, a.neg * v⟩ else ⟨a.neg * -v, a.pos * -v⟩
/-- `operator*=(robust_dif)`, lines 312-320. -/
def mulEq (a b : Dif K) : Dif K := ⟨a.pos * b.pos + a.neg * b.neg, a.pos * b.neg + a.neg * b.pos⟩
/-- `operator/=(T)`, lines 322-332. -/
def divEqT (a : Dif K) (v : K) : Dif K := if ¬ v < 0 then ⟨a.pos / v, a.neg / v⟩ else ⟨a.neg / -v, a.pos / -v⟩
/-- `operator+(robust_dif, robust_dif)`, lines 343-347. -/
def add (a b : Dif K) : Dif K := ⟨a.pos + b.pos, a.neg + b.neg⟩
/-- `operator+(robust_dif, T)`, lines 349-356. -/
def addT (a : Dif K) (v : K) : Dif K := if ¬ v < 0 then ⟨a.pos + v, a.neg⟩ else ⟨a.pos, a.neg - v⟩
/-- `operator+(T, robust_dif)`, lines 358-365. -/
def tAdd (v : K) (b : Dif K) : Dif K := if ¬ v < 0 then ⟨v + b.pos, b.neg⟩ else ⟨b.pos, b.neg - v⟩
/-- `operator-(robust_dif, robust_dif)`, lines 367-371. -/
def sub (a b : Dif K) : Dif K := ⟨a.pos + b.neg, a.neg + b.pos⟩
/-- `operator-(robust_dif, T)`, lines 373-380. -/
def subT (a : Dif K) (v : K) : Dif K := if ¬ v < 0 then ⟨a.pos, a.neg + v⟩ else ⟨a.pos - v, a.neg⟩
/-- `operator-(T, robust_dif)`, lines 382-389. -/
def tSub (v : K) (b : Dif K) : Dif K := if ¬ v < 0 then ⟨v + b.neg, b.pos⟩ else ⟨b.neg, b.pos - v⟩
/-- `operator*(robust_dif, robust_dif)`, lines 391-397. -/
def mul (a b : Dif K) : Dif K := ⟨a.pos * b.pos + a.neg * b.neg, a.pos * b.neg + a.neg * b.pos⟩
/-- `operator*(robust_dif, T)`, lines 399-406. -/
def mulT (a : Dif K) (v : K) : Dif K := if ¬ v < 0 then ⟨a.pos * v, a.neg * v⟩ else ⟨-a.neg * v, -a.pos * v⟩
/-- `operator*(T, robust_dif)`, lines 408-415. -/
def tMul (v : K) (b : Dif K) : Dif K := if ¬ v < 0 then ⟨v * b.pos, v * b.neg⟩ else ⟨-v * b.neg, -v * b.pos⟩
/-- `operator/(robust_dif, T)`, lines 417-424. -/
def divT (a : Dif K) (v : K) : Dif K := if ¬ v < 0 then ⟨a.pos / v, a.neg / v⟩ else ⟨-a.neg / v, -a.pos / v⟩

end Dif

/-- A program over `robust_dif`: any composition of its constructors and operators. -/
inductive DExpr (K : Type*) where
  | zero
  | ofVal (v : K)
  | negate (a : DExpr K)
  | addEqT (a : DExpr K) (v : K) | addEq (a b : DExpr K) | subEqT (a : DExpr K) (v : K) | subEq (a b : DExpr K)
  | mulEqT (a : DExpr K) (v : K) | mulEq (a b : DExpr K) | divEqT (a : DExpr K) (v : K)
  | add (a b : DExpr K) | addT (a : DExpr K) (v : K) | tAdd (v : K) (b : DExpr K)
  | sub (a b : DExpr K) | subT (a : DExpr K) (v : K) | tSub (v : K) (b : DExpr K)
  | mul (a b : DExpr K) | mulT (a : DExpr K) (v : K) | tMul (v : K) (b : DExpr K) | divT (a : DExpr K) (v : K)

/-- Running the program with the library's operators. -/
def DExpr.run {K : Type*} [Field K] [LinearOrder K] : DExpr K → Dif K
  | zero => Dif.zero | ofVal v => Dif.ofVal v | negate a => a.run.negate
  | addEqT a v => a.run.addEqT v | addEq a b => a.run.addEq b.run
  | subEqT a v => a.run.subEqT v | subEq a b => a.run.subEq b.run
  | mulEqT a v => a.run.mulEqT v | mulEq a b => a.run.mulEq b.run | divEqT a v => a.run.divEqT v
  | add a b => a.run.add b.run | addT a v => a.run.addT v | tAdd v b => Dif.tAdd v b.run
  | sub a b => a.run.sub b.run | subT a v => a.run.subT v | tSub v b => Dif.tSub v b.run
  | mul a b => a.run.mul b.run | mulT a v => a.run.mulT v | tMul v b => Dif.tMul v b.run
  | divT a v => a.run.divT v

/-! ### `robust_sqrt_expr` -/

/-- Outcome of a division in exact arithmetic: undefined when the divisor is zero. -/
noncomputable def divE (x y : ℝ) : Option ℝ := open Classical in if y = 0 then none else some (x / y)

/-- `(!is_neg(a) && !is_neg(b)) || (!is_pos(a) && !is_pos(b))`, lines 451-452. -/
def sameSide (a b : ℝ) : Prop := (¬ a < 0 ∧ ¬ b < 0) ∨ (¬ 0 < a ∧ ¬ 0 < b)

/-- `eval1`, lines 438-444. -/
noncomputable def eval1 (A B : Int) : ℝ := A * Real.sqrt B

open Classical in
/-- `eval2`, lines 446-455. -/
noncomputable def eval2 (A0 B0 A1 B1 : Int) : Option ℝ :=
  let a := eval1 A0 B0
  let b := eval1 A1 B1
  if sameSide a b then some (a + b)
  else divE ((A0 * A0 * B0 - A1 * A1 * B1 : Int) : ℝ) (a - b)

open Classical in
/-- `eval3`, lines 457-470. -/
noncomputable def eval3 (A0 B0 A1 B1 A2 B2 : Int) : Option ℝ := do
  let a ← eval2 A0 B0 A1 B1
  let b := eval1 A2 B2
  if sameSide a b then return a + b
  else
    let n ← eval2 (A0 * A0 * B0 + A1 * A1 * B1 - A2 * A2 * B2) 1 (A0 * A1 * 2) (B0 * B1)
    divE n (a - b)

open Classical in
/-- `eval4`, lines 473-491. -/
noncomputable def eval4 (A0 B0 A1 B1 A2 B2 A3 B3 : Int) : Option ℝ := do
  let a ← eval2 A0 B0 A1 B1
  let b ← eval2 A2 B2 A3 B3
  if sameSide a b then return a + b
  else
    let n ← eval3 (A0 * A0 * B0 + A1 * A1 * B1 - A2 * A2 * B2 - A3 * A3 * B3) 1 (A0 * A1 * 2) (B0 * B1)
      (A2 * A3 * -2) (B2 * B3)
    divE n (a - b)

end Verif.Robust
