import Mathlib.Data.Nat.Digits.Lemmas
import Mathlib.Data.Int.Order.Basic
import Verif.Model.ExtInt
/-!
# Specification of `extended_int`: the integer a representation stands for
-/
namespace Verif.Spec
open Verif.ExtInt

/-- The number represented: the sign of `count_` times the chunks read in base `2^32`, least
significant first. -/
def EInt.value (e : EInt) : Int := e.count.sign * (Nat.ofDigits (2 ^ 32) e.chunks : Nat)

/-- What the class keeps at all times: `|count_|` chunks, at most `N`, each below `2^32`. -/
def EInt.WF (N : Nat) (e : EInt) : Prop := e.chunks.length = e.count.natAbs ∧ e.chunks.length ≤ N ∧ ∀ c ∈ e.chunks, c < 2 ^ 32

/-- The most significant chunk is not zero. -/
def EInt.Canonical (e : EInt) : Prop := ∀ h : e.chunks ≠ [], e.chunks.getLast h ≠ 0

/-- Arithmetic expressions over machine integers: the ways a value of the class comes about. -/
inductive IntExpr
  | lit (z : Int)
  | neg (e : IntExpr)
  | add (a b : IntExpr)
  | sub (a b : IntExpr)
  | mul (a b : IntExpr)

/-- The integer an expression stands for. -/
def IntExpr.denote : IntExpr → Int
  | lit z => z
  | neg e => -e.denote
  | add a b => a.denote + b.denote
  | sub a b => a.denote - b.denote
  | mul a b => a.denote * b.denote

/-- What the class computes for an expression with capacity `N`; `none` is undefined behaviour. -/
def IntExpr.run (N : Nat) : IntExpr → Option EInt
  | lit z => ofInt64 z
  | neg e => do return (← e.run N).neg
  | add a b => do return EInt.add N (← a.run N) (← b.run N)
  | sub a b => do return EInt.sub N (← a.run N) (← b.run N)
  | mul a b => do return EInt.mul N (← a.run N) (← b.run N)

/-- Every literal is an `int64` other than the least, and every intermediate result fits in `N`
chunks. -/
def IntExpr.Fits (N : Nat) : IntExpr → Prop
  | lit z => -2 ^ 63 < z ∧ z < 2 ^ 63
  | neg e => e.Fits N
  | add a b => a.Fits N ∧ b.Fits N ∧ (a.denote + b.denote).natAbs < 2 ^ (32 * N)
  | sub a b => a.Fits N ∧ b.Fits N ∧ (a.denote - b.denote).natAbs < 2 ^ (32 * N)
  | mul a b => a.Fits N ∧ b.Fits N ∧ (a.denote * b.denote).natAbs < 2 ^ (32 * N)

/-- `x + y` is zero, or has at most one 32-bit chunk fewer than the longer of `x` and `y`: for all
`k`, if one of them has more than `k` chunks then the sum has at least `k`. -/
def ShallowSum (x y : Int) : Prop :=
  x + y = 0 ∨ ∀ k, 2 ^ (32 * k) ≤ max x.natAbs y.natAbs → 2 ^ (32 * k) ≤ 2 ^ 32 * (x + y).natAbs

/-- No sum or difference is more than one chunk shorter than its operands, unless it is zero. -/
def IntExpr.Shallow : IntExpr → Prop
  | lit _ => True
  | neg e => e.Shallow
  | add a b => a.Shallow ∧ b.Shallow ∧ ShallowSum a.denote b.denote
  | sub a b => a.Shallow ∧ b.Shallow ∧ ShallowSum a.denote (-b.denote)
  | mul a b => a.Shallow ∧ b.Shallow

end Verif.Spec
