/-!
# Machine integers

The library's default instantiation: `int` coordinates (32 bits), `long long` areas and
`unsigned long long` unsigned areas (64 bits), `isotropy.hpp` lines 109-121. Signed overflow is
undefined behaviour (`none`); unsigned arithmetic wraps.
-/
namespace Verif.Machine

/-- The value is a 32-bit `int`. -/
def I32 (z : Int) : Prop := -2 ^ 31 ≤ z ∧ z < 2 ^ 31
/-- The value is a 64-bit `long long`. -/
def I64 (z : Int) : Prop := -2 ^ 63 ≤ z ∧ z < 2 ^ 63

instance (z : Int) : Decidable (I32 z) := inferInstanceAs (Decidable (_ ∧ _))
instance (z : Int) : Decidable (I64 z) := inferInstanceAs (Decidable (_ ∧ _))

/-- Result of a signed 64-bit operation whose exact result is `z`: undefined when it overflows. -/
def i64 (z : Int) : Option Int := if I64 z then some z else none
/-- Result of a signed 32-bit operation whose exact result is `z`: undefined when it overflows. -/
def i32 (z : Int) : Option Int := if I32 z then some z else none
/-- Result of an unsigned 64-bit operation whose exact result is `z`: wraps around. -/
def u64 (z : Int) : Int := z % 2 ^ 64

theorem i64_some {z : Int} (h : -2 ^ 63 ≤ z ∧ z < 2 ^ 63) : i64 z = some z := if_pos h
theorem i32_some {z : Int} (h : -2 ^ 31 ≤ z ∧ z < 2 ^ 31) : i32 z = some z := if_pos h
theorem u64_id {z : Int} (h0 : 0 ≤ z) (h : z < 2 ^ 64) : u64 z = z := Int.emod_eq_of_lt h0 h

end Verif.Machine
