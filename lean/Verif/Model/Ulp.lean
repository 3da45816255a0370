/-!
# Model of `ulp_comparison<fpt64>`

Line numbers refer to `/repo/include/boost/polygon/detail/voronoi_ctypes.hpp`. A double is given by
its 64-bit pattern, a number below `2^64` (`std::memcpy`, lines 49-50).
-/
namespace Verif.Ulp

/-- The enumerators of lines 39-43. -/
def LESS : Int := -1
/-- See `LESS`. -/
def EQUAL : Int := 0
/-- See `LESS`. -/
def MORE : Int := 1

/-- Lines 56-59: patterns with a clear sign bit are reflected. -/
def ord (ll : Nat) : Nat := if ll < 2 ^ 63 then 2 ^ 63 - ll else ll

/-- `operator()`, lines 45-67. `uint64` subtraction wraps. -/
def ulpCompare (a b maxUlps : Nat) : Int :=
  let a := ord a
  let b := ord b
  if a > b then (if (a + 2 ^ 64 - b) % 2 ^ 64 ≤ maxUlps then EQUAL else LESS)
  else if (b + 2 ^ 64 - a) % 2 ^ 64 ≤ maxUlps then EQUAL else MORE

end Verif.Ulp
