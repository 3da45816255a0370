/-!
# Model of `isotropy.hpp`

Directions and orientations are kept as the unsigned integers the C++ stores in
`val_`, and all operations are the same bit formulas.
All line numbers refer to `/repo/include/boost/polygon/isotropy.hpp`.
-/
namespace Verif.Isotropy

/-- `direction_1d_enum`, lines 329-333: LOW = LEFT = CLOCKWISE = 0. -/
def LOW : Nat := 0
/-- `direction_1d_enum`, lines 329-333: HIGH = RIGHT = COUNTERCLOCKWISE = 1. -/
def HIGH : Nat := 1
/-- `orientation_2d_enum`, line 334. -/
def HORIZONTAL : Nat := 0
/-- `orientation_2d_enum`, line 334. -/
def VERTICAL : Nat := 1
/-- `direction_2d_enum`, line 335. -/
def WEST : Nat := 0
/-- `direction_2d_enum`, line 335. -/
def EAST : Nat := 1
/-- `direction_2d_enum`, line 335. -/
def SOUTH : Nat := 2
/-- `direction_2d_enum`, line 335. -/
def NORTH : Nat := 3

/-- `direction_1d::backward`, line 363: `val_ ^= 1`. -/
def dir1Backward (v : Nat) : Nat := v ^^^ 1
/-- `direction_1d::get_sign`, line 364: `val_ * 2 - 1` converted to int. -/
def dir1Sign (v : Nat) : Int := (v : Int) * 2 - 1

/-- `orientation_2d::turn_90` / `get_perpendicular`, lines 383-388. -/
def perpendicular (o : Nat) : Nat := o ^^^ 1
/-- `orientation_2d::get_direction`, lines 448-450. -/
def getDirection (o dir : Nat) : Nat := (o <<< 1) + dir

/-- `direction_2d::backward`, lines 421-424. -/
def dir2Backward (v : Nat) : Nat := v ^^^ 1
/-- `direction_2d::turn`, lines 427-429. -/
def dir2Turn (v t : Nat) : Nat := v ^^^ 3 ^^^ (v >>> 1) ^^^ t
/-- `direction_2d::left`, line 432. -/
def dir2Left (v : Nat) : Nat := dir2Turn v HIGH
/-- `direction_2d::right`, line 435. -/
def dir2Right (v : Nat) : Nat := dir2Turn v LOW
/-- `direction_2d::is_positive`, line 438. -/
def dir2IsPositive (v : Nat) : Bool := v &&& 1 != 0
/-- `direction_2d::get_sign`, line 440: `(is_positive() << 1) - 1`. -/
def dir2Sign (v : Nat) : Int := ((dir2IsPositive v).toNat <<< 1 : Nat) - 1
/-- `direction_1d(const direction_2d&)`, line 444. -/
def dir1OfDir2 (v : Nat) : Nat := v &&& 1
/-- `orientation_2d(const direction_2d&)`, line 446. -/
def orientOfDir2 (v : Nat) : Nat := v >>> 1

/-- `predicated_swap`, lines 319-327 (the pair of values after the call). -/
def predicatedSwap {α : Type} (pred : Bool) (p : α × α) : α × α :=
  if pred then (p.2, p.1) else p

/-- `euclidean_distance` on coordinates, lines 299-302 (integers unbounded). -/
def coordDistance (a b : Int) : Int := if a < b then b - a else a - b

end Verif.Isotropy
