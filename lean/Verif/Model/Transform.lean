import Verif.Model.Isotropy
/-!
# Model of `transform.hpp`

All line numbers refer to `/repo/include/boost/polygon/transform.hpp`.
`atr_` is kept as the unsigned value 0..7 and every operation is the C++ bit
manipulation. Coordinates are unbounded integers.
-/
namespace Verif.Transform
open Verif.Isotropy

/-- Bit tests `(atr_ & 4) != 0` etc. used throughout, e.g. lines 139-141. -/
def bit0 (a : Nat) : Bool := a &&& 1 != 0
/-- See `bit0`. -/
def bit1 (a : Nat) : Bool := a &&& 2 != 0
/-- See `bit0`. -/
def bit2 (a : Nat) : Bool := a &&& 4 != 0

/-- Reading a two-element array `a[i]` with the index computed at run time,
lines 145-157 (the indexes there are always 0 or 1). -/
def at2 {α : Type} (a0 a1 : α) (i : Nat) : α := if i = 0 then a0 else a1

/-- `axis_transformation::operator+=`, lines 138-159: `this += a`. -/
def axisAdd (this a : Nat) : Nat :=
  let abit2 := bit2 a; let abit1 := bit1 a; let abit0 := bit0 a
  let b2 := bit2 this; let b1 := bit1 this; let b0 := bit0 this
  let idx00 := b2.toNat; let idx01 := (!b2).toNat
  let idx10 := abit2.toNat; let idx11 := (!abit2).toNat
  let nbit1 := b1.toNat ^^^ at2 abit0.toNat abit1.toNat idx01
  let nbit0 := b0.toNat ^^^ at2 abit0.toNat abit1.toNat idx00
  let idx00' := at2 idx10 idx11 idx00
  let nbit2 := idx00' &&& 1
  (nbit2 <<< 2) + (nbit1 <<< 1) + nbit0

/-- `axis_transformation::get_directions`, lines 179-187:
returns (horizontal_dir, vertical_dir). -/
def getDirections (a : Nat) : Nat × Nat :=
  (((bit2 a).toNat <<< 1) + (!bit0 a).toNat,
   ((!bit2 a).toNat <<< 1) + (!bit1 a).toNat)

/-- `axis_transformation::set_directions`, lines 216-223. -/
def setDirections (h v : Nat) : Nat :=
  let b2 := (orientOfDir2 h != 0).toNat
  let b1 := (v &&& 1 == 0).toNat
  let b0 := (h &&& 1 == 0).toNat
  (b2 <<< 2) + (b1 <<< 1) + b0

/-- `axis_transformation::populate_axis_array`, lines 169-175:
returns (axis_array[0], axis_array[1]). -/
def populateAxisArray (a : Nat) : Nat × Nat :=
  (((bit2 a).toNat <<< 1) + (bit0 a).toNat, ((!bit2 a).toNat <<< 1) + (bit1 a).toNat)

/-- `axis_transformation::combine_axis_arrays`, lines 190-203. -/
def combineAxisArrays (this that : Nat × Nat) : Nat × Nat :=
  let i0 := this.1 >>> 1; let i1 := this.2 >>> 1
  (this.1 ||| ((this.1 &&& 1) ^^^ at2 (that.1 &&& 1) (that.2 &&& 1) i0),
   this.2 ||| ((this.2 &&& 1) ^^^ at2 (that.1 &&& 1) (that.2 &&& 1) i1))

/-- `axis_transformation::write_back_axis_array`, lines 207-212. -/
def writeBackAxisArray (this : Nat × Nat) : Nat :=
  ((this.1 &&& 2 != 0).toNat <<< 2) + ((this.2 &&& 1) <<< 1) + (this.1 &&& 1)

/-- `axis_transformation::transform`, lines 227-234. -/
def axisTransform (a : Nat) (p : Int × Int) : Int × Int :=
  let x := p.1 * (-(((bit0 a).toNat <<< 1 : Nat) - 1 : Int))
  let y := p.2 * (-(((bit1 a).toNat <<< 1 : Nat) - 1 : Int))
  predicatedSwap (bit2 a) (x, y)

/-- `axis_transformation::invert`, lines 237-247. -/
def axisInvert (a : Nat) : Nat :=
  let b := predicatedSwap (bit2 a) ((bit0 a).toNat, (bit1 a).toNat)
  (a &&& (32 + 16 + 8 + 4)) ||| b.1 ||| (b.2 <<< 1)

/-- `axis_transformation(const orientation_2d&)`, lines 92-98. -/
def axisOfOrientation (o : Nat) : Nat := at2 4 0 o

/-- `axis_transformation(const direction_2d&)`, lines 100-108. -/
def axisOfDirection (d : Nat) : Nat :=
  if d = 0 then 5 else if d = 1 then 4 else if d = 2 then 2 else 0

/-- Data of `anisotropic_scale_factor`, lines 263-344. Factors are rationals
(the C++ uses floating point; rounding of the product is not modelled). -/
structure Scale where
  sx : Rat
  sy : Rat
deriving DecidableEq

/-- `anisotropic_scale_factor::get`, lines 277-279. -/
def Scale.get (s : Scale) (o : Nat) : Rat := if o = 0 then s.sx else s.sy

/-- `anisotropic_scale_factor::operator+=`, lines 310-315. -/
def Scale.add (s t : Scale) : Scale := ⟨s.sx * t.sx, s.sy * t.sy⟩

/-- `anisotropic_scale_factor::invert`, lines 337-341. -/
def Scale.invert (s : Scale) : Scale := ⟨1 / s.sx, 1 / s.sy⟩

/-- `scaling_policy::round`, isotropy.hpp lines 189-191: `floor(t + 0.5)`. -/
def roundHalfUp (q : Rat) : Int := (q + 1 / 2).floor

/-- `anisotropic_scale_factor::scale`, lines 329-334. Both coordinates really are
multiplied by `get(HORIZONTAL)`. -/
def Scale.scale (s : Scale) (p : Int × Int) : Int × Int :=
  (roundHalfUp ((p.1 : Rat) * s.get HORIZONTAL), roundHalfUp ((p.2 : Rat) * s.get HORIZONTAL))

/-- `anisotropic_scale_factor::transform`, lines 318-326: the slot of the
orientation each axis maps to receives that axis' factor, in order. -/
def Scale.transform (s : Scale) (a : Nat) : Scale :=
  let d := getDirections a
  let set (t : Scale) (o : Nat) (v : Rat) : Scale := if o = 0 then ⟨v, t.sy⟩ else ⟨t.sx, v⟩
  set (set s (orientOfDir2 d.1) s.sx) (orientOfDir2 d.2) s.sy

/-- Data of `transformation`, lines 351-472 (`atr_`, `p_`). -/
structure Transformation where
  atr : Nat
  p : Int × Int
deriving DecidableEq

/-- `transformation::transform`, lines 441-445. -/
def Transformation.transform (t : Transformation) (q : Int × Int) : Int × Int :=
  axisTransform t.atr (q.1 - t.p.1, q.2 - t.p.2)

/-- `transformation::invert`, lines 448-456. -/
def Transformation.invert (t : Transformation) : Transformation :=
  let q := axisTransform t.atr t.p
  ⟨axisInvert t.atr, (q.1 * -1, q.2 * -1)⟩

/-- `transformation::operator+=`, lines 407-416. The locals `x, y` are read
without being initialised; the indeterminate value is the parameter `junk`. -/
def Transformation.add (junk : Int × Int) (t u : Transformation) : Transformation :=
  let q := t.invert.transform junk
  ⟨axisAdd t.atr u.atr, (t.p.1 + q.1, t.p.2 + q.2)⟩

end Verif.Transform
