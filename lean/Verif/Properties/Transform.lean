import Verif.Model.Transform
import Mathlib.Tactic.IntervalCases
import Mathlib.Tactic.Ring
import Mathlib.Algebra.Order.Ring.Rat
import Mathlib.Data.Rat.Floor
/-!
# C16 – C19: directions, axis transformations, transformations, scale factors
-/
namespace Verif.Properties.Transform
open Verif.Isotropy Verif.Transform

/-! ## Specification: directions are unit vectors -/

/-- The unit vector a `direction_2d` value stands for (WEST, EAST, SOUTH, NORTH). -/
def unitVec : Nat → Int × Int
  | 0 => (-1, 0)
  | 1 => (1, 0)
  | 2 => (0, -1)
  | _ => (0, 1)

/-- Rotation of the plane by +90 degrees. -/
def rotL (p : Int × Int) : Int × Int := (-p.2, p.1)

/-- C16: `left()` is rotation by +90°, `right()` by −90°, `backward()` by 180°, and each
result is again a direction. -/
theorem C16_turns_are_rotations (d : Nat) (h : d < 4) :
    (dir2Left d < 4 ∧ unitVec (dir2Left d) = rotL (unitVec d)) ∧
    (dir2Right d < 4 ∧ rotL (unitVec (dir2Right d)) = unitVec d) ∧
    (dir2Backward d < 4 ∧ unitVec (dir2Backward d) = rotL (rotL (unitVec d))) := by
  interval_cases d <;> decide

/-- C16: composing any number of left turns rotates that many times. -/
theorem C16_iterated_left (d : Nat) (h : d < 4) (n : Nat) :
    dir2Left^[n] d < 4 ∧ unitVec (dir2Left^[n] d) = rotL^[n] (unitVec d) := by
  induction n generalizing d with
  | zero => exact ⟨h, rfl⟩
  | succ n ih =>
    have h1 := (C16_turns_are_rotations d h).1
    have := ih (dir2Left d) h1.1
    simp only [Function.iterate_succ, Function.comp]
    exact ⟨this.1, by rw [this.2, h1.2]⟩

/-- C16: sign and orientation accessors agree with the unit vector, and
`get_direction` rebuilds the direction from them. -/
theorem C16_accessors (d : Nat) (h : d < 4) :
    (unitVec d).1 + (unitVec d).2 = dir2Sign d ∧
    dir1Sign (dir1OfDir2 d) = dir2Sign d ∧
    (orientOfDir2 d = HORIZONTAL ↔ (unitVec d).2 = 0) ∧
    (orientOfDir2 d = VERTICAL ↔ (unitVec d).1 = 0) ∧
    getDirection (orientOfDir2 d) (dir1OfDir2 d) = d ∧
    dir2Left d = getDirection (perpendicular (orientOfDir2 d))
      (if dir2IsPositive d = (orientOfDir2 d == HORIZONTAL) then HIGH else LOW) := by
  interval_cases d <;> decide

example : dir2Left EAST = NORTH ∧ dir2Right EAST = SOUTH ∧ dir2Backward NORTH = SOUTH := by decide

/-! ## C17: axis transformations -/

/-- C17: `+` is composition: `(a + b)(p) = b (a p)` for every point. -/
theorem C17_add_is_composition (a b : Nat) (ha : a < 8) (hb : b < 8) (p : Int × Int) :
    axisTransform (axisAdd a b) p = axisTransform b (axisTransform a p) := by
  obtain ⟨x, y⟩ := p
  interval_cases a <;> interval_cases b <;>
    simp [axisTransform, axisAdd, bit0, bit1, bit2, at2, predicatedSwap]

/-- C17: `invert` undoes the transformation on both sides, for every point. -/
theorem C17_invert (a : Nat) (ha : a < 8) (p : Int × Int) :
    axisTransform (axisInvert a) (axisTransform a p) = p ∧
    axisTransform a (axisTransform (axisInvert a) p) = p := by
  obtain ⟨x, y⟩ := p
  interval_cases a <;> simp [axisTransform, axisInvert, bit0, bit1, bit2, predicatedSwap]

/-- C17: results stay in range, the neutral element is `NULL_TRANSFORM`, and the action
on the plane is faithful: different values move some point differently. -/
theorem C17_group (a b c : Nat) (ha : a < 8) (hb : b < 8) (hc : c < 8) :
    axisAdd a b < 8 ∧ axisInvert a < 8 ∧ axisAdd a 0 = a ∧ axisAdd 0 a = a ∧
    axisAdd a (axisInvert a) = 0 ∧ axisAdd (axisInvert a) a = 0 ∧
    axisAdd (axisAdd a b) c = axisAdd a (axisAdd b c) ∧
    ((∀ p, axisTransform a p = axisTransform b p) → a = b) := by
  refine ⟨?_, ?_, ?_, ?_, ?_, ?_, ?_, ?_⟩
  · interval_cases a <;> interval_cases b <;> decide
  · interval_cases a <;> decide
  · interval_cases a <;> decide
  · interval_cases a <;> decide
  · interval_cases a <;> decide
  · interval_cases a <;> decide
  · interval_cases a <;> interval_cases b <;> interval_cases c <;> decide
  · intro h
    have h1 := h (1, 2)
    revert h1
    clear h
    interval_cases a <;> interval_cases b <;> decide

/-- C17: `get_directions` reports the images of the positive axes, and
`set_directions` is its inverse. -/
theorem C17_directions (a : Nat) (ha : a < 8) :
    axisTransform a (1, 0) = unitVec (getDirections a).1 ∧
    axisTransform a (0, 1) = unitVec (getDirections a).2 ∧
    setDirections (getDirections a).1 (getDirections a).2 = a ∧
    writeBackAxisArray (populateAxisArray a) = a := by
  interval_cases a <;> decide

/-- C17: for every legal pair of directions (perpendicular ones) `get_directions` undoes
`set_directions`. -/
theorem C17_set_get_directions (h v : Nat) (hh : h < 4) (hv : v < 4)
    (hperp : orientOfDir2 h ≠ orientOfDir2 v) :
    getDirections (setDirections h v) = (h, v) ∧ setDirections h v < 8 := by
  revert hperp
  interval_cases h <;> interval_cases v <;> decide

/-- The static helper `combine_axis_arrays` (lines 190-203), documented as concatenating two
transformations, does not: combining the encodings of "swap" with "flip x" gives the
encoding of something else than their composition. -/
theorem C17_combine_axis_arrays_wrong :
    ∃ a b, a < 8 ∧ b < 8 ∧
      writeBackAxisArray (combineAxisArrays (populateAxisArray a) (populateAxisArray b)) ≠
        axisAdd a b := by
  exact ⟨4, 4, by decide, by decide, by decide⟩

example : axisTransform 5 (3, 7) = (7, -3) ∧ axisAdd 5 5 = 3 := by decide

/-! ## C18: transformations with offset -/

/-- C18: `invert` undoes a transformation on every point, on both sides. -/
theorem C18_invert (t : Transformation) (ht : t.atr < 8) (q : Int × Int) :
    t.invert.transform (t.transform q) = q ∧ t.transform (t.invert.transform q) = q := by
  obtain ⟨a, px, py⟩ := t
  obtain ⟨x, y⟩ := q
  simp only at ht
  constructor <;> interval_cases a <;>
    simp [Transformation.transform, Transformation.invert, axisTransform, axisInvert, bit0, bit1,
      bit2, predicatedSwap]

/-- C18 (violation): whatever value the uninitialised locals have, there are
transformations whose `+` does not compose them: the translation of the right operand is
never read. -/
theorem C18_composition_violated (junk : Int × Int) :
    ∃ t u q, t.atr < 8 ∧ u.atr < 8 ∧
      (Transformation.add junk t u).transform q ≠ u.transform (t.transform q) := by
  by_contra hcon
  push Not at hcon
  have h1 := hcon ⟨0, (0, 0)⟩ ⟨0, (0, 0)⟩ (0, 0) (by decide) (by decide)
  have h2 := hcon ⟨0, (0, 0)⟩ ⟨0, (1, 0)⟩ (0, 0) (by decide) (by decide)
  rw [show Transformation.add junk ⟨0, (0, 0)⟩ ⟨0, (1, 0)⟩ =
    Transformation.add junk ⟨0, (0, 0)⟩ ⟨0, (0, 0)⟩ from rfl, h1] at h2
  exact absurd h2 (by decide)

/-- C18 (partial): composition is right exactly when the indeterminate locals happen to
hold `u.p` minus the image of `t.p`. What is missing for the full property is that the C++
sets them so; it reads them uninitialised (and initialising them to `u.p` would only be
right for `t.p = 0`). -/
theorem C18_composition_partial (junk : Int × Int) (t u : Transformation)
    (ht : t.atr < 8) (hu : u.atr < 8) :
    (∀ q, (Transformation.add junk t u).transform q = u.transform (t.transform q)) ↔
      junk + axisTransform t.atr t.p = u.p := by
  obtain ⟨a, px, py⟩ := t
  obtain ⟨b, ux, uy⟩ := u
  obtain ⟨jx, jy⟩ := junk
  simp only at ht hu
  constructor
  · intro h
    have h0 := h (0, 0)
    clear h
    revert h0
    interval_cases a <;> interval_cases b <;>
      simp [Transformation.transform, Transformation.invert, Transformation.add, axisAdd, at2,
        axisTransform, axisInvert, bit0, bit1, bit2, predicatedSwap] <;> omega
  · intro h q
    obtain ⟨x, y⟩ := q
    revert h
    interval_cases a <;> interval_cases b <;>
      simp [Transformation.transform, Transformation.invert, Transformation.add, axisAdd, at2,
        axisTransform, axisInvert, bit0, bit1, bit2, predicatedSwap] <;> omega

example : (Transformation.mk 5 (1, 2)).invert.transform
    ((Transformation.mk 5 (1, 2)).transform (10, 20)) = (10, 20) := by decide

/-! ## C19: anisotropic scale factors -/

/-- The English property: each axis is scaled by its own factor, then rounded. -/
def ScalesEachAxis (s : Scale) (p q : Int × Int) : Prop :=
  q = (⌊(p.1 : ℚ) * s.sx + 1 / 2⌋, ⌊(p.2 : ℚ) * s.sy + 1 / 2⌋)

theorem roundHalfUp_eq (q : ℚ) : roundHalfUp q = ⌊q + 1 / 2⌋ := rfl

/-- C19 (violation): `scale` multiplies y by the horizontal factor. -/
theorem C19_scale_violated : ∃ s p, ¬ ScalesEachAxis s p (s.scale p) := by
  refine ⟨⟨1, 2⟩, (3, 4), ?_⟩
  unfold ScalesEachAxis Scale.scale
  simp only [roundHalfUp_eq, Scale.get, HORIZONTAL]
  norm_num

/-- C19 (partial): right for every point when both factors are equal; for different factors
it is wrong (previous theorem), so the full property is false of the code. -/
theorem C19_scale_partial (s : Scale) (h : s.sx = s.sy) (p : Int × Int) :
    ScalesEachAxis s p (s.scale p) := by
  unfold ScalesEachAxis Scale.scale
  simp [roundHalfUp_eq, Scale.get, HORIZONTAL, h]

/-- C19: transforming a scale factor by an axis transformation makes scaling commute with
the transformation: the factor that used to act on an axis acts on the axis' image. -/
theorem C19_transform (s : Scale) (a : Nat) (ha : a < 8) :
    (s.transform a).get (orientOfDir2 (getDirections a).1) = s.get HORIZONTAL ∧
    (s.transform a).get (orientOfDir2 (getDirections a).2) = s.get VERTICAL := by
  obtain ⟨x, y⟩ := s
  interval_cases a <;>
    simp [Scale.transform, Scale.get, getDirections, orientOfDir2, bit0, bit1, bit2, HORIZONTAL,
      VERTICAL]

/-- C19: `invert` is inverse to concatenation for non-zero factors. -/
theorem C19_invert (s : Scale) (hx : s.sx ≠ 0) (hy : s.sy ≠ 0) :
    s.add s.invert = ⟨1, 1⟩ := by
  simp [Scale.add, Scale.invert, hx, hy]

example : ScalesEachAxis ⟨2, 2⟩ (3, 4) ((⟨2, 2⟩ : Scale).scale (3, 4)) :=
  C19_scale_partial _ rfl _

end Verif.Properties.Transform
