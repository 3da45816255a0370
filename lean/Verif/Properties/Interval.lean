import Verif.Spec.Sets
import Mathlib.Tactic.Linarith
import Mathlib.Tactic.NormNum
import Mathlib.Tactic.Push
import Mathlib.Tactic.Ring
import Mathlib.Tactic.FieldSimp
import Mathlib.Algebra.Order.Ring.Abs
/-!
# C20, C21: interval predicates and interval algebra
-/
namespace Verif.Properties.Interval
open Verif.Interval Verif.Spec Verif.Isotropy

private theorem mem_lo {i : Ivl} (h : WF i) : Mem i (i.lo : ℚ) :=
  ⟨le_refl _, by exact_mod_cast h⟩
private theorem mem_hi {i : Ivl} (h : WF i) : Mem i (i.hi : ℚ) :=
  ⟨by exact_mod_cast h, le_refl _⟩

/-- `construct` always returns a well-formed interval with the two given end points. -/
theorem C20_construct (l h : Int) :
    WF (construct l h) ∧ ((construct l h).lo = l ∧ (construct l h).hi = h ∨
      (construct l h).lo = h ∧ (construct l h).hi = l) := by
  unfold construct WF
  split <;> simp <;> omega

/-- C20: `contains(interval, value)` is membership in the closed interval, or in the open
interval when touching does not count. -/
theorem C20_contains_value (i : Ivl) (v : Int) :
    (containsVal i v true = true ↔ Mem i v) ∧ (containsVal i v false = true ↔ Inside i v) := by
  simp only [containsVal, Mem, Inside, Int.cast_le, Int.cast_lt]
  constructor <;> simp <;> omega

/-- C20: `contains(interval, interval)` is inclusion of point sets. -/
theorem C20_contains_interval (a b : Ivl) (hb : WF b) :
    (containsIvl a b true = true ↔ ∀ x, Mem b x → Mem a x) ∧
    (containsIvl a b false = true ↔ ∀ x, Mem b x → Inside a x) := by
  have e : ∀ t, containsIvl a b t = (containsVal a b.lo t && containsVal a b.hi t) := fun _ => rfl
  constructor
  · rw [e, Bool.and_eq_true, (C20_contains_value a b.lo).1, (C20_contains_value a b.hi).1]
    constructor
    · rintro ⟨h1, h2⟩ x hx
      exact ⟨h1.1.trans hx.1, hx.2.trans h2.2⟩
    · intro h
      exact ⟨h _ (mem_lo hb), h _ (mem_hi hb)⟩
  · rw [e, Bool.and_eq_true, (C20_contains_value a b.lo).2, (C20_contains_value a b.hi).2]
    constructor
    · rintro ⟨h1, h2⟩ x hx
      exact ⟨h1.1.trans_le hx.1, hx.2.trans_lt h2.2⟩
    · intro h
      exact ⟨h _ (mem_lo hb), h _ (mem_hi hb)⟩

/-- C20: `intersects` with touching: the closed intervals share a point. -/
theorem C20_intersects_touch (a b : Ivl) (ha : WF a) (hb : WF b) :
    intersects a b true = true ↔ ∃ x, Mem a x ∧ Mem b x := by
  simp only [intersects, if_true, Bool.and_eq_true, decide_eq_true_eq]
  constructor
  · rintro ⟨h1, h2⟩
    refine ⟨((max a.lo b.lo : Int) : ℚ), ⟨?_, ?_⟩, ⟨?_, ?_⟩⟩ <;> unfold WF at * <;>
      exact_mod_cast (by omega)
  · rintro ⟨x, h1, h2⟩
    exact ⟨by exact_mod_cast h1.1.trans h2.2, by exact_mod_cast h2.1.trans h1.2⟩

/-- C20: `intersects` without touching: one interval's closed point set meets the other's
open one (for intervals of positive length: their interiors meet, next theorem). -/
theorem C20_intersects_no_touch (a b : Ivl) (ha : WF a) (hb : WF b) :
    intersects a b false = true ↔
      ∃ x, (Mem a x ∧ Inside b x) ∨ (Inside a x ∧ Mem b x) := by
  simp only [intersects, Bool.false_eq_true, if_false, Bool.and_eq_true, decide_eq_true_eq]
  constructor
  · rintro ⟨h1, h2⟩
    by_cases hlt : max a.lo b.lo < min a.hi b.hi
    · refine ⟨(((max a.lo b.lo : Int) : ℚ) + ((min a.hi b.hi : Int) : ℚ)) / 2, Or.inl ?_⟩
      have hlt' : ((max a.lo b.lo : Int) : ℚ) < ((min a.hi b.hi : Int) : ℚ) := by exact_mod_cast hlt
      have e1 : (a.lo : ℚ) ≤ ((max a.lo b.lo : Int) : ℚ) := by exact_mod_cast le_max_left _ _
      have e2 : (b.lo : ℚ) ≤ ((max a.lo b.lo : Int) : ℚ) := by exact_mod_cast le_max_right _ _
      have e3 : ((min a.hi b.hi : Int) : ℚ) ≤ (a.hi : ℚ) := by exact_mod_cast min_le_left _ _
      have e4 : ((min a.hi b.hi : Int) : ℚ) ≤ (b.hi : ℚ) := by exact_mod_cast min_le_right _ _
      exact ⟨⟨by linarith, by linarith⟩, by linarith, by linarith⟩
    · unfold WF at ha hb
      by_cases hd : a.lo = a.hi
      · refine ⟨(a.lo : ℚ), Or.inl ⟨⟨le_refl _, by exact_mod_cast ha⟩, ?_, ?_⟩⟩ <;>
          exact_mod_cast (by omega)
      · refine ⟨(b.lo : ℚ), Or.inr ⟨⟨?_, ?_⟩, le_refl _, by exact_mod_cast hb⟩⟩ <;>
          exact_mod_cast (by omega)
  · rintro ⟨x, ⟨h1, h2⟩ | ⟨h1, h2⟩⟩
    · exact ⟨by exact_mod_cast h1.1.trans_lt h2.2, by exact_mod_cast h2.1.trans_le h1.2⟩
    · exact ⟨by exact_mod_cast h1.1.trans_le h2.2, by exact_mod_cast h2.1.trans_lt h1.2⟩

/-- C20: for intervals of positive length `intersects` without touching is exactly
"the interiors meet". -/
theorem C20_intersects_no_touch_interiors (a b : Ivl) (ha : a.lo < a.hi) (hb : b.lo < b.hi) :
    intersects a b false = true ↔ ∃ x, Inside a x ∧ Inside b x := by
  rw [C20_intersects_no_touch a b ha.le hb.le]
  constructor
  · rintro ⟨x, h⟩
    have hlt : max a.lo b.lo < min a.hi b.hi := by
      have h1 : a.lo < b.hi ∧ b.lo < a.hi := by
        rcases h with ⟨h1, h2⟩ | ⟨h1, h2⟩
        · exact ⟨by exact_mod_cast h1.1.trans_lt h2.2, by exact_mod_cast h2.1.trans_le h1.2⟩
        · exact ⟨by exact_mod_cast h1.1.trans_le h2.2, by exact_mod_cast h2.1.trans_lt h1.2⟩
      omega
    refine ⟨(((max a.lo b.lo : Int) : ℚ) + ((min a.hi b.hi : Int) : ℚ)) / 2, ?_⟩
    have hlt' : ((max a.lo b.lo : Int) : ℚ) < ((min a.hi b.hi : Int) : ℚ) := by exact_mod_cast hlt
    have e1 : (a.lo : ℚ) ≤ ((max a.lo b.lo : Int) : ℚ) := by exact_mod_cast le_max_left _ _
    have e2 : (b.lo : ℚ) ≤ ((max a.lo b.lo : Int) : ℚ) := by exact_mod_cast le_max_right _ _
    have e3 : ((min a.hi b.hi : Int) : ℚ) ≤ (a.hi : ℚ) := by exact_mod_cast min_le_left _ _
    have e4 : ((min a.hi b.hi : Int) : ℚ) ≤ (b.hi : ℚ) := by exact_mod_cast min_le_right _ _
    exact ⟨⟨by linarith, by linarith⟩, by linarith, by linarith⟩
  · rintro ⟨x, h1, h2⟩
    exact ⟨x, Or.inl ⟨⟨h1.1.le, h1.2.le⟩, h2⟩⟩

/-- C20: `intersect` with touching returns true exactly when the closed intervals share a
point, and then leaves exactly the common points; otherwise the interval is unchanged. -/
theorem C20_intersect_touch (a b : Ivl) (ha : WF a) (hb : WF b) :
    ((intersect a b true).2 = true ↔ ∃ x, Mem a x ∧ Mem b x) ∧
    ((intersect a b true).2 = true → WF (intersect a b true).1 ∧
      ∀ x, Mem (intersect a b true).1 x ↔ Mem a x ∧ Mem b x) ∧
    ((intersect a b true).2 = false → (intersect a b true).1 = a) := by
  refine ⟨?_, ?_, ?_⟩
  · rw [← C20_intersects_touch a b ha hb]
    unfold WF at ha hb
    simp only [intersect, intersects, if_true, Bool.and_eq_true, decide_eq_true_eq]
    omega
  · intro h
    simp only [intersect, if_true, decide_eq_true_eq] at h
    simp only [intersect, if_true, decide_eq_true_eq, if_pos h, WF, Mem]
    refine ⟨h, fun x => ?_⟩
    push_cast
    simp only [max_le_iff, le_min_iff]
    tauto
  · intro h
    simp only [intersect, if_true] at h ⊢
    rw [h]; rfl

/-- C20: `intersect` without touching returns true exactly when the open intervals share a
point, and then leaves exactly the common points; otherwise the interval is unchanged. -/
theorem C20_intersect_no_touch (a b : Ivl) :
    ((intersect a b false).2 = true ↔ ∃ x, Inside a x ∧ Inside b x) ∧
    ((intersect a b false).2 = true → WF (intersect a b false).1 ∧
      ∀ x, Mem (intersect a b false).1 x ↔ Mem a x ∧ Mem b x) ∧
    ((intersect a b false).2 = false → (intersect a b false).1 = a) := by
  refine ⟨?_, ?_, ?_⟩
  · simp only [intersect, Bool.false_eq_true, if_false, decide_eq_true_eq]
    constructor
    · intro hlt
      refine ⟨(((max a.lo b.lo : Int) : ℚ) + ((min a.hi b.hi : Int) : ℚ)) / 2, ?_⟩
      have hlt' : ((max a.lo b.lo : Int) : ℚ) < ((min a.hi b.hi : Int) : ℚ) := by exact_mod_cast hlt
      have e1 : (a.lo : ℚ) ≤ ((max a.lo b.lo : Int) : ℚ) := by exact_mod_cast le_max_left _ _
      have e2 : (b.lo : ℚ) ≤ ((max a.lo b.lo : Int) : ℚ) := by exact_mod_cast le_max_right _ _
      have e3 : ((min a.hi b.hi : Int) : ℚ) ≤ (a.hi : ℚ) := by exact_mod_cast min_le_left _ _
      have e4 : ((min a.hi b.hi : Int) : ℚ) ≤ (b.hi : ℚ) := by exact_mod_cast min_le_right _ _
      exact ⟨⟨by linarith, by linarith⟩, by linarith, by linarith⟩
    · rintro ⟨x, h1, h2⟩
      have : ((max a.lo b.lo : Int) : ℚ) < ((min a.hi b.hi : Int) : ℚ) := by
        push_cast
        exact (max_lt h1.1 h2.1).trans (lt_min h1.2 h2.2)
      exact_mod_cast this
  · intro h
    simp only [intersect, Bool.false_eq_true, if_false, decide_eq_true_eq] at h
    simp only [intersect, Bool.false_eq_true, if_false, decide_eq_true_eq, if_pos h, WF, Mem]
    refine ⟨h.le, fun x => ?_⟩
    push_cast
    simp only [max_le_iff, le_min_iff]
    tauto
  · intro h
    simp only [intersect, Bool.false_eq_true, if_false] at h ⊢
    rw [h]; rfl

/-- C20: `generalized_intersect` is the intersection when the intervals meet and the gap
between them otherwise. -/
theorem C20_generalized_intersect (a b : Ivl) (ha : WF a) (hb : WF b) :
    (generalizedIntersect a b).lo = min (max a.lo b.lo) (min a.hi b.hi) ∧
    (generalizedIntersect a b).hi = max (max a.lo b.lo) (min a.hi b.hi) := by
  unfold WF at ha hb
  simp only [generalizedIntersect, insertSorted, if_pos hb]
  by_cases c1 : a.hi ≤ b.lo
  · simp only [if_pos c1, insertSorted, if_pos ha]
    omega
  · by_cases c2 : a.hi ≤ b.hi
    · by_cases c3 : a.lo ≤ b.lo
      · simp only [if_neg c1, if_pos c2, insertSorted, if_pos c3]; omega
      · simp only [if_neg c1, if_pos c2, insertSorted, if_neg c3, if_pos ha]; omega
    · by_cases c3 : a.lo ≤ b.lo
      · simp only [if_neg c1, if_neg c2, insertSorted, if_pos c3]; omega
      · by_cases c4 : a.lo ≤ b.hi
        · simp only [if_neg c1, if_neg c2, insertSorted, if_neg c3, if_pos c4]; omega
        · simp only [if_neg c1, if_neg c2, insertSorted, if_neg c3, if_neg c4, if_pos ha]; omega

/-- C20: `boundaries_intersect` with touching: the closed intervals meet and neither lies in
the other's interior. -/
theorem C20_boundaries_intersect_touch (a b : Ivl) (ha : WF a) (hb : WF b) :
    boundariesIntersect a b true = true ↔
      (∃ x, Mem a x ∧ Mem b x) ∧ ¬ (∀ x, Mem a x → Inside b x) ∧ ¬ (∀ x, Mem b x → Inside a x) := by
  rw [← C20_intersects_touch a b ha hb, ← (C20_contains_interval b a ha).2,
    ← (C20_contains_interval a b hb).2]
  unfold WF at ha hb
  simp only [boundariesIntersect, intersects, containsIvl, containsVal, Ivl.get, LOW, HIGH, if_true,
    Bool.and_eq_true, Bool.or_eq_true, decide_eq_true_eq, Bool.false_eq_true, if_false,
    one_ne_zero]
  omega

/-- C20: `abuts` on intervals of positive length: they share exactly one point. -/
theorem C20_abuts (a b : Ivl) (ha : a.lo < a.hi) (hb : b.lo < b.hi) :
    abuts a b = true ↔ ∃! x, Mem a x ∧ Mem b x := by
  have e : abuts a b = true ↔ b.lo = a.hi ∨ a.lo = b.hi := by
    simp [abuts, abutsDir, HIGH, LOW]
  rw [e]
  constructor
  · rintro (h | h)
    · refine ⟨(b.lo : ℚ), ⟨⟨?_, ?_⟩, ⟨le_refl _, by exact_mod_cast hb.le⟩⟩, ?_⟩
      · exact_mod_cast (by omega)
      · exact_mod_cast (by omega)
      · rintro y ⟨h1, h2⟩
        have : (b.lo : ℚ) = a.hi := by exact_mod_cast h
        exact le_antisymm (this ▸ h1.2) h2.1
    · refine ⟨(a.lo : ℚ), ⟨⟨le_refl _, by exact_mod_cast ha.le⟩, ⟨?_, ?_⟩⟩, ?_⟩
      · exact_mod_cast (by omega)
      · exact_mod_cast (by omega)
      · rintro y ⟨h1, h2⟩
        have : (a.lo : ℚ) = b.hi := by exact_mod_cast h
        exact le_antisymm (this ▸ h2.2) h1.1
  · rintro ⟨x, ⟨h1, h2⟩, hu⟩
    have g1 : a.lo ≤ b.hi := by exact_mod_cast h1.1.trans h2.2
    have g2 : b.lo ≤ a.hi := by exact_mod_cast h2.1.trans h1.2
    have k1 := hu ((max a.lo b.lo : Int) : ℚ) ⟨⟨by exact_mod_cast (by omega), by exact_mod_cast (by omega)⟩,
      ⟨by exact_mod_cast (by omega), by exact_mod_cast (by omega)⟩⟩
    have k2 := hu ((min a.hi b.hi : Int) : ℚ) ⟨⟨by exact_mod_cast (by omega), by exact_mod_cast (by omega)⟩,
      ⟨by exact_mod_cast (by omega), by exact_mod_cast (by omega)⟩⟩
    have k3 : max a.lo b.lo = min a.hi b.hi := by exact_mod_cast k1.trans k2.symm
    omega

/-- C20: `encompass` grows to the least interval containing both, and reports whether it
had to grow. -/
theorem C20_encompass (a b : Ivl) (ha : WF a) (hb : WF b) :
    WF (encompass a b).1 ∧
    (∀ x, Mem a x ∨ Mem b x → Mem (encompass a b).1 x) ∧
    (∀ c : Ivl, (∀ x, Mem a x ∨ Mem b x → Mem c x) → ∀ x, Mem (encompass a b).1 x → Mem c x) ∧
    ((encompass a b).2 = true ↔ (encompass a b).1 ≠ a) := by
  refine ⟨?_, ?_, ?_, ?_⟩
  · unfold WF at *; simp only [encompass]; omega
  · intro x hx
    simp only [encompass, Mem]
    push_cast
    rcases hx with hx | hx
    · exact ⟨min_le_of_left_le hx.1, le_max_of_le_left hx.2⟩
    · exact ⟨min_le_of_right_le hx.1, le_max_of_le_right hx.2⟩
  · intro c hc x hx
    have h1 := hc _ (Or.inl (mem_lo ha))
    have h2 := hc _ (Or.inl (mem_hi ha))
    have h3 := hc _ (Or.inr (mem_lo hb))
    have h4 := hc _ (Or.inr (mem_hi hb))
    simp only [encompass, Mem] at hx
    push_cast at hx
    exact ⟨(le_min h1.1 h3.1).trans hx.1, hx.2.trans (max_le h2.2 h4.2)⟩
  · unfold WF at *
    obtain ⟨al, ah⟩ := a
    simp only [encompass, containsIvl, containsVal, Ivl.get, LOW, HIGH, if_true, one_ne_zero,
      if_false, Ivl.mk.injEq, ne_eq] at *
    simp
    omega

/-- C20: `encompass(interval, value)` likewise. -/
theorem C20_encompass_value (a : Ivl) (v : Int) :
    encompassVal a v = encompass a ⟨v, v⟩ := by
  simp [encompassVal, encompass, containsIvl, Ivl.get, LOW, HIGH]

example : WF ⟨0, 5⟩ ∧ WF ⟨5, 9⟩ ∧ intersects ⟨0, 5⟩ ⟨5, 9⟩ true = true ∧
    intersects ⟨0, 5⟩ ⟨5, 9⟩ false = false ∧ abuts ⟨0, 5⟩ ⟨5, 9⟩ = true ∧
    encompass ⟨0, 5⟩ ⟨3, 9⟩ = (⟨0, 9⟩, true) ∧ generalizedIntersect ⟨0, 2⟩ ⟨5, 9⟩ = ⟨2, 5⟩ := by decide

/-! ## C21: interval algebra -/

/-- C21: `convolve` is the Minkowski sum. -/
theorem C21_convolve (a b : Ivl) (ha : WF a) (hb : WF b) (x : ℚ) :
    Mem (convolve a b) x ↔ ∃ y z, Mem a y ∧ Mem b z ∧ x = y + z := by
  have ha' : (a.lo : ℚ) ≤ a.hi := by exact_mod_cast ha
  have hb' : (b.lo : ℚ) ≤ b.hi := by exact_mod_cast hb
  simp only [Mem, convolve]
  push_cast
  constructor
  · rintro ⟨h1, h2⟩
    rcases le_total (x - b.hi) a.lo with h | h
    · exact ⟨a.lo, x - a.lo, ⟨le_refl _, ha'⟩, ⟨by linarith, by linarith⟩, by ring⟩
    · exact ⟨x - b.hi, b.hi, ⟨h, by linarith⟩, ⟨hb', le_refl _⟩, by ring⟩
  · rintro ⟨y, z, ⟨h1, h2⟩, ⟨h3, h4⟩, rfl⟩
    exact ⟨by linarith, by linarith⟩

/-- C21: `reflected_convolve` is the Minkowski difference set `{y - z}`. -/
theorem C21_reflected_convolve (a b : Ivl) (ha : WF a) (hb : WF b) (x : ℚ) :
    Mem (reflectedConvolve a b) x ↔ ∃ y z, Mem a y ∧ Mem b z ∧ x = y - z := by
  have ha' : (a.lo : ℚ) ≤ a.hi := by exact_mod_cast ha
  have hb' : (b.lo : ℚ) ≤ b.hi := by exact_mod_cast hb
  simp only [Mem, reflectedConvolve]
  push_cast
  constructor
  · rintro ⟨h1, h2⟩
    rcases le_total (x + b.lo) a.lo with h | h
    · exact ⟨a.lo, a.lo - x, ⟨le_refl _, ha'⟩, ⟨by linarith, by linarith⟩, by ring⟩
    · exact ⟨x + b.lo, b.lo, ⟨h, by linarith⟩, ⟨le_refl _, hb'⟩, by ring⟩
  · rintro ⟨y, z, ⟨h1, h2⟩, ⟨h3, h4⟩, rfl⟩
    exact ⟨by linarith, by linarith⟩

/-- C21: deconvolution undoes convolution, in each of the three variants and in both orders. -/
theorem C21_deconvolve (a b : Ivl) (v : Int) :
    deconvolve (convolve a b) b = a ∧ convolve (deconvolve a b) b = a ∧
    reflectedDeconvolve (reflectedConvolve a b) b = a ∧
    reflectedConvolve (reflectedDeconvolve a b) b = a ∧
    deconvolveVal (convolveVal a v) v = a ∧ convolveVal (deconvolveVal a v) v = a := by
  obtain ⟨al, ah⟩ := a
  obtain ⟨bl, bh⟩ := b
  simp [deconvolve, convolve, reflectedDeconvolve, reflectedConvolve, deconvolveVal, convolveVal]

/-- C21: bloating by `b ≥ 0` gives the points within distance `b`; shrinking by `s ≥ 0` the
points whose whole `s`-neighbourhood is inside. -/
theorem C21_bloat_shrink (i : Ivl) (h : WF i) (b : Int) (hb : 0 ≤ b) (x : ℚ) :
    (Mem (bloat i b) x ↔ ∃ y, Mem i y ∧ |x - y| ≤ b) ∧
    (Mem (shrink i b) x ↔ ∀ y, |y - x| ≤ b → Mem i y) := by
  have h' : (i.lo : ℚ) ≤ i.hi := by exact_mod_cast h
  have hb' : (0 : ℚ) ≤ b := by exact_mod_cast hb
  simp only [Mem, bloat, shrink, abs_le]
  push_cast
  constructor
  · constructor
    · rintro ⟨h1, h2⟩
      rcases le_total x i.lo with hx | hx
      · exact ⟨i.lo, ⟨le_refl _, h'⟩, by linarith, by linarith⟩
      · rcases le_total x i.hi with hx2 | hx2
        · exact ⟨x, ⟨hx, hx2⟩, by linarith, by linarith⟩
        · exact ⟨i.hi, ⟨h', le_refl _⟩, by linarith, by linarith⟩
    · rintro ⟨y, ⟨h1, h2⟩, h3, h4⟩
      exact ⟨by linarith, by linarith⟩
  · constructor
    · rintro ⟨h1, h2⟩ y ⟨h3, h4⟩
      exact ⟨by linarith, by linarith⟩
    · intro hy
      have h1 := hy (x - b) ⟨by linarith, by linarith⟩
      have h2 := hy (x + b) ⟨by linarith, by linarith⟩
      exact ⟨by linarith [h1.1], by linarith [h2.2]⟩

/-- C21: one-sided bloat/shrink move only the named side, outward/inward. -/
theorem C21_bloat_dir (i : Ivl) (b : Int) :
    bloatDir i LOW b = ⟨i.lo - b, i.hi⟩ ∧ bloatDir i HIGH b = ⟨i.lo, i.hi + b⟩ ∧
    shrinkDir i LOW b = ⟨i.lo + b, i.hi⟩ ∧ shrinkDir i HIGH b = ⟨i.lo, i.hi - b⟩ ∧
    bloatDir (bloatDir i LOW b) HIGH b = bloat i b := by
  simp [bloatDir, shrinkDir, bloat, Ivl.set, Ivl.get, dir1Sign, LOW, HIGH]
  omega

/-- C21: `flip`, `move` and `scale_up` (positive factor) map the point set pointwise. -/
theorem C21_flip_move_scale (i : Ivl) (axis d f : Int) (hf : 0 < f) (x : ℚ) :
    (Mem (Interval.flip i axis) x ↔ Mem i (2 * axis - x)) ∧
    (Mem (move i d) x ↔ Mem i (x - d)) ∧
    (Mem (scaleUp i f) x ↔ Mem i (x / f)) := by
  have hf' : (0 : ℚ) < f := by exact_mod_cast hf
  simp only [Mem, Interval.flip, move, scaleUp]
  push_cast
  refine ⟨⟨?_, ?_⟩, ⟨?_, ?_⟩, ?_⟩
  · rintro ⟨h1, h2⟩; exact ⟨by linarith, by linarith⟩
  · rintro ⟨h1, h2⟩; exact ⟨by linarith, by linarith⟩
  · rintro ⟨h1, h2⟩; exact ⟨by linarith, by linarith⟩
  · rintro ⟨h1, h2⟩; exact ⟨by linarith, by linarith⟩
  · rw [le_div_iff₀ hf', div_le_iff₀ hf']

/-- C21: `scale_down` by a positive factor undoes `scale_up` and keeps well-formedness. -/
theorem C21_scale_down (i : Ivl) (f : Int) (hf : 0 < f) :
    scaleDown (scaleUp i f) f = i ∧ (WF i → WF (scaleDown i f)) := by
  constructor
  · obtain ⟨l, h⟩ := i
    simp [scaleDown, scaleUp, Int.mul_tdiv_cancel _ (by omega : f ≠ 0)]
  · intro h
    exact Int.tdiv_le_tdiv hf h

/-- C21: the centre lies in the interval, within one unit of the exact midpoint. -/
theorem C21_center (i : Ivl) (h : WF i) :
    i.lo ≤ center i ∧ center i ≤ i.hi ∧ |2 * center i - (i.lo + i.hi)| ≤ 1 := by
  unfold WF at h
  unfold center
  have h2 : (i.hi + i.lo).tdiv 2 * 2 + (i.hi + i.lo).tmod 2 = i.hi + i.lo := Int.tdiv_mul_add_tmod _ _
  have h3 : -2 < (i.hi + i.lo).tmod 2 ∧ (i.hi + i.lo).tmod 2 < 2 := by
    rcases le_total 0 (i.hi + i.lo) with hs | hs
    · exact ⟨by have := Int.tmod_nonneg 2 hs; omega, Int.tmod_lt_of_pos _ (by omega)⟩
    · have e : (i.hi + i.lo).tmod 2 = -((-(i.hi + i.lo)).tmod 2) := by
        rw [Int.neg_tmod]; omega
      have := Int.tmod_nonneg 2 (a := -(i.hi + i.lo)) (by omega)
      have := Int.tmod_lt_of_pos (-(i.hi + i.lo)) (b := 2) (by omega)
      omega
  refine ⟨by omega, by omega, abs_le.mpr ⟨by omega, by omega⟩⟩

/-- C21: the two halves returned by `get_half` cover the interval and meet in one point,
the centre. -/
theorem C21_get_half (i : Ivl) (h : WF i) (x : ℚ) :
    (Mem i x ↔ Mem (getHalf i LOW) x ∨ Mem (getHalf i HIGH) x) ∧
    (Mem (getHalf i LOW) x ∧ Mem (getHalf i HIGH) x ↔ x = center i) := by
  obtain ⟨h1, h2, -⟩ := C21_center i h
  have e1 : getHalf i LOW = ⟨i.lo, center i⟩ := by
    have : i.lo + i.hi = i.hi + i.lo := by ring
    simp only [getHalf, construct, Ivl.get, LOW, HIGH, center, if_true, one_ne_zero, if_false, this] at *
    rw [if_neg (by omega)]
  have e2 : getHalf i HIGH = ⟨center i, i.hi⟩ := by
    have : i.lo + i.hi = i.hi + i.lo := by ring
    simp only [getHalf, construct, Ivl.get, LOW, HIGH, center, if_true, one_ne_zero, if_false, this] at *
    rw [if_neg (by omega)]
  have h1' : (i.lo : ℚ) ≤ center i := by exact_mod_cast h1
  have h2' : (center i : ℚ) ≤ i.hi := by exact_mod_cast h2
  rw [e1, e2]
  simp only [Mem]
  constructor
  · constructor
    · rintro ⟨a, b⟩
      rcases le_total x (center i) with c | c
      · exact Or.inl ⟨a, c⟩
      · exact Or.inr ⟨c, b⟩
    · rintro (⟨a, b⟩ | ⟨a, b⟩)
      · exact ⟨a, b.trans h2'⟩
      · exact ⟨h1'.trans a, b⟩
  · constructor
    · rintro ⟨⟨_, a⟩, b, _⟩; exact le_antisymm a b
    · rintro rfl; exact ⟨⟨h1', le_refl _⟩, le_refl _, h2'⟩

/-- C21: `join_with` succeeds exactly on abutting intervals and then denotes the union;
otherwise nothing changes. -/
theorem C21_join_with (a b : Ivl) (ha : WF a) (hb : WF b) :
    ((joinWith a b).2 = true ↔ (a.hi = b.lo ∨ b.hi = a.lo)) ∧
    ((joinWith a b).2 = true → ∀ x, Mem (joinWith a b).1 x ↔ Mem a x ∨ Mem b x) ∧
    ((joinWith a b).2 = false → (joinWith a b).1 = a) := by
  have e : abuts a b = true ↔ b.lo = a.hi ∨ a.lo = b.hi := by
    simp [abuts, abutsDir, HIGH, LOW]
  unfold joinWith
  by_cases hab : abuts a b = true
  · rw [if_pos hab]
    refine ⟨by rw [e] at hab; simp; omega, fun _ x => ?_, by simp⟩
    rw [e] at hab
    have ha' : (a.lo : ℚ) ≤ a.hi := by exact_mod_cast ha
    have hb' : (b.lo : ℚ) ≤ b.hi := by exact_mod_cast hb
    have hab' : (b.lo : ℚ) = a.hi ∨ (a.lo : ℚ) = b.hi := by exact_mod_cast hab
    simp only [encompass, Mem]
    push_cast
    simp only [min_le_iff, le_max_iff]
    constructor
    · rintro ⟨h1, h2⟩
      rcases hab' with h | h
      · rcases le_total x a.hi with c | c
        · left; exact ⟨by rcases h1 with h1 | h1 <;> linarith, c⟩
        · right; exact ⟨by linarith, by rcases h2 with h2 | h2 <;> linarith⟩
      · rcases le_total x a.lo with c | c
        · right; exact ⟨by rcases h1 with h1 | h1 <;> linarith, by linarith⟩
        · left; exact ⟨c, by rcases h2 with h2 | h2 <;> linarith⟩
    · rintro (⟨h1, h2⟩ | ⟨h1, h2⟩)
      · exact ⟨Or.inl h1, Or.inl h2⟩
      · exact ⟨Or.inr h1, Or.inr h2⟩
  · rw [if_neg hab]
    rw [e] at hab
    refine ⟨by simp; omega, by simp, fun _ => rfl⟩

example : WF ⟨-3, 4⟩ ∧ center ⟨-3, -2⟩ = -2 ∧ getHalf ⟨-3, 4⟩ LOW = ⟨-3, 0⟩ ∧
    joinWith ⟨0, 2⟩ ⟨2, 5⟩ = (⟨0, 5⟩, true) ∧ bloat ⟨0, 2⟩ 3 = ⟨-3, 5⟩ := by decide

end Verif.Properties.Interval
