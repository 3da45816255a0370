import Verif.Model.Ulp
import Verif.Spec.Ulp
import Mathlib.Tactic.Ring
import Mathlib.Tactic.Linarith
import Mathlib.Tactic.NormNum
import Mathlib.Tactic.FieldSimp
import Mathlib.Order.Monotone.Basic
import Mathlib.Data.Int.Interval
import Mathlib.Tactic.Positivity
/-!
# C37: `ulp_comparison`
-/
namespace Verif.Properties.Ulp
open Verif.Ulp Verif.Spec.Double

/-! ### the values in units of `2^-1074` -/

/-- The magnitude of the pattern with the sign bit cleared, in units of `2^-1074`. -/
def U (m : Nat) : Nat := if m / 2 ^ 52 = 0 then m % 2 ^ 52 else (2 ^ 52 + m % 2 ^ 52) * 2 ^ (m / 2 ^ 52 - 1)

theorem U_step (m : Nat) : U m < U (m + 1) := by
  unfold U
  by_cases h : m % 2 ^ 52 = 2 ^ 52 - 1
  · have h1 : (m + 1) / 2 ^ 52 = m / 2 ^ 52 + 1 := by omega
    have h2 : (m + 1) % 2 ^ 52 = 0 := by omega
    rw [h1, h2, h, if_neg (show ¬ m / 2 ^ 52 + 1 = 0 by omega)]
    by_cases h0 : m / 2 ^ 52 = 0
    · rw [if_pos h0, h0]; norm_num
    · rw [if_neg h0]
      obtain ⟨k, hk⟩ : ∃ k, m / 2 ^ 52 = k + 1 := ⟨m / 2 ^ 52 - 1, by omega⟩
      rw [hk]
      rw [Nat.add_sub_cancel, Nat.add_sub_cancel, pow_succ 2 k]
      have : 0 < 2 ^ k := by positivity
      generalize 2 ^ k = q at *
      norm_num
      omega
  · have h1 : (m + 1) / 2 ^ 52 = m / 2 ^ 52 := by omega
    have h2 : (m + 1) % 2 ^ 52 = m % 2 ^ 52 + 1 := by omega
    rw [h1, h2]
    by_cases h0 : m / 2 ^ 52 = 0
    · rw [if_pos h0, if_pos h0]; omega
    · rw [if_neg h0, if_neg h0]
      exact Nat.mul_lt_mul_of_pos_right (by omega) (by positivity)

theorem U_mono : StrictMono U := strictMono_nat_of_lt_succ U_step

/-- The sign-magnitude number of a pattern. -/
def sm (w : Nat) : Int := if w < 2 ^ 63 then (w : Int) else -((w : Int) - 2 ^ 63)

/-- `U` extended to negative numbers. -/
def UZ (z : Int) : Int := if 0 ≤ z then (U z.toNat : Int) else -(U (-z).toNat : Int)

theorem U_zero : U 0 = 0 := by decide

theorem UZ_mono : StrictMono UZ := by
  intro x y h
  unfold UZ
  have p : ∀ n : Nat, 0 < n → 0 < U n := fun n hn => by
    have := U_mono hn; rw [U_zero] at this; exact this
  split_ifs with h1 h2 h2
  · have : U x.toNat < U y.toNat := U_mono (by omega); omega
  · omega
  · have := p (-x).toNat (by omega); omega
  · have : U (-y).toNat < U (-x).toNat := U_mono (by omega); omega

theorem val_eq {w : Nat} (h : IsFinite w) : val w = (UZ (sm w) : ℚ) / 2 ^ 1074 := by
  obtain ⟨h64, he⟩ := h
  have core : ∀ m : Nat, m < 2 ^ 63 → (if m / 2 ^ 52 % 2 ^ 11 = 0 then ((m % 2 ^ 52 : Nat) : ℚ) / 2 ^ 52 * (2 : ℚ) ^ (-1022 : Int)
     else (1 + ((m % 2 ^ 52 : Nat) : ℚ) / 2 ^ 52) * (2 : ℚ) ^ (((m / 2 ^ 52 % 2 ^ 11 : Nat) : Int) - 1023)) = (U m : ℚ) / 2 ^ 1074 := by
    intro m hm
    have e1 : m / 2 ^ 52 % 2 ^ 11 = m / 2 ^ 52 := Nat.mod_eq_of_lt (by omega)
    rw [e1]
    unfold U
    by_cases h0 : m / 2 ^ 52 = 0
    · rw [if_pos h0, if_pos h0, zpow_neg, div_mul_eq_mul_div, div_eq_div_iff (by positivity) (by positivity)]
      rw [show ((2 : ℚ) ^ (1022 : Int))⁻¹ = 1 / 2 ^ 1022 from by rw [one_div]; norm_cast, mul_one_div, div_mul_eq_mul_div,
        div_eq_iff (by positivity), mul_assoc, ← pow_add]
    · rw [if_neg h0, if_neg h0]
      obtain ⟨k, hk⟩ : ∃ k, m / 2 ^ 52 = k + 1 := ⟨m / 2 ^ 52 - 1, by omega⟩
      rw [hk, Nat.add_sub_cancel]
      have e2 : (2 : ℚ) ^ (((k + 1 : Nat) : Int) - 1023) = 2 ^ k / 2 ^ 1022 := by
        rw [show (((k + 1 : Nat) : Int) - 1023) = (k : Int) - (1022 : Nat) by push_cast; ring, zpow_sub₀ (by norm_num), zpow_natCast, zpow_natCast]
      rw [e2, show (2 : ℚ) ^ 1074 = 2 ^ 52 * 2 ^ 1022 by rw [← pow_add]]
      generalize m % 2 ^ 52 = f
      have : (2 : ℚ) ^ 1022 ≠ 0 := by positivity
      generalize (2 : ℚ) ^ 1022 = z at *
      push_cast
      field_simp
      norm_num
  unfold val sign expo frac sm UZ
  by_cases hs : w < 2 ^ 63
  · rw [if_pos hs, if_pos (show (0 : Int) ≤ w by omega), Int.toNat_natCast, Nat.div_eq_of_lt hs, pow_zero, one_mul, core w hs]
    push_cast; rfl
  · obtain ⟨m, rfl⟩ : ∃ m, w = m + 2 ^ 63 := ⟨w - 2 ^ 63, by omega⟩
    have hm : m < 2 ^ 63 := by omega
    rw [if_neg hs, show (m + 2 ^ 63) / 2 ^ 63 = 1 by omega, show (m + 2 ^ 63) / 2 ^ 52 % 2 ^ 11 = m / 2 ^ 52 % 2 ^ 11 by omega,
      show (m + 2 ^ 63) % 2 ^ 52 = m % 2 ^ 52 by omega, core m hm]
    by_cases h0 : m = 0
    · subst h0; rw [U_zero]; simp [U_zero]
    · rw [if_neg (show ¬ (0 : Int) ≤ -(((m + 2 ^ 63 : Nat) : Int) - 2 ^ 63) by push_cast; omega)]
      have : (- -(((m + 2 ^ 63 : Nat) : Int) - 2 ^ 63)).toNat = m := by push_cast; omega
      rw [this]; push_cast; ring

/-- Finite patterns have a sign-magnitude number of at most `2046 * 2^52 + (2^52 - 1)`. -/
theorem finite_sm {w : Nat} (h : IsFinite w) : -(2047 * 2 ^ 52) < sm w ∧ sm w < 2047 * 2 ^ 52 := by
  obtain ⟨h64, he⟩ := h
  unfold expo at he
  unfold sm
  split_ifs <;> omega

theorem exists_sm {z : Int} (h : -(2047 * 2 ^ 52) < z ∧ z < 2047 * 2 ^ 52) : ∃ w, IsFinite w ∧ sm w = z := by
  by_cases hz : 0 ≤ z
  · refine ⟨z.toNat, ⟨by omega, by unfold expo; omega⟩, ?_⟩
    unfold sm; rw [if_pos (by omega)]; omega
  · refine ⟨(2 ^ 63 - z).toNat, ⟨by omega, by unfold expo; omega⟩, ?_⟩
    unfold sm; rw [if_neg (by omega)]; omega

theorem val_lt_iff {a b : Nat} (ha : IsFinite a) (hb : IsFinite b) : val a < val b ↔ sm a < sm b := by
  rw [val_eq ha, val_eq hb, div_lt_div_iff_of_pos_right (by positivity), Int.cast_lt, UZ_mono.lt_iff_lt]

theorem val_inj {a b : Nat} (ha : IsFinite a) (hb : IsFinite b) : val a = val b ↔ sm a = sm b := by
  rw [val_eq ha, val_eq hb, div_left_inj' (by positivity), Int.cast_inj, UZ_mono.injective.eq_iff]

theorem steps_card {a b : Nat} (ha : IsFinite a) (hb : IsFinite b) : (steps (val a) (val b)).ncard = (sm b - sm a).toNat := by
  have e : steps (val a) (val b) = (fun z : Int => (UZ z : ℚ) / 2 ^ 1074) '' (Finset.Ioc (sm a) (sm b) : Set Int) := by
    ext v
    simp only [steps, Set.mem_ofPred_eq, Set.mem_image, Finset.coe_Ioc, Set.mem_Ioc]
    constructor
    · rintro ⟨⟨w, hw, rfl⟩, h1, h2⟩
      refine ⟨sm w, ⟨(val_lt_iff ha hw).mp h1, ?_⟩, (val_eq hw).symm⟩
      exact not_lt.mp (fun h => absurd ((val_lt_iff hb hw).mpr h) (not_lt.mpr h2))
    · rintro ⟨z, ⟨h1, h2⟩, rfl⟩
      have fa := finite_sm ha
      have fb := finite_sm hb
      obtain ⟨w, hw, rfl⟩ := exists_sm (z := z) ⟨by omega, by omega⟩
      rw [← val_eq hw]
      exact ⟨⟨w, hw, rfl⟩, (val_lt_iff ha hw).mpr h1, not_lt.mp (fun h => absurd ((val_lt_iff hb hw).mp h) (by omega))⟩
  rw [e, Set.ncard_image_of_injective, Set.ncard_coe_finset, Int.card_Ioc]
  intro x y h
  simp only at h
  rw [div_left_inj' (by positivity), Int.cast_inj] at h
  exact UZ_mono.injective h

theorem ord_eq {w : Nat} (h : w < 2 ^ 64) : (ord w : Int) = 2 ^ 63 - sm w := by
  unfold ord sm; split_ifs <;> omega

theorem compare_eq {a b n : Nat} (ha : a < 2 ^ 64) (hb : b < 2 ^ 64) :
    ulpCompare a b n = if (sm a - sm b).natAbs ≤ n then EQUAL else if sm a < sm b then LESS else MORE := by
  have h1 := ord_eq ha
  have h2 := ord_eq hb
  have b1 : ord a < 2 ^ 64 := by unfold ord; split_ifs <;> omega
  have b2 : ord b < 2 ^ 64 := by unfold ord; split_ifs <;> omega
  unfold ulpCompare
  dsimp only
  by_cases h : ord a > ord b
  · rw [if_pos h, show (ord a + 2 ^ 64 - ord b) % 2 ^ 64 = (sm a - sm b).natAbs by omega]
    split_ifs <;> first | rfl | omega
  · rw [if_neg h, show (ord b + 2 ^ 64 - ord a) % 2 ^ 64 = (sm a - sm b).natAbs by omega]
    split_ifs <;> first | rfl | omega

/-- **C37** (tolerance). `EQUAL` exactly when there are at most `n` steps between the two finite
doubles, a step leading from a representable number to the next one (`-0` and `0` are one
number). -/
theorem C37_equal_iff (a b n : Nat) (ha : IsFinite a) (hb : IsFinite b) :
    ulpCompare a b n = EQUAL ↔ (steps (val a) (val b)).ncard ≤ n ∧ (steps (val b) (val a)).ncard ≤ n := by
  rw [compare_eq ha.1 hb.1, steps_card ha hb, steps_card hb ha]
  have : EQUAL ≠ LESS ∧ EQUAL ≠ MORE := by decide
  split_ifs with h1 h2
  · exact ⟨fun _ => by omega, fun _ => rfl⟩
  · exact ⟨fun h => absurd h.symm this.1, fun h => by omega⟩
  · exact ⟨fun h => absurd h.symm this.2, fun h => by omega⟩

/-- **C37** (order). When it is not `EQUAL`, the result is `LESS` or `MORE` according to the order of the
numbers. -/
theorem C37_order (a b n : Nat) (ha : IsFinite a) (hb : IsFinite b) (hne : ulpCompare a b n ≠ EQUAL) :
    (ulpCompare a b n = LESS ↔ val a < val b) ∧ (ulpCompare a b n = MORE ↔ val b < val a) := by
  rw [compare_eq ha.1 hb.1] at *
  rw [val_lt_iff ha hb, val_lt_iff hb ha]
  have : LESS ≠ MORE := by decide
  split_ifs at * with h1 h2
  · exact absurd rfl hne
  · exact ⟨⟨fun _ => h2, fun _ => rfl⟩, ⟨fun h => absurd h this, fun h => by omega⟩⟩
  · exact ⟨⟨fun h => absurd h.symm this, fun h => absurd h h2⟩, ⟨fun _ => by omega, fun _ => rfl⟩⟩

/-- With tolerance zero, `EQUAL` means equal numbers. -/
theorem C37_exact (a b : Nat) (ha : IsFinite a) (hb : IsFinite b) : ulpCompare a b 0 = EQUAL ↔ val a = val b := by
  rw [compare_eq ha.1 hb.1, val_inj ha hb]
  have : EQUAL ≠ LESS ∧ EQUAL ≠ MORE := by decide
  split_ifs with h1 h2
  · exact ⟨fun _ => by omega, fun _ => rfl⟩
  · exact ⟨fun h => absurd h.symm this.1, fun h => by omega⟩
  · exact ⟨fun h => absurd h.symm this.2, fun h => by omega⟩

/-- Swapping the arguments exchanges `LESS` and `MORE`. -/
theorem C37_swap (a b n : Nat) (ha : a < 2 ^ 64) (hb : b < 2 ^ 64) : ulpCompare b a n = -ulpCompare a b n := by
  rw [compare_eq ha hb, compare_eq hb ha]
  unfold LESS EQUAL MORE
  split_ifs <;> omega

/-- A larger tolerance only turns answers into `EQUAL`. -/
theorem C37_monotone (a b n m : Nat) (ha : a < 2 ^ 64) (hb : b < 2 ^ 64) (h : n ≤ m) :
    ulpCompare a b m = EQUAL ∨ ulpCompare a b m = ulpCompare a b n := by
  rw [compare_eq ha hb, compare_eq ha hb]
  split_ifs <;> first | exact .inl rfl | exact .inr rfl | omega

/-- 1.0 and the next double; `-0` and `0`; the two smallest numbers around zero. -/
example : IsFinite 0x3FF0000000000000 ∧ val 0x3FF0000000000000 = 1 ∧ ulpCompare 0x3FF0000000000000 0x3FF0000000000001 0 = LESS ∧
    ulpCompare 0x3FF0000000000000 0x3FF0000000000001 1 = EQUAL ∧ ulpCompare 0 0x8000000000000000 0 = EQUAL ∧
    ulpCompare 0x8000000000000001 1 1 = LESS ∧ ulpCompare 0x8000000000000001 1 2 = EQUAL := by
  refine ⟨⟨by norm_num, by norm_num [expo]⟩, ?_, by decide +kernel, by decide +kernel, by decide +kernel, by decide +kernel, by decide +kernel⟩
  norm_num [val, sign, expo, frac]

end Verif.Properties.Ulp
