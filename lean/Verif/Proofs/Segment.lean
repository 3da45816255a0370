import Verif.Spec.Segment
import Mathlib.Tactic.Linarith
import Mathlib.Tactic.Ring
import Mathlib.Tactic.LinearCombination
import Mathlib.Tactic.FieldSimp
import Mathlib.Tactic.Positivity
import Mathlib.Algebra.Order.Ring.Abs
/-! # Helper lemmas for segments -/
namespace Verif.Segment
open Verif.Machine Verif.Interval Verif.Rectangle Verif.Spec

theorem signOf_eq (a b : Int) : signOf a b = (a * b).sign := by
  unfold signOf
  rcases lt_trichotomy a 0 with ha | ha | ha <;> rcases lt_trichotomy b 0 with hb | hb | hb
  · rw [Int.sign_eq_one_of_pos (by nlinarith)]; simp [ha.ne, hb.ne]; omega
  · simp [hb]
  · rw [Int.sign_eq_neg_one_of_neg (by nlinarith)]; simp [ha.ne, hb.ne']; omega
  · simp [ha]
  · simp [ha]
  · simp [ha]
  · rw [Int.sign_eq_neg_one_of_neg (by nlinarith)]; simp [ha.ne', hb.ne]; omega
  · simp [hb]
  · rw [Int.sign_eq_one_of_pos (by nlinarith)]; simp [ha.ne', hb.ne']; omega

theorem absI64_eq {a : Int} (h : -2 ^ 63 < a ∧ a < 2 ^ 63) : absI64 a = some |a| := by
  unfold absI64
  split_ifs with h0
  · rw [i64_some (by omega), abs_of_neg h0]
  · rw [abs_of_nonneg (by omega)]

/-- The sign-and-magnitude comparison is exact when the magnitudes are below `2^32`. -/
theorem orientDiffs_eq {a1 b1 a2 b2 : Int} (h1 : |a1| < 2 ^ 32) (h2 : |b1| < 2 ^ 32) (h3 : |a2| < 2 ^ 32)
    (h4 : |b2| < 2 ^ 32) : orientDiffs a1 b1 a2 b2 = some (a1 * b2 - b1 * a2).sign := by
  have lt (a : Int) (h : |a| < 2 ^ 32) : -2 ^ 63 < a ∧ a < 2 ^ 63 := by rw [abs_lt] at h; omega
  have mul (a b : Int) (ha : |a| < 2 ^ 32) (hb : |b| < 2 ^ 32) : u64 (u64 |a| * u64 |b|) = |a * b| := by
    have := abs_nonneg a; have := abs_nonneg b
    rw [u64_id (abs_nonneg a) (by omega), u64_id (abs_nonneg b) (by omega), abs_mul]
    exact u64_id (by positivity) (by nlinarith)
  unfold orientDiffs
  simp only [signOf_eq]
  rw [mul_comm a2 b1]
  rw [absI64_eq (lt _ h1), absI64_eq (lt _ h2), absI64_eq (lt _ h3), absI64_eq (lt _ h4)]
  simp only [Option.bind_eq_bind, Option.bind_some, mul _ _ h1 h4, mul _ _ h2 h3]
  generalize a1 * b2 = x
  generalize b1 * a2 = y
  have key (z : Int) : (z < 0 ∧ z.sign = -1 ∧ |z| = -z) ∨ (z = 0 ∧ z.sign = 0 ∧ |z| = 0) ∨ (0 < z ∧ z.sign = 1 ∧ |z| = z) := by
    rcases lt_trichotomy z 0 with h | h | h
    · exact Or.inl ⟨h, Int.sign_eq_neg_one_of_neg h, abs_of_neg h⟩
    · exact Or.inr (Or.inl ⟨h, by simp [h], by simp [h]⟩)
    · exact Or.inr (Or.inr ⟨h, Int.sign_eq_one_of_pos h, abs_of_pos h⟩)
  rcases key x with ⟨hx, sx, ax⟩ | ⟨hx, sx, ax⟩ | ⟨hx, sx, ax⟩ <;>
  rcases key y with ⟨hy, sy, ay⟩ | ⟨hy, sy, ay⟩ | ⟨hy, sy, ay⟩ <;>
  rcases key (x - y) with ⟨hd, sd, -⟩ | ⟨hd, sd, -⟩ | ⟨hd, sd, -⟩ <;>
  first
    | (exfalso; omega)
    | (rw [sx, sy, sd, ax, ay]
       by_cases hlt : x < y <;> by_cases heq : x = y <;> by_cases hgt : y < x <;>
         first
           | (exfalso; omega)
           | simp [hlt, heq, hgt])

theorem orientSeg_eq {s1 s2 : Seg} (h1 : S32 s1) (h2 : S32 s2) :
    orientSeg s1 s2 = some (cross s1.lo s1.hi s2.lo s2.hi).sign := by
  simp only [S32, P32, I32] at h1 h2
  unfold orientSeg
  rw [i64_some (by omega), i64_some (by omega), i64_some (by omega), i64_some (by omega)]
  simp only [Option.bind_eq_bind, Option.bind_some]
  rw [orientDiffs_eq (by rw [abs_lt]; omega) (by rw [abs_lt]; omega) (by rw [abs_lt]; omega) (by rw [abs_lt]; omega)]
  rfl

theorem orientPt_eq {s : Seg} {p : Int × Int} (h1 : S32 s) (h2 : P32 p) :
    orientPt s p = some (cross s.lo s.hi s.hi p).sign :=
  orientSeg_eq h1 ⟨h1.2, h2⟩

set_option linter.unusedSectionVars false
variable {K : Type*} [Field K] [LinearOrder K] [IsStrictOrderedRing K]

/-- Real cross product. -/
def crossQ {K : Type*} [Field K] (u v : K × K) : K := u.1 * v.2 - u.2 * v.1

/-- Two parametric segments `p + s d`, `q + t e` with non-parallel directions: the line parameters. -/
theorem params_of_meet {p d q e : K × K} {s t : K}
    (h1 : p.1 + s * d.1 = q.1 + t * e.1) (h2 : p.2 + s * d.2 = q.2 + t * e.2) :
    s * crossQ d e = crossQ (q.1 - p.1, q.2 - p.2) e ∧ t * crossQ d e = crossQ (q.1 - p.1, q.2 - p.2) d := by
  unfold crossQ
  constructor <;> simp only
  · linear_combination e.2 * h1 - e.1 * h2
  · linear_combination d.2 * h1 - d.1 * h2

theorem meet_of_params {p d q e : K × K} {s t : K} (hD : crossQ d e ≠ 0)
    (hs : s * crossQ d e = crossQ (q.1 - p.1, q.2 - p.2) e) (ht : t * crossQ d e = crossQ (q.1 - p.1, q.2 - p.2) d) :
    p.1 + s * d.1 = q.1 + t * e.1 ∧ p.2 + s * d.2 = q.2 + t * e.2 := by
  constructor
  · apply mul_right_cancel₀ hD
    have : (p.1 + s * d.1) * crossQ d e - (q.1 + t * e.1) * crossQ d e =
      (p.1 - q.1) * crossQ d e + d.1 * (s * crossQ d e) - e.1 * (t * crossQ d e) := by ring
    rw [← sub_eq_zero, this, hs, ht]
    simp only [crossQ]; ring
  · apply mul_right_cancel₀ hD
    have : (p.2 + s * d.2) * crossQ d e - (q.2 + t * e.2) * crossQ d e =
      (p.2 - q.2) * crossQ d e + d.2 * (s * crossQ d e) - e.2 * (t * crossQ d e) := by ring
    rw [← sub_eq_zero, this, hs, ht]
    simp only [crossQ]; ring

/-! ## One dimension -/

/-- The closed spans of `a, a+α` and `b, b+β` overlap. -/
def Ovl (a α b β : K) : Prop := min a (a + α) ≤ max b (b + β) ∧ min b (b + β) ≤ max a (a + α)
/-- They overlap strictly. -/
def OvlS (a α b β : K) : Prop := min a (a + α) < max b (b + β) ∧ min b (b + β) < max a (a + α)

theorem span_mem {a α s : K} (h0 : 0 ≤ s) (h1 : s ≤ 1) : min a (a + α) ≤ a + s * α ∧ a + s * α ≤ max a (a + α) := by
  rcases le_total 0 α with h | h
  · rw [min_eq_left (by linarith), max_eq_right (by linarith)]
    constructor <;> nlinarith
  · rw [min_eq_right (by linarith), max_eq_left (by linarith)]
    constructor <;> nlinarith

theorem span_param {a α X : K} (h0 : min a (a + α) ≤ X) (h1 : X ≤ max a (a + α)) :
    ∃ s, 0 ≤ s ∧ s ≤ 1 ∧ a + s * α = X := by
  rcases lt_trichotomy α 0 with h | h | h
  · rw [min_eq_right (by linarith)] at h0
    rw [max_eq_left (by linarith)] at h1
    refine ⟨(X - a) / α, div_nonneg_of_nonpos (by linarith) h.le, ?_, by rw [div_mul_cancel₀ _ h.ne]; ring⟩
    rw [div_le_one_of_neg h]; linarith
  · subst h
    simp at h0 h1
    exact ⟨0, le_refl _, by norm_num, by linarith⟩
  · rw [min_eq_left (by linarith)] at h0
    rw [max_eq_right (by linarith)] at h1
    refine ⟨(X - a) / α, div_nonneg (by linarith) h.le, ?_, by field_simp; ring⟩
    rw [div_le_one h]; linarith

theorem ovl_of_meet {a α b β s t : K} (s0 : 0 ≤ s) (s1 : s ≤ 1) (t0 : 0 ≤ t) (t1 : t ≤ 1)
    (h : a + s * α = b + t * β) : Ovl a α b β := by
  obtain ⟨h1, h2⟩ := span_mem (a := a) (α := α) s0 s1
  obtain ⟨h3, h4⟩ := span_mem (a := b) (α := β) t0 t1
  exact ⟨by linarith, by linarith⟩

theorem meet_of_ovl {a α b β : K} (h : Ovl a α b β) :
    ∃ s t, 0 ≤ s ∧ s ≤ 1 ∧ 0 ≤ t ∧ t ≤ 1 ∧ a + s * α = b + t * β := by
  have e1 : min a (a + α) ≤ max a (a + α) := min_le_max
  have e2 : min b (b + β) ≤ max b (b + β) := min_le_max
  obtain ⟨s, s0, s1, hs⟩ := span_param (a := a) (α := α) (X := max (min a (a + α)) (min b (b + β)))
    (le_max_left _ _) (max_le e1 h.2)
  obtain ⟨t, t0, t1, ht⟩ := span_param (a := b) (α := β) (X := max (min a (a + α)) (min b (b + β)))
    (le_max_right _ _) (max_le h.1 e2)
  exact ⟨s, t, s0, s1, t0, t1, by rw [hs, ht]⟩

/-- Strict overlap yields a common point that is not an end of both. -/
theorem meet_of_ovlS {a α b β : K} (h : OvlS a α b β) :
    ∃ s t, 0 ≤ s ∧ s ≤ 1 ∧ 0 ≤ t ∧ t ≤ 1 ∧ a + s * α = b + t * β ∧
      ((a + s * α ≠ a ∧ a + s * α ≠ a + α) ∨ (a + s * α ≠ b ∧ a + s * α ≠ b + β)) := by
  obtain ⟨h1, h2⟩ := h
  have pick : ∀ X, min a (a + α) ≤ X → X ≤ max a (a + α) → min b (b + β) ≤ X → X ≤ max b (b + β) →
      ((X ≠ a ∧ X ≠ a + α) ∨ (X ≠ b ∧ X ≠ b + β)) →
      ∃ s t, 0 ≤ s ∧ s ≤ 1 ∧ 0 ≤ t ∧ t ≤ 1 ∧ a + s * α = b + t * β ∧
      ((a + s * α ≠ a ∧ a + s * α ≠ a + α) ∨ (a + s * α ≠ b ∧ a + s * α ≠ b + β)) := by
    intro X x1 x2 x3 x4 x5
    obtain ⟨s, s0, s1, hs⟩ := span_param x1 x2
    obtain ⟨t, t0, t1, ht⟩ := span_param x3 x4
    exact ⟨s, t, s0, s1, t0, t1, by rw [hs, ht], by rw [hs]; exact x5⟩
  have ne : ∀ {c γ X : K}, min c (c + γ) < X → X < max c (c + γ) → X ≠ c ∧ X ≠ c + γ := by
    intro c γ X g1 g2
    constructor <;> rintro rfl
    · rcases le_total X (X + γ) with g | g
      · rw [min_eq_left g] at g1; exact lt_irrefl _ g1
      · rw [max_eq_left g] at g2; exact lt_irrefl _ g2
    · rcases le_total c (c + γ) with g | g
      · rw [max_eq_right g] at g2; exact lt_irrefl _ g2
      · rw [min_eq_right g] at g1; exact lt_irrefl _ g1
  by_cases hα : α = 0
  · subst hα
    simp only [add_zero, min_self, max_self] at h1 h2
    refine pick a (by simp) (by simp) h2.le h1.le (Or.inr (ne h2 h1))
  · by_cases hβ : β = 0
    · subst hβ
      simp only [add_zero, min_self, max_self] at h1 h2
      exact pick b h1.le h2.le (by simp) (by simp) (Or.inl (ne h1 h2))
    · have ha : min a (a + α) < max a (a + α) := by
        rw [min_lt_max]; intro hh; apply hα; linarith
      have hb : min b (b + β) < max b (b + β) := by
        rw [min_lt_max]; intro hh; apply hβ; linarith
      have hLR : max (min a (a + α)) (min b (b + β)) < min (max a (a + α)) (max b (b + β)) := by
        rw [max_lt_iff, lt_min_iff, lt_min_iff]; exact ⟨⟨ha, h1⟩, h2, hb⟩
      obtain ⟨X, x1, x2⟩ := exists_between hLR
      rw [max_lt_iff] at x1
      rw [lt_min_iff] at x2
      exact pick X x1.1.le x2.1.le x1.2.le x2.2.le (Or.inl (ne x1.1 x2.1))

theorem ovlS_of_meet {a α b β s t : K} (s0 : 0 ≤ s) (s1 : s ≤ 1) (t0 : 0 ≤ t) (t1 : t ≤ 1)
    (h : a + s * α = b + t * β)
    (hn : (a + s * α ≠ a ∧ a + s * α ≠ a + α) ∨ (a + s * α ≠ b ∧ a + s * α ≠ b + β)) : OvlS a α b β := by
  obtain ⟨h1, h2⟩ := span_mem (a := a) (α := α) s0 s1
  obtain ⟨h3, h4⟩ := span_mem (a := b) (α := β) t0 t1
  by_contra hc
  unfold OvlS at hc
  rw [not_and_or, not_lt, not_lt] at hc
  have e1 := min_choice a (a + α)
  have e2 := max_choice a (a + α)
  have e3 := min_choice b (b + β)
  have e4 := max_choice b (b + β)
  rcases hc with hc | hc
  · have k1 : a + s * α = min a (a + α) := by linarith
    have k2 : a + s * α = max b (b + β) := by linarith
    rcases hn with hn | hn
    · rcases e1 with e | e <;> rw [e] at k1
      · exact hn.1 k1
      · exact hn.2 k1
    · rcases e4 with e | e <;> rw [e] at k2
      · exact hn.1 k2
      · exact hn.2 k2
  · have k1 : a + s * α = max a (a + α) := by linarith
    have k2 : a + s * α = min b (b + β) := by linarith
    rcases hn with hn | hn
    · rcases e2 with e | e <;> rw [e] at k1
      · exact hn.1 k1
      · exact hn.2 k1
    · rcases e3 with e | e <;> rw [e] at k2
      · exact hn.1 k2
      · exact hn.2 k2

/-! ## Two dimensions -/

/-- The parametric segments `p + s d` and `q + t e` meet at the given parameters. -/
def MeetAt (p d q e : K × K) (s t : K) : Prop :=
  0 ≤ s ∧ s ≤ 1 ∧ 0 ≤ t ∧ t ≤ 1 ∧ p.1 + s * d.1 = q.1 + t * e.1 ∧ p.2 + s * d.2 = q.2 + t * e.2

theorem MeetAt.symm {p d q e : K × K} {s t : K} (h : MeetAt p d q e s t) : MeetAt q e p d t s :=
  ⟨h.2.2.1, h.2.2.2.1, h.1, h.2.1, h.2.2.2.2.1.symm, h.2.2.2.2.2.symm⟩

/-- Collinear segments whose abscissae meet really meet, if the first is not vertical. -/
theorem lift_x {p d q e : K × K} {s t : K} (hd : d.1 ≠ 0) (hD : crossQ d e = 0)
    (hT : crossQ (q.1 - p.1, q.2 - p.2) d = 0) (h : p.1 + s * d.1 = q.1 + t * e.1) :
    p.2 + s * d.2 = q.2 + t * e.2 := by
  apply mul_left_cancel₀ hd
  simp only [crossQ] at hD hT
  linear_combination d.2 * h + hT - t * hD

theorem zero_or_ne {d : K × K} : d.1 ≠ 0 ∨ d.2 ≠ 0 ∨ d = (0, 0) := by
  by_cases h1 : d.1 = 0
  · by_cases h2 : d.2 = 0
    · exact Or.inr (Or.inr (Prod.ext h1 h2))
    · exact Or.inr (Or.inl h2)
  · exact Or.inl h1

theorem crossQ_swap (u v : K × K) : crossQ (u.2, u.1) (v.2, v.1) = -crossQ u v := by
  unfold crossQ; ring

/-- The end-point test at a common point, in terms of the position `X`. -/
def NotBothEnds (p d q e X : K × K) : Prop :=
  ¬ (((X.1 = p.1 ∧ X.2 = p.2) ∨ (X.1 = p.1 + d.1 ∧ X.2 = p.2 + d.2)) ∧
     ((X.1 = q.1 ∧ X.2 = q.2) ∨ (X.1 = q.1 + e.1 ∧ X.2 = q.2 + e.2)))

/-- Collinear case, closed segments. -/
theorem meet_collinear {p d q e : K × K} (hD : crossQ d e = 0)
    (hT : crossQ (q.1 - p.1, q.2 - p.2) d = 0) (hS : crossQ (q.1 - p.1, q.2 - p.2) e = 0)
    (hx : Ovl p.1 d.1 q.1 e.1) (hy : Ovl p.2 d.2 q.2 e.2) : ∃ s t, MeetAt p d q e s t := by
  have viaX : ∀ {p d q e : K × K}, d.1 ≠ 0 → crossQ d e = 0 → crossQ (q.1 - p.1, q.2 - p.2) d = 0 →
      Ovl p.1 d.1 q.1 e.1 → ∃ s t, MeetAt p d q e s t := by
    intro p d q e hd hD hT hx
    obtain ⟨s, t, s0, s1, t0, t1, h⟩ := meet_of_ovl hx
    exact ⟨s, t, s0, s1, t0, t1, h, lift_x hd hD hT h⟩
  have viaY : ∀ {p d q e : K × K}, d.2 ≠ 0 → crossQ d e = 0 → crossQ (q.1 - p.1, q.2 - p.2) d = 0 →
      Ovl p.2 d.2 q.2 e.2 → ∃ s t, MeetAt p d q e s t := by
    intro p d q e hd hD hT hy
    obtain ⟨s, t, h1, h2, h3, h4, h5, h6⟩ := viaX (p := (p.2, p.1)) (d := (d.2, d.1)) (q := (q.2, q.1)) (e := (e.2, e.1)) hd
      (by rw [crossQ_swap, hD, neg_zero]) (by
        have := crossQ_swap (q.1 - p.1, q.2 - p.2) d
        rw [hT, neg_zero] at this; exact this) hy
    exact ⟨s, t, h1, h2, h3, h4, h6, h5⟩
  have cs : ∀ u v : K × K, crossQ u v = - crossQ v u := fun u v => by unfold crossQ; ring
  have hD' : crossQ e d = 0 := by rw [cs, hD, neg_zero]
  have hS' : crossQ (p.1 - q.1, p.2 - q.2) e = 0 := by
    simp only [crossQ] at hS ⊢; linarith
  rcases zero_or_ne (d := d) with hd | hd | hd
  · exact viaX hd hD hT hx
  · exact viaY hd hD hT hy
  · rcases zero_or_ne (d := e) with he | he | he
    · obtain ⟨s, t, h⟩ := viaX he hD' hS' ⟨hx.2, hx.1⟩
      exact ⟨t, s, h.symm⟩
    · obtain ⟨s, t, h⟩ := viaY he hD' hS' ⟨hy.2, hy.1⟩
      exact ⟨t, s, h.symm⟩
    · subst hd; subst he
      simp [Ovl] at hx hy
      exact ⟨0, 0, le_refl _, by norm_num, le_refl _, by norm_num, by simpa using le_antisymm hx.1 hx.2,
        by simpa using le_antisymm hy.1 hy.2⟩

/-- Collinear case, without touching. -/
theorem meetS_collinear {p d q e : K × K} (hD : crossQ d e = 0)
    (hT : crossQ (q.1 - p.1, q.2 - p.2) d = 0) (hS : crossQ (q.1 - p.1, q.2 - p.2) e = 0) :
    (OvlS p.2 d.2 q.2 e.2 ∨ OvlS p.1 d.1 q.1 e.1) ↔
      ∃ s t, MeetAt p d q e s t ∧ NotBothEnds p d q e (p.1 + s * d.1, p.2 + s * d.2) := by
  have viaX : ∀ {p d q e : K × K}, d.1 ≠ 0 → crossQ d e = 0 → crossQ (q.1 - p.1, q.2 - p.2) d = 0 →
      OvlS p.1 d.1 q.1 e.1 →
      ∃ s t, MeetAt p d q e s t ∧ NotBothEnds p d q e (p.1 + s * d.1, p.2 + s * d.2) := by
    intro p d q e hd hD hT hx
    obtain ⟨s, t, s0, s1, t0, t1, h, hn⟩ := meet_of_ovlS hx
    refine ⟨s, t, ⟨s0, s1, t0, t1, h, lift_x hd hD hT h⟩, ?_⟩
    rintro ⟨g1, g2⟩
    simp only at g1 g2
    rcases hn with hn | hn
    · rcases g1 with g | g
      · exact hn.1 g.1
      · exact hn.2 g.1
    · rcases g2 with g | g
      · exact hn.1 g.1
      · exact hn.2 g.1
  have backX : ∀ {p d q e : K × K} {s t : K}, d.1 ≠ 0 → crossQ d e = 0 → MeetAt p d q e s t →
      NotBothEnds p d q e (p.1 + s * d.1, p.2 + s * d.2) → OvlS p.1 d.1 q.1 e.1 := by
    intro p d q e s t hd hD ⟨s0, s1, t0, t1, h1, h2⟩ hn
    apply ovlS_of_meet s0 s1 t0 t1 h1
    by_contra hc
    rw [not_or, not_and_or, not_and_or, not_not, not_not, not_not, not_not] at hc
    apply hn
    simp only
    constructor
    · rcases hc.1 with g | g
      · left
        have : s = 0 := by
          have : s * d.1 = 0 := by linarith
          rcases mul_eq_zero.mp this with h | h
          · exact h
          · exact absurd h hd
        subst this
        exact ⟨by ring, by ring⟩
      · right
        have : s = 1 := by
          have : (s - 1) * d.1 = 0 := by linarith
          rcases mul_eq_zero.mp this with h | h
          · linarith
          · exact absurd h hd
        subst this
        exact ⟨by ring, by ring⟩
    · by_cases he : e.1 = 0
      · have he2 : e.2 = 0 := by
          have : d.1 * e.2 = 0 := by simp only [crossQ] at hD; rw [he] at hD; linarith
          rcases mul_eq_zero.mp this with h | h
          · exact absurd h hd
          · exact h
        left
        rw [h1, h2, he, he2]
        constructor <;> ring
      · rcases hc.2 with g | g
        · left
          have : t = 0 := by
            have : t * e.1 = 0 := by linarith
            rcases mul_eq_zero.mp this with h | h
            · exact h
            · exact absurd h he
          rw [h1, h2, this]
          exact ⟨by ring, by ring⟩
        · right
          have : t = 1 := by
            have : (t - 1) * e.1 = 0 := by linarith
            rcases mul_eq_zero.mp this with h | h
            · linarith
            · exact absurd h he
          rw [h1, h2, this]
          exact ⟨by ring, by ring⟩
  have cs : ∀ u v : K × K, crossQ u v = - crossQ v u := fun u v => by unfold crossQ; ring
  have sw : ∀ {p d q e : K × K} {s t : K}, MeetAt p d q e s t →
      NotBothEnds p d q e (p.1 + s * d.1, p.2 + s * d.2) → NotBothEnds q e p d (q.1 + t * e.1, q.2 + t * e.2) := by
    intro p d q e s t h hn hc
    apply hn
    simp only [h.2.2.2.2.1, h.2.2.2.2.2]
    exact ⟨hc.2, hc.1⟩
  have ax : ∀ {p d q e X : K × K}, NotBothEnds p d q e X →
      NotBothEnds (p.2, p.1) (d.2, d.1) (q.2, q.1) (e.2, e.1) (X.2, X.1) := by
    intro p d q e X h hc
    apply h
    simp only at hc
    exact ⟨by rcases hc.1 with g | g; exacts [Or.inl ⟨g.2, g.1⟩, Or.inr ⟨g.2, g.1⟩],
      by rcases hc.2 with g | g; exacts [Or.inl ⟨g.2, g.1⟩, Or.inr ⟨g.2, g.1⟩]⟩
  have mx : ∀ {p d q e : K × K} {s t : K}, MeetAt p d q e s t → MeetAt (p.2, p.1) (d.2, d.1) (q.2, q.1) (e.2, e.1) s t :=
    fun h => ⟨h.1, h.2.1, h.2.2.1, h.2.2.2.1, h.2.2.2.2.2, h.2.2.2.2.1⟩
  -- strict abscissa overlap is enough
  have fwdX : ∀ {p d q e : K × K}, crossQ d e = 0 → crossQ (q.1 - p.1, q.2 - p.2) d = 0 →
      crossQ (q.1 - p.1, q.2 - p.2) e = 0 → OvlS p.1 d.1 q.1 e.1 →
      ∃ s t, MeetAt p d q e s t ∧ NotBothEnds p d q e (p.1 + s * d.1, p.2 + s * d.2) := by
    intro p d q e hD hT hS hx
    by_cases hd : d.1 = 0
    · by_cases he : e.1 = 0
      · exfalso
        obtain ⟨h1, h2⟩ := hx
        simp [hd, he] at h1 h2
        linarith
      · obtain ⟨s, t, h, hn⟩ := viaX (p := q) (d := e) (q := p) (e := d) he (by rw [cs, hD, neg_zero])
          (by simp only [crossQ] at hS ⊢; linarith) ⟨hx.2, hx.1⟩
        exact ⟨t, s, h.symm, sw h hn⟩
    · exact viaX hd hD hT hx
  constructor
  · rintro (h | h)
    · obtain ⟨s, t, h1, h2⟩ := fwdX (p := (p.2, p.1)) (d := (d.2, d.1)) (q := (q.2, q.1)) (e := (e.2, e.1))
        (by rw [crossQ_swap, hD, neg_zero])
        (by have := crossQ_swap (q.1 - p.1, q.2 - p.2) d; rw [hT, neg_zero] at this; exact this)
        (by have := crossQ_swap (q.1 - p.1, q.2 - p.2) e; rw [hS, neg_zero] at this; exact this) h
      exact ⟨s, t, mx h1, ax h2⟩
    · exact fwdX hD hT hS h
  · rintro ⟨s, t, h, hn⟩
    rcases zero_or_ne (d := d) with hd | hd | hd
    · exact Or.inr (backX hd hD h hn)
    · exact Or.inl (backX (p := (p.2, p.1)) (d := (d.2, d.1)) (q := (q.2, q.1)) (e := (e.2, e.1)) hd
        (by rw [crossQ_swap, hD, neg_zero]) (mx h) (ax hn))
    · have hD' : crossQ e d = 0 := by rw [cs, hD, neg_zero]
      rcases zero_or_ne (d := e) with he | he | he
      · have := backX he hD' h.symm (sw h hn)
        exact Or.inr ⟨this.2, this.1⟩
      · have := backX (p := (q.2, q.1)) (d := (e.2, e.1)) (q := (p.2, p.1)) (e := (d.2, d.1)) he
          (by rw [crossQ_swap, hD', neg_zero]) (mx h.symm) (ax (sw h hn))
        exact Or.inl ⟨this.2, this.1⟩
      · exfalso
        apply hn
        obtain ⟨-, -, -, -, h1, h2⟩ := h
        subst hd; subst he
        simp at h1 h2
        simp [h1, h2]

/-- Closed segments meet exactly when their boxes overlap and each separates (weakly) the ends of
the other. `T`, `S` are the cross products of `q - p` with the two directions. -/
theorem meet_iff {p d q e : K × K} {D T S : K} (eD : D = crossQ d e)
    (eT : T = crossQ (q.1 - p.1, q.2 - p.2) d) (eS : S = crossQ (q.1 - p.1, q.2 - p.2) e) :
    (∃ s t, MeetAt p d q e s t) ↔
      Ovl p.1 d.1 q.1 e.1 ∧ Ovl p.2 d.2 q.2 e.2 ∧ T * (T - D) ≤ 0 ∧ S * (S - D) ≤ 0 := by
  constructor
  · rintro ⟨s, t, s0, s1, t0, t1, h1, h2⟩
    refine ⟨ovl_of_meet s0 s1 t0 t1 h1, ovl_of_meet s0 s1 t0 t1 h2, ?_, ?_⟩
    · obtain ⟨g1, g2⟩ := params_of_meet h1 h2
      rw [← eD, ← eT] at g2
      rw [← g2]
      have : t * D * (t * D - D) = -(t * (1 - t)) * (D * D) := by ring
      rw [this]
      have := mul_nonneg t0 (by linarith : 0 ≤ 1 - t)
      nlinarith [mul_self_nonneg D]
    · obtain ⟨g1, g2⟩ := params_of_meet h1 h2
      rw [← eD, ← eS] at g1
      rw [← g1]
      have : s * D * (s * D - D) = -(s * (1 - s)) * (D * D) := by ring
      rw [this]
      have := mul_nonneg s0 (by linarith : 0 ≤ 1 - s)
      nlinarith [mul_self_nonneg D]
  · rintro ⟨hx, hy, hT, hS⟩
    by_cases hD : D = 0
    · subst hD
      have t0 : T = 0 := by
        rw [sub_zero] at hT
        exact mul_self_eq_zero.mp (le_antisymm hT (mul_self_nonneg T))
      have s0 : S = 0 := by
        rw [sub_zero] at hS
        exact mul_self_eq_zero.mp (le_antisymm hS (mul_self_nonneg S))
      exact meet_collinear eD.symm (by rw [← eT, t0]) (by rw [← eS, s0]) hx hy
    · have rng : ∀ T : K, T * (T - D) ≤ 0 → 0 ≤ T / D ∧ T / D ≤ 1 := by
        intro T h
        have hDD : 0 < D * D := mul_self_pos.mpr hD
        have e : T * (T - D) = (T / D) * (T / D - 1) * (D * D) := by field_simp
        rw [e] at h
        have : (T / D) * (T / D - 1) ≤ 0 := by
          by_contra hc; push Not at hc
          nlinarith
        constructor <;> nlinarith
      have hDc : crossQ d e ≠ 0 := by rw [← eD]; exact hD
      obtain ⟨g1, g2⟩ := meet_of_params (p := p) (d := d) (q := q) (e := e) (s := S / D) (t := T / D) hDc
        (by rw [← eD, ← eS]; field_simp) (by rw [← eD, ← eT]; field_simp)
      exact ⟨S / D, T / D, (rng S hS).1, (rng S hS).2, (rng T hT).1, (rng T hT).2, g1, g2⟩

/-- The same without touching. -/
theorem meetS_iff {p d q e : K × K} {D T S : K} (eD : D = crossQ d e)
    (eT : T = crossQ (q.1 - p.1, q.2 - p.2) d) (eS : S = crossQ (q.1 - p.1, q.2 - p.2) e)
    (hm : ∃ s t, MeetAt p d q e s t) :
    (∃ s t, MeetAt p d q e s t ∧ NotBothEnds p d q e (p.1 + s * d.1, p.2 + s * d.2)) ↔
      (T ≠ 0 ∧ T - D ≠ 0) ∨ (S ≠ 0 ∧ S - D ≠ 0) ∨
      (T = 0 ∧ T - D = 0 ∧ (OvlS p.2 d.2 q.2 e.2 ∨ OvlS p.1 d.1 q.1 e.1)) := by
  by_cases hD : D = 0
  · obtain ⟨-, -, hT, hS⟩ := (meet_iff eD eT eS).mp hm
    subst hD
    have t0 : T = 0 := by
      rw [sub_zero] at hT
      exact mul_self_eq_zero.mp (le_antisymm hT (mul_self_nonneg T))
    have s0 : S = 0 := by
      rw [sub_zero] at hS
      exact mul_self_eq_zero.mp (le_antisymm hS (mul_self_nonneg S))
    rw [← meetS_collinear eD.symm (by rw [← eT, t0]) (by rw [← eS, s0])]
    simp [t0, s0]
  · have hDc : crossQ d e ≠ 0 := by rw [← eD]; exact hD
    obtain ⟨s, t, h⟩ := hm
    have uniq : ∀ s' t', MeetAt p d q e s' t' → s' = s ∧ t' = t := by
      intro s' t' h'
      obtain ⟨g1, g2⟩ := params_of_meet h.2.2.2.2.1 h.2.2.2.2.2
      obtain ⟨g3, g4⟩ := params_of_meet h'.2.2.2.2.1 h'.2.2.2.2.2
      exact ⟨mul_right_cancel₀ hDc (by rw [g1, g3]), mul_right_cancel₀ hDc (by rw [g2, g4])⟩
    obtain ⟨g1, g2⟩ := params_of_meet h.2.2.2.2.1 h.2.2.2.2.2
    rw [← eD, ← eS] at g1
    rw [← eD, ← eT] at g2
    have z1 : ∀ {r U : K}, r * D = U → ((U ≠ 0 ∧ U - D ≠ 0) ↔ (r ≠ 0 ∧ r ≠ 1)) := by
      intro r U hU
      subst hU
      have : r * D - D = (r - 1) * D := by ring
      rw [this, mul_ne_zero_iff, mul_ne_zero_iff, sub_ne_zero]
      simp [hD]
    have hlast : ¬ (T = 0 ∧ T - D = 0 ∧ (OvlS p.2 d.2 q.2 e.2 ∨ OvlS p.1 d.1 q.1 e.1)) := by
      rintro ⟨h1, h2, -⟩; apply hD; linarith
    have hdne : d ≠ (0, 0) := by rintro rfl; apply hDc; simp [crossQ]
    have hene : e ≠ (0, 0) := by rintro rfl; apply hDc; simp [crossQ]
    -- a parameter is 0 or 1 exactly at the ends
    have ends : ∀ {a c : K × K} {r : K}, c ≠ (0, 0) →
        (((a.1 + r * c.1 = a.1 ∧ a.2 + r * c.2 = a.2) ∨ (a.1 + r * c.1 = a.1 + c.1 ∧ a.2 + r * c.2 = a.2 + c.2)) ↔
          (r = 0 ∨ r = 1)) := by
      intro a c r hc
      constructor
      · rintro (⟨h1, h2⟩ | ⟨h1, h2⟩)
        · left
          by_contra hr
          apply hc
          have k1 : r * c.1 = 0 := by linarith
          have k2 : r * c.2 = 0 := by linarith
          exact Prod.ext ((mul_eq_zero.mp k1).resolve_left hr) ((mul_eq_zero.mp k2).resolve_left hr)
        · right
          by_contra hr
          apply hc
          have hr' : r - 1 ≠ 0 := sub_ne_zero.mpr hr
          have k1 : (r - 1) * c.1 = 0 := by linarith
          have k2 : (r - 1) * c.2 = 0 := by linarith
          exact Prod.ext ((mul_eq_zero.mp k1).resolve_left hr') ((mul_eq_zero.mp k2).resolve_left hr')
      · rintro (rfl | rfl)
        · left; constructor <;> ring
        · right; constructor <;> ring
    have hN : NotBothEnds p d q e (p.1 + s * d.1, p.2 + s * d.2) ↔ ((t ≠ 0 ∧ t ≠ 1) ∨ (s ≠ 0 ∧ s ≠ 1)) := by
      unfold NotBothEnds
      simp only
      rw [ends hdne, h.2.2.2.2.1, h.2.2.2.2.2, ends hene]
      tauto
    rw [z1 g2, z1 g1]
    constructor
    · rintro ⟨s', t', h', hn⟩
      obtain ⟨rfl, rfl⟩ := uniq s' t' h'
      rw [hN] at hn
      rcases hn with hn | hn
      · exact Or.inl hn
      · exact Or.inr (Or.inl hn)
    · intro hh
      refine ⟨s, t, h, hN.mpr ?_⟩
      rcases hh with hh | hh | hh
      · exact Or.inl hh
      · exact Or.inr hh
      · exact absurd hh hlast

theorem sign_mul_pos (a b : Int) : a.sign * b.sign > 0 ↔ 0 < a * b := by
  rw [← Int.sign_mul, gt_iff_lt, Int.sign_pos_iff]

theorem construct_ovl (K : Type*) [Field K] [LinearOrder K] [IsStrictOrderedRing K] (a b c d : Int) :
    (intersects (construct a b) (construct c d) true = true ↔ Ovl (a : K) ((b : K) - a) c ((d : K) - c)) ∧
    (intersects (construct a b) (construct c d) false = true ↔ OvlS (a : K) ((b : K) - a) c ((d : K) - c)) := by
  have e1 : ∀ a b : Int, construct a b = ⟨min a b, max a b⟩ := by
    intro a b; unfold construct; split_ifs <;> congr 1 <;> omega
  rw [e1, e1]
  unfold intersects Ovl OvlS
  simp only [add_sub_cancel, ← Int.cast_min, ← Int.cast_max, Int.cast_le, Int.cast_lt]
  constructor <;> simp

/-- What `intersects` computes, over any ordered field containing the coordinates. -/
theorem intersectsSeg_meet (K : Type*) [Field K] [LinearOrder K] [IsStrictOrderedRing K] {a1 a2 b1 b2 c1 c2 d1 d2 : Int}
    (h1 : S32 ⟨(a1, a2), (b1, b2)⟩) (h2 : S32 ⟨(c1, c2), (d1, d2)⟩) (touch : Bool)
    {p d q e : K × K} (hp : p = ((a1 : K), (a2 : K))) (hd : d = ((b1 : K) - a1, (b2 : K) - a2))
    (hq : q = ((c1 : K), (c2 : K))) (he : e = ((d1 : K) - c1, (d2 : K) - c2)) :
    ∃ b, intersectsSeg ⟨(a1, a2), (b1, b2)⟩ ⟨(c1, c2), (d1, d2)⟩ touch = some b ∧
      (b = true ↔ ∃ s t, MeetAt p d q e s t ∧ (touch = true ∨ NotBothEnds p d q e (p.1 + s * d.1, p.2 + s * d.2))) := by
  have hD := meet_iff (p := p) (d := d) (q := q) (e := e) rfl rfl rfl
  have hDS := meetS_iff (p := p) (d := d) (q := q) (e := e) rfl rfl rfl
  set D := crossQ d e with eD
  set T := crossQ (q.1 - p.1, q.2 - p.2) d with eT
  set S := crossQ (q.1 - p.1, q.2 - p.2) e with eS
  have k11 : ((cross (a1, a2) (b1, b2) (b1, b2) (c1, c2) : ℤ) : K) = -T := by
    simp only [eT, cross, crossQ, hp, hd, hq]; push_cast; ring
  have k12 : ((cross (a1, a2) (b1, b2) (b1, b2) (d1, d2) : ℤ) : K) = -(T - D) := by
    simp only [eT, eD, cross, crossQ, hp, hd, hq, he]; push_cast; ring
  have k21 : ((cross (c1, c2) (d1, d2) (d1, d2) (a1, a2) : ℤ) : K) = S := by
    simp only [eS, cross, crossQ, hp, hq, he]; push_cast; ring
  have k22 : ((cross (c1, c2) (d1, d2) (d1, d2) (b1, b2) : ℤ) : K) = S - D := by
    simp only [eS, eD, cross, crossQ, hp, hd, hq, he]; push_cast; ring
  obtain ⟨ox, oxs⟩ := construct_ovl K a1 b1 c1 d1
  obtain ⟨oy, oys⟩ := construct_ovl K a2 b2 c2 d2
  have oxs : intersects (construct a1 b1) (construct c1 d1) false = true ↔ OvlS p.1 d.1 q.1 e.1 := by
    rw [oxs, hp, hd, hq, he]
  have oys : intersects (construct a2 b2) (construct c2 d2) false = true ↔ OvlS p.2 d.2 q.2 e.2 := by
    rw [oys, hp, hd, hq, he]
  unfold intersectsSeg
  rw [orientPt_eq h1 h2.1, orientPt_eq h1 h2.2, orientPt_eq h2 h1.1, orientPt_eq h2 h1.2]
  simp only [Option.bind_eq_bind, Option.bind_some, sign_mul_pos]
  generalize cross (a1, a2) (b1, b2) (b1, b2) (c1, c2) = o11 at *
  generalize cross (a1, a2) (b1, b2) (b1, b2) (d1, d2) = o12 at *
  generalize cross (c1, c2) (d1, d2) (d1, d2) (a1, a2) = o21 at *
  generalize cross (c1, c2) (d1, d2) (d1, d2) (b1, b2) = o22 at *
  have z11 : T ≠ 0 ↔ o11.sign ≠ 0 := by
    rw [ne_eq, ne_eq, Int.sign_eq_zero_iff_zero, ← @Int.cast_eq_zero K, k11, neg_eq_zero]
  have z12 : T - D ≠ 0 ↔ o12.sign ≠ 0 := by
    rw [ne_eq, ne_eq, Int.sign_eq_zero_iff_zero, ← @Int.cast_eq_zero K, k12, neg_eq_zero]
  have z21 : S ≠ 0 ↔ o21.sign ≠ 0 := by
    rw [ne_eq, ne_eq, Int.sign_eq_zero_iff_zero, ← @Int.cast_eq_zero K, k21]
  have z22 : S - D ≠ 0 ↔ o22.sign ≠ 0 := by
    rw [ne_eq, ne_eq, Int.sign_eq_zero_iff_zero, ← @Int.cast_eq_zero K, k22]
  have m1 : T * (T - D) ≤ 0 ↔ ¬ 0 < o11 * o12 := by
    rw [not_lt, ← @Int.cast_nonpos K]; push_cast; rw [k11, k12, neg_mul_neg]
  have m2 : S * (S - D) ≤ 0 ↔ ¬ 0 < o21 * o22 := by
    rw [not_lt, ← @Int.cast_nonpos K]; push_cast; rw [k21, k22]
  have rect : intersectsRect (setPoints (a1, a2) (b1, b2)) (setPoints (c1, c2) (d1, d2)) true = true ↔
      Ovl p.1 d.1 q.1 e.1 ∧ Ovl p.2 d.2 q.2 e.2 := by
    unfold intersectsRect setPoints
    rw [Bool.and_eq_true]
    subst hp hd hq he
    exact and_congr ox oy
  by_cases r1 : intersectsRect (setPoints (a1, a2) (b1, b2)) (setPoints (c1, c2) (d1, d2)) true = true
  swap
  · refine ⟨false, by simp [r1], ?_⟩
    simp only [Bool.false_eq_true, false_iff]
    rintro ⟨s, t, hm, -⟩
    exact r1 (rect.mpr ⟨(hD.mp ⟨s, t, hm⟩).1, (hD.mp ⟨s, t, hm⟩).2.1⟩)
  by_cases r2 : 0 < o11 * o12
  · refine ⟨false, by simp [r1, r2], ?_⟩
    simp only [Bool.false_eq_true, false_iff]
    rintro ⟨s, t, hm, -⟩
    exact m1.mp (hD.mp ⟨s, t, hm⟩).2.2.1 r2
  by_cases r3 : 0 < o21 * o22
  · refine ⟨false, by simp [r1, r2, r3], ?_⟩
    simp only [Bool.false_eq_true, false_iff]
    rintro ⟨s, t, hm, -⟩
    exact m2.mp (hD.mp ⟨s, t, hm⟩).2.2.2 r3
  have hm : ∃ s t, MeetAt p d q e s t := hD.mpr ⟨(rect.mp r1).1, (rect.mp r1).2, m1.mpr r2, m2.mpr r3⟩
  cases touch
  · have hDS' := hDS hm
    simp only [Bool.false_eq_true, false_or]
    by_cases c1' : o11.sign ≠ 0 ∧ o12.sign ≠ 0
    · refine ⟨true, by simp only [r1, r2, r3]; simp [c1'.1, c1'.2], ?_⟩
      simp only [true_iff]
      exact hDS'.mpr (Or.inl ⟨z11.mpr c1'.1, z12.mpr c1'.2⟩)
    by_cases c2' : o21.sign ≠ 0 ∧ o22.sign ≠ 0
    · refine ⟨true, by simp only [r1, r2, r3]; simp [c2'.1, c2'.2], ?_⟩
      simp only [true_iff]
      exact hDS'.mpr (Or.inr (Or.inl ⟨z21.mpr c2'.1, z22.mpr c2'.2⟩))
    have cond : ((false || (o11.sign != 0 && o12.sign != 0)) || (o21.sign != 0 && o22.sign != 0)) = false := by
      rw [Bool.or_eq_false_iff, Bool.or_eq_false_iff]
      refine ⟨⟨rfl, ?_⟩, ?_⟩
      · by_contra hc; apply c1'; simpa using hc
      · by_contra hc; apply c2'; simpa using hc
    by_cases c3 : o11.sign = 0 ∧ o12.sign = 0
    · refine ⟨_, by simp only [r1, r2, r3, cond]; simp [c3.1, c3.2]; rfl, ?_⟩
      rw [hDS']
      have t1 : T = 0 := by by_contra hc; exact z11.mp hc c3.1
      have t2 : T - D = 0 := by by_contra hc; exact z12.mp hc c3.2
      have ns : ¬ (S ≠ 0 ∧ S - D ≠ 0) := fun hc => c2' ⟨z21.mp hc.1, z22.mp hc.2⟩
      rw [Bool.or_eq_true]
      simp only [setPoints]
      rw [oxs, oys]
      constructor
      · intro hh; exact Or.inr (Or.inr ⟨t1, t2, hh⟩)
      · rintro (hh | hh | hh)
        · exact absurd t1 hh.1
        · exact absurd hh ns
        · exact hh.2.2
    · refine ⟨false, ?_, ?_⟩
      · have : (o11.sign != 0 || o12.sign != 0) = true := by
          by_contra hc; apply c3; simpa using hc
        simp only [r1, r2, r3, cond, this]; simp
      · simp only [Bool.false_eq_true, false_iff]
        rw [hDS']
        rintro (hh | hh | hh)
        · exact c1' ⟨z11.mp hh.1, z12.mp hh.2⟩
        · exact c2' ⟨z21.mp hh.1, z22.mp hh.2⟩
        · apply c3
          exact ⟨by by_contra hc; exact z11.mpr hc hh.1, by by_contra hc; exact z12.mpr hc hh.2.1⟩
  · refine ⟨true, by simp [r1, r2, r3], ?_⟩
    simp only [true_iff]
    obtain ⟨s, t, h⟩ := hm
    exact ⟨s, t, h, Or.inl trivial⟩


end Verif.Segment
