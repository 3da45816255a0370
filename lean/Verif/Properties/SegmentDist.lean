import Verif.Model.SegmentDist
import Verif.Proofs.Segment
/-!
# C29, C51: distances between points and segments

The specification is the minimum of the Euclidean distance over the points of the segments
(parametrised by real numbers in `[0,1]`).
-/
namespace Verif.Properties.SegmentDist
open Verif.Machine Verif.Segment Verif.Spec

/-- Euclidean distance in the real plane. -/
noncomputable def distR (a b : ℝ × ℝ) : ℝ := √((a.1 - b.1) ^ 2 + (a.2 - b.2) ^ 2)
/-- The integer point as a real point. -/
def toR (p : Int × Int) : ℝ × ℝ := ((p.1 : ℝ), (p.2 : ℝ))
/-- The point of the segment at parameter `t`. -/
noncomputable def at' (s : Seg) (t : ℝ) : ℝ × ℝ :=
  ((s.lo.1 : ℝ) + t * (s.hi.1 - s.lo.1), (s.lo.2 : ℝ) + t * (s.hi.2 - s.lo.2))
/-- Coordinates small enough that differences of two of them fit in `int`. -/
def Half (p : Int × Int) : Prop := -2 ^ 30 ≤ p.1 ∧ p.1 < 2 ^ 30 ∧ -2 ^ 30 ≤ p.2 ∧ p.2 < 2 ^ 30

/-! ## C51 -/

/-- C51, the part that holds: when the coordinate differences fit in `int`, the point distances
are exact and no intermediate overflows. Missing: points more than `2^31 - 1` apart in a
coordinate, see `C51_point_distance_violated`. -/
theorem C51_point_distance_partial (p q : Int × Int) (h1 : I32 (p.1 - q.1)) (h2 : I32 (p.2 - q.2))
    (h3 : p.1 - q.1 ≠ -2 ^ 31 ∨ p.2 - q.2 ≠ -2 ^ 31) :
    manhattanPt p q = some (|p.1 - q.1| + |p.2 - q.2|) ∧
    distSqPt p q = some ((p.1 - q.1) ^ 2 + (p.2 - q.2) ^ 2) ∧
    eucPt p q = some (distR (toR p) (toR q)) := by
  have ax : ∀ z : Int, I32 z → (if z < 0 then i64 (-z) else some z) = some |z| := by
    intro z hz
    unfold I32 at hz
    split_ifs with h
    · rw [abs_of_neg h, i64_some (by omega)]
    · rw [abs_of_nonneg (by omega)]
  have d1 : distAxis p.1 q.1 = some |p.1 - q.1| := by
    unfold distAxis; rw [i32_some h1]; exact ax _ h1
  have d2 : distAxis p.2 q.2 = some |p.2 - q.2| := by
    unfold distAxis; rw [i32_some h2]; exact ax _ h2
  unfold I32 at h1 h2
  have b1 : |p.1 - q.1| ≤ 2 ^ 31 := by rw [abs_le]; omega
  have b2 : |p.2 - q.2| ≤ 2 ^ 31 := by rw [abs_le]; omega
  have n1 := abs_nonneg (p.1 - q.1)
  have n2 := abs_nonneg (p.2 - q.2)
  have b3 : |p.1 - q.1| + |p.2 - q.2| ≤ 2 ^ 32 - 1 := by
    rcases h3 with h3 | h3
    · have : |p.1 - q.1| ≤ 2 ^ 31 - 1 := by rw [abs_le]; omega
      omega
    · have : |p.2 - q.2| ≤ 2 ^ 31 - 1 := by rw [abs_le]; omega
      omega
  have sq : distSqPt p q = some ((p.1 - q.1) ^ 2 + (p.2 - q.2) ^ 2) := by
    unfold distSqPt
    rw [d1, d2]
    simp only [Option.bind_eq_bind, Option.bind_some, abs_mul_abs_self]
    have s1 : (p.1 - q.1) * (p.1 - q.1) = |p.1 - q.1| * |p.1 - q.1| := (abs_mul_abs_self _).symm
    have s2 : (p.2 - q.2) * (p.2 - q.2) = |p.2 - q.2| * |p.2 - q.2| := (abs_mul_abs_self _).symm
    rw [s1, s2, i64_some (by constructor <;> nlinarith), i64_some (by constructor <;> nlinarith)]
    simp only [Option.bind_some]
    rw [i64_some (by constructor <;> nlinarith), ← s1, ← s2, pow_two, pow_two]
  refine ⟨?_, sq, ?_⟩
  · unfold manhattanPt
    rw [d1, d2]
    simp only [Option.bind_eq_bind, Option.bind_some]
    rw [i64_some (by omega)]
  · unfold eucPt
    rw [sq]
    simp [distR, toR]

/-- C51 does not hold for all 32-bit points: the difference of two `int` coordinates is formed in
`int` and overflows (undefined behaviour) although the result type could hold it. -/
theorem C51_point_distance_violated :
    ∃ p q : Int × Int, P32 p ∧ P32 q ∧ manhattanPt p q = none ∧ distSqPt p q = none := by
  refine ⟨(2000000000, 0), (-2000000000, 0), by simp [P32, I32], by simp [P32, I32], ?_, ?_⟩ <;> decide +kernel

example : I32 ((7 : Int) - 3) ∧ distSqPt (7, 1) (3, -2) = some 25 := by decide +kernel

/-! ## C29 -/

private theorem eucPt_half {p q : Int × Int} (hp : Half p) (hq : Half q) :
    eucPt p q = some (distR (toR p) (toR q)) := by
  unfold Half at hp hq
  exact (C51_point_distance_partial p q (by unfold I32; omega) (by unfold I32; omega) (by omega)).2.2

private theorem distR_le {a b c d : ℝ × ℝ}
    (h : (a.1 - b.1) ^ 2 + (a.2 - b.2) ^ 2 ≤ (c.1 - d.1) ^ 2 + (c.2 - d.2) ^ 2) : distR a b ≤ distR c d :=
  Real.sqrt_le_sqrt h

/-- C29, the part that holds for points: the distance from a non-degenerate segment to a point is
the minimum over the points of the segment. Missing: degenerate segments (violated, below);
coordinates of magnitude `2^30` or more. -/
theorem C29_segment_point_partial (s : Seg) (p : Int × Int) (hne : s.lo ≠ s.hi)
    (h1 : Half s.lo) (h2 : Half s.hi) (h3 : Half p) :
    ∃ d, eucSegPt s p = some d ∧ IsLeast {r | ∃ t, 0 ≤ t ∧ t ≤ 1 ∧ r = distR (at' s t) (toR p)} d := by
  set A := p.1 - s.lo.1 with hA
  set B := p.2 - s.lo.2 with hB
  set C := s.hi.1 - s.lo.1 with hC
  set D := s.hi.2 - s.lo.2 with hD
  have hL : 0 < C * C + D * D := by
    have : C ≠ 0 ∨ D ≠ 0 := by
      by_contra hc
      push Not at hc
      exact hne (Prod.ext (by omega) (by omega))
    rcases this with h | h
    · have := mul_self_pos.mpr h; nlinarith [mul_self_nonneg D]
    · have := mul_self_pos.mpr h; nlinarith [mul_self_nonneg C]
  have f : ∀ t : ℝ, ((at' s t).1 - (toR p).1) ^ 2 + ((at' s t).2 - (toR p).2) ^ 2 =
      (C * C + D * D : ℝ) * t ^ 2 - 2 * (A * C + B * D) * t + (A ^ 2 + B ^ 2) := by
    intro t
    simp only [at', toR, hA, hB, hC, hD]
    push_cast
    ring
  have hLr : (0 : ℝ) < C * C + D * D := by exact_mod_cast hL
  by_cases c1 : A * C + B * D > C * C + D * D
  · refine ⟨distR (toR s.hi) (toR p), ?_, ?_, ?_⟩
    · unfold eucSegPt
      simp only [← hA, ← hB, ← hC, ← hD, if_pos c1]
      exact eucPt_half h2 h3
    · refine ⟨1, by norm_num, le_refl _, ?_⟩
      congr 1
      simp [at', toR]
    · rintro r ⟨t, t0, t1, rfl⟩
      have e : toR s.hi = at' s 1 := by simp [at', toR]
      rw [e]
      apply distR_le
      rw [f, f]
      have c1r : (A * C + B * D : ℝ) > C * C + D * D := by exact_mod_cast c1
      have := mul_nonneg (sub_nonneg.mpr t1) (by nlinarith : 0 ≤ 2 * (A * C + B * D : ℝ) - (C * C + D * D) * (1 + t))
      nlinarith
  by_cases c2 : A * C + B * D < 0
  · refine ⟨distR (toR s.lo) (toR p), ?_, ?_, ?_⟩
    · unfold eucSegPt
      simp only [← hA, ← hB, ← hC, ← hD, if_neg c1, if_pos c2]
      exact eucPt_half h1 h3
    · refine ⟨0, le_refl _, by norm_num, ?_⟩
      congr 1
      simp [at', toR]
    · rintro r ⟨t, t0, t1, rfl⟩
      have e : toR s.lo = at' s 0 := by simp [at', toR]
      rw [e]
      apply distR_le
      rw [f, f]
      have c2r : (A * C + B * D : ℝ) < 0 := by exact_mod_cast c2
      nlinarith
  · have c1r : (A * C + B * D : ℝ) ≤ C * C + D * D := by exact_mod_cast not_lt.mp c1
    have c2r : (0 : ℝ) ≤ A * C + B * D := by exact_mod_cast not_lt.mp c2
    have val : (if (((A * D - C * B : Int) : ℝ) / √((C * C + D * D : Int) : ℝ)) < 0 then
        -(((A * D - C * B : Int) : ℝ) / √((C * C + D * D : Int) : ℝ)) else
        (((A * D - C * B : Int) : ℝ) / √((C * C + D * D : Int) : ℝ))) =
        √(((A * D - C * B : ℝ)) ^ 2 / (C * C + D * D)) := by
      have : ∀ x : ℝ, (if x < 0 then -x else x) = |x| := by
        intro x
        split_ifs with h
        · rw [abs_of_neg h]
        · rw [abs_of_nonneg (not_lt.mp h)]
      rw [this, abs_div, Real.sqrt_div (sq_nonneg _), Real.sqrt_sq_eq_abs, abs_of_nonneg (Real.sqrt_nonneg _)]
      push_cast
      rfl
    have at0 : ∀ t : ℝ, (C * C + D * D : ℝ) * t = A * C + B * D →
        (C * C + D * D : ℝ) * t ^ 2 - 2 * (A * C + B * D) * t + (A ^ 2 + B ^ 2) =
          (A * D - C * B : ℝ) ^ 2 / (C * C + D * D) := by
      intro t ht
      rw [eq_div_iff hLr.ne', ← ht]
      have : ((C * C + D * D : ℝ) * t ^ 2 - 2 * ((C * C + D * D) * t) * t + (A ^ 2 + B ^ 2)) * (C * C + D * D) =
        (A ^ 2 + B ^ 2) * (C * C + D * D) - ((C * C + D * D) * t) ^ 2 := by ring
      rw [this, ht]
      ring
    refine ⟨√(((A * D - C * B : ℝ)) ^ 2 / (C * C + D * D)), ?_, ?_, ?_⟩
    · unfold eucSegPt
      simp only [← hA, ← hB, ← hC, ← hD, if_neg c1, if_neg c2, if_neg hL.ne']
      rw [← val]
    · refine ⟨(A * C + B * D) / (C * C + D * D), by positivity, by rw [div_le_one hLr]; exact c1r, ?_⟩
      unfold distR
      rw [f, at0 _ (by rw [mul_comm, div_mul_cancel₀ _ hLr.ne'])]
    · rintro r ⟨t, t0, t1, rfl⟩
      unfold distR
      apply Real.sqrt_le_sqrt
      rw [f, div_le_iff₀ hLr]
      nlinarith [sq_nonneg ((C * C + D * D : ℝ) * t - (A * C + B * D))]

/-- C29 does not hold for degenerate segments: the distance from a one-point segment to any point
whatsoever is reported as 0. -/
theorem C29_degenerate_violated (a : Int × Int) (p : Int × Int) : eucSegPt ⟨a, a⟩ p = some 0 := by
  simp [eucSegPt]

/-- One coordinate of the walk to the border of the unit square. -/
private theorem exit1 {s α : ℝ} (s0 : 0 ≤ s) (s1 : s ≤ 1) (h : ¬ (0 ≤ s + α ∧ s + α ≤ 1)) :
    ∃ l, 0 ≤ l ∧ l ≤ 1 ∧ (s + l * α = 0 ∨ s + l * α = 1) ∧ ∀ m, 0 ≤ m → m ≤ l → 0 ≤ s + m * α ∧ s + m * α ≤ 1 := by
  by_cases hp : s + α ≤ 1
  · have hn : s + α < 0 := by by_contra hc; exact h ⟨not_lt.mp hc, hp⟩
    have ha : α < 0 := by linarith
    refine ⟨s / (-α), div_nonneg s0 (by linarith), by rw [div_le_one (by linarith)]; linarith, Or.inl ?_, ?_⟩
    · rw [div_mul_eq_mul_div, div_neg, mul_div_cancel_right₀ _ ha.ne]; ring
    · intro m m0 m1
      rw [le_div_iff₀ (by linarith)] at m1
      constructor <;> nlinarith
  · push Not at hp
    have ha : 0 < α := by linarith
    refine ⟨(1 - s) / α, div_nonneg (by linarith) ha.le, by rw [div_le_one ha]; linarith, Or.inr ?_, ?_⟩
    · rw [div_mul_cancel₀ _ ha.ne']; ring
    · intro m m0 m1
      rw [le_div_iff₀ ha] at m1
      constructor <;> nlinarith

/-- Walking out of the unit square crosses its border. -/
private theorem exit2 {s t α β : ℝ} (s0 : 0 ≤ s) (s1 : s ≤ 1) (t0 : 0 ≤ t) (t1 : t ≤ 1)
    (h : ¬ (0 ≤ s + α ∧ s + α ≤ 1 ∧ 0 ≤ t + β ∧ t + β ≤ 1)) :
    ∃ l, 0 ≤ l ∧ l ≤ 1 ∧ 0 ≤ s + l * α ∧ s + l * α ≤ 1 ∧ 0 ≤ t + l * β ∧ t + l * β ≤ 1 ∧
      (s + l * α = 0 ∨ s + l * α = 1 ∨ t + l * β = 0 ∨ t + l * β = 1) := by
  have stay : ∀ {s α l : ℝ}, 0 ≤ s → s ≤ 1 → 0 ≤ s + α ∧ s + α ≤ 1 → 0 ≤ l → l ≤ 1 → 0 ≤ s + l * α ∧ s + l * α ≤ 1 := by
    intro s α l s0 s1 hs l0 l1
    constructor <;> nlinarith
  by_cases h1 : 0 ≤ s + α ∧ s + α ≤ 1
  · have h2 : ¬ (0 ≤ t + β ∧ t + β ≤ 1) := fun hc => h ⟨h1.1, h1.2, hc⟩
    obtain ⟨l, l0, l1, lb, lm⟩ := exit1 t0 t1 h2
    obtain ⟨g1, g2⟩ := stay s0 s1 h1 l0 l1
    obtain ⟨g3, g4⟩ := lm l l0 le_rfl
    exact ⟨l, l0, l1, g1, g2, g3, g4, Or.inr (Or.inr lb)⟩
  · obtain ⟨l, l0, l1, lb, lm⟩ := exit1 s0 s1 h1
    by_cases h2 : 0 ≤ t + β ∧ t + β ≤ 1
    · obtain ⟨g1, g2⟩ := stay t0 t1 h2 l0 l1
      obtain ⟨g3, g4⟩ := lm l l0 le_rfl
      refine ⟨l, l0, l1, g3, g4, g1, g2, ?_⟩
      rcases lb with h | h
      · exact Or.inl h
      · exact Or.inr (Or.inl h)
    · obtain ⟨k, k0, k1, kb, km⟩ := exit1 t0 t1 h2
      rcases le_total l k with hlk | hlk
      · obtain ⟨g1, g2⟩ := lm l l0 le_rfl
        obtain ⟨g3, g4⟩ := km l l0 hlk
        refine ⟨l, l0, l1, g1, g2, g3, g4, ?_⟩
        rcases lb with h | h
        · exact Or.inl h
        · exact Or.inr (Or.inl h)
      · obtain ⟨g1, g2⟩ := lm k k0 hlk
        obtain ⟨g3, g4⟩ := km k k0 le_rfl
        exact ⟨k, k0, k1, g1, g2, g3, g4, Or.inr (Or.inr kb)⟩

/-- Disjoint segments are closest at an end point of one of them. -/
private theorem closest_at_end {w d e : ℝ × ℝ}
    (hno : ¬ ∃ s t : ℝ, 0 ≤ s ∧ s ≤ 1 ∧ 0 ≤ t ∧ t ≤ 1 ∧ w.1 + s * d.1 - t * e.1 = 0 ∧ w.2 + s * d.2 - t * e.2 = 0)
    {s t : ℝ} (s0 : 0 ≤ s) (s1 : s ≤ 1) (t0 : 0 ≤ t) (t1 : t ≤ 1) :
    ∃ s' t' : ℝ, 0 ≤ s' ∧ s' ≤ 1 ∧ 0 ≤ t' ∧ t' ≤ 1 ∧ (s' = 0 ∨ s' = 1 ∨ t' = 0 ∨ t' = 1) ∧
      (w.1 + s' * d.1 - t' * e.1) ^ 2 + (w.2 + s' * d.2 - t' * e.2) ^ 2 ≤
        (w.1 + s * d.1 - t * e.1) ^ 2 + (w.2 + s * d.2 - t * e.2) ^ 2 := by
  by_cases hD : d.1 * e.2 - d.2 * e.1 = 0
  · -- parallel: slide along the common direction
    obtain ⟨α, β, hne, e1, e2⟩ : ∃ α β : ℝ, (α ≠ 0 ∨ β ≠ 0) ∧ α * d.1 = β * e.1 ∧ α * d.2 = β * e.2 := by
      by_cases h1 : e.1 = 0 ∧ d.1 = 0
      · by_cases h2 : e.2 = 0 ∧ d.2 = 0
        · exact ⟨1, 0, Or.inl one_ne_zero, by rw [h1.2]; ring, by rw [h2.2]; ring⟩
        · refine ⟨e.2, d.2, ?_, by rw [h1.1, h1.2]; ring, by ring⟩
          by_contra hc; push Not at hc; exact h2 hc
      · refine ⟨e.1, d.1, ?_, by ring, by linarith⟩
        by_contra hc; push Not at hc; exact h1 hc
    obtain ⟨c, hc⟩ : ∃ c : ℝ, ¬ (0 ≤ s + c * α ∧ s + c * α ≤ 1 ∧ 0 ≤ t + c * β ∧ t + c * β ≤ 1) := by
      rcases hne with h | h
      · refine ⟨2 / α, fun hc => ?_⟩
        rw [div_mul_cancel₀ _ h] at hc; linarith [hc.2.1]
      · refine ⟨2 / β, fun hc => ?_⟩
        rw [div_mul_cancel₀ _ h] at hc; linarith [hc.2.2.2]
    obtain ⟨l, -, -, g1, g2, g3, g4, g5⟩ := exit2 s0 s1 t0 t1 hc
    refine ⟨_, _, g1, g2, g3, g4, g5, le_of_eq ?_⟩
    have k1 : w.1 + (s + l * (c * α)) * d.1 - (t + l * (c * β)) * e.1 = w.1 + s * d.1 - t * e.1 := by
      linear_combination l * c * e1
    have k2 : w.2 + (s + l * (c * α)) * d.2 - (t + l * (c * β)) * e.2 = w.2 + s * d.2 - t * e.2 := by
      linear_combination l * c * e2
    rw [k1, k2]
  · -- otherwise walk towards the intersection of the two lines
    set Δ := d.1 * e.2 - d.2 * e.1 with hΔ
    set S := (w.2 * e.1 - w.1 * e.2) / Δ with hS
    set T := (w.2 * d.1 - w.1 * d.2) / Δ with hT
    have hS' : S * Δ = w.2 * e.1 - w.1 * e.2 := by rw [hS]; field_simp
    have hT' : T * Δ = w.2 * d.1 - w.1 * d.2 := by rw [hT]; field_simp
    have z1 : w.1 + S * d.1 - T * e.1 = 0 := by
      apply mul_right_cancel₀ hD
      rw [zero_mul]
      linear_combination d.1 * hS' - e.1 * hT' + w.1 * hΔ
    have z2 : w.2 + S * d.2 - T * e.2 = 0 := by
      apply mul_right_cancel₀ hD
      rw [zero_mul]
      linear_combination d.2 * hS' - e.2 * hT' + w.2 * hΔ
    have hout : ¬ (0 ≤ s + (S - s) ∧ s + (S - s) ≤ 1 ∧ 0 ≤ t + (T - t) ∧ t + (T - t) ≤ 1) := by
      intro hc
      apply hno
      simp only [add_sub_cancel] at hc
      exact ⟨S, T, hc.1, hc.2.1, hc.2.2.1, hc.2.2.2, z1, z2⟩
    obtain ⟨l, l0, l1, g1, g2, g3, g4, g5⟩ := exit2 s0 s1 t0 t1 hout
    refine ⟨_, _, g1, g2, g3, g4, g5, ?_⟩
    have k1 : w.1 + (s + l * (S - s)) * d.1 - (t + l * (T - t)) * e.1 = (1 - l) * (w.1 + s * d.1 - t * e.1) := by
      linear_combination l * z1
    have k2 : w.2 + (s + l * (S - s)) * d.2 - (t + l * (T - t)) * e.2 = (1 - l) * (w.2 + s * d.2 - t * e.2) := by
      linear_combination l * z2
    rw [k1, k2, mul_pow, mul_pow, ← mul_add]
    have : (1 - l) ^ 2 ≤ 1 := by nlinarith
    have h0 : 0 ≤ (w.1 + s * d.1 - t * e.1) ^ 2 + (w.2 + s * d.2 - t * e.2) ^ 2 := by positivity
    nlinarith

/-- C29, the part that holds for segments: the distance between two non-degenerate segments is the
minimum over all pairs of their points. Missing: as in `C29_segment_point_partial`. -/
theorem C29_segment_segment_partial (s1 s2 : Seg) (hn1 : s1.lo ≠ s1.hi) (hn2 : s2.lo ≠ s2.hi)
    (h1 : Half s1.lo) (h2 : Half s1.hi) (h3 : Half s2.lo) (h4 : Half s2.hi) :
    ∃ d, eucSegSeg s1 s2 = some d ∧
      IsLeast {r | ∃ t u, 0 ≤ t ∧ t ≤ 1 ∧ 0 ≤ u ∧ u ≤ 1 ∧ r = distR (at' s1 t) (at' s2 u)} d := by
  have to32 : ∀ {p : Int × Int}, Half p → P32 p := by
    intro p h; unfold Half at h; unfold P32 I32; omega
  obtain ⟨b, eb, hb⟩ := intersectsSeg_meet ℝ (a1 := s1.lo.1) (a2 := s1.lo.2) (b1 := s1.hi.1) (b2 := s1.hi.2)
    (c1 := s2.lo.1) (c2 := s2.lo.2) (d1 := s2.hi.1) (d2 := s2.hi.2) ⟨to32 h1, to32 h2⟩ ⟨to32 h3, to32 h4⟩ true rfl rfl rfl rfl
  have eb : intersectsSeg s1 s2 true = some b := eb
  obtain ⟨r1, e1, l1⟩ := C29_segment_point_partial s1 s2.lo hn1 h1 h2 h3
  obtain ⟨r2, e2, l2⟩ := C29_segment_point_partial s1 s2.hi hn1 h1 h2 h4
  obtain ⟨r3, e3, l3⟩ := C29_segment_point_partial s2 s1.lo hn2 h3 h4 h1
  obtain ⟨r4, e4, l4⟩ := C29_segment_point_partial s2 s1.hi hn2 h3 h4 h2
  have comm : ∀ a b, distR a b = distR b a := by
    intro a b; unfold distR; congr 1; ring
  have end0 : ∀ s : Seg, at' s 0 = toR s.lo := by intro s; simp [at', toR]
  have end1 : ∀ s : Seg, at' s 1 = toR s.hi := by intro s; simp [at', toR]
  unfold eucSegSeg
  rw [eb, e1, e2, e3, e4]
  simp only [Option.bind_eq_bind, Option.bind_some]
  cases hbb : b
  · have hno : ¬ ∃ s t : ℝ, MeetAt ((s1.lo.1 : ℝ), (s1.lo.2 : ℝ)) ((s1.hi.1 : ℝ) - s1.lo.1, (s1.hi.2 : ℝ) - s1.lo.2)
        ((s2.lo.1 : ℝ), (s2.lo.2 : ℝ)) ((s2.hi.1 : ℝ) - s2.lo.1, (s2.hi.2 : ℝ) - s2.lo.2) s t := by
      rintro ⟨s, t, h⟩
      have := hb.mpr ⟨s, t, h, Or.inl rfl⟩
      rw [hbb] at this
      cases this
    set m1 := if r2 < r1 then r2 else r1 with hm1
    set m3 := if r4 < r3 then r4 else r3 with hm3
    have a1 : m1 ≤ r1 ∧ m1 ≤ r2 ∧ (m1 = r1 ∨ m1 = r2) := by
      rw [hm1]; split_ifs with h
      · exact ⟨h.le, le_rfl, Or.inr rfl⟩
      · exact ⟨le_rfl, not_lt.mp h, Or.inl rfl⟩
    have a3 : m3 ≤ r3 ∧ m3 ≤ r4 ∧ (m3 = r3 ∨ m3 = r4) := by
      rw [hm3]; split_ifs with h
      · exact ⟨h.le, le_rfl, Or.inr rfl⟩
      · exact ⟨le_rfl, not_lt.mp h, Or.inl rfl⟩
    set m := if m1 < m3 then m1 else m3 with hm
    have a : m ≤ m1 ∧ m ≤ m3 ∧ (m = m1 ∨ m = m3) := by
      rw [hm]; split_ifs with h
      · exact ⟨le_rfl, h.le, Or.inl rfl⟩
      · exact ⟨not_lt.mp h, le_rfl, Or.inr rfl⟩
    refine ⟨m, by simp, ?_, ?_⟩
    · have : m = r1 ∨ m = r2 ∨ m = r3 ∨ m = r4 := by
        rcases a.2.2 with h | h <;> rw [h]
        · rcases a1.2.2 with h | h
          · exact Or.inl h
          · exact Or.inr (Or.inl h)
        · rcases a3.2.2 with h | h
          · exact Or.inr (Or.inr (Or.inl h))
          · exact Or.inr (Or.inr (Or.inr h))
      rcases this with h | h | h | h <;> rw [h]
      · obtain ⟨t, t0, t1, e⟩ := l1.1
        exact ⟨t, 0, t0, t1, le_rfl, by norm_num, by rw [e, end0]⟩
      · obtain ⟨t, t0, t1, e⟩ := l2.1
        exact ⟨t, 1, t0, t1, by norm_num, le_rfl, by rw [e, end1]⟩
      · obtain ⟨t, t0, t1, e⟩ := l3.1
        exact ⟨0, t, le_rfl, by norm_num, t0, t1, by rw [e, end0, comm]⟩
      · obtain ⟨t, t0, t1, e⟩ := l4.1
        exact ⟨1, t, by norm_num, le_rfl, t0, t1, by rw [e, end1, comm]⟩
    · rintro r ⟨t, u, t0, t1, u0, u1, rfl⟩
      obtain ⟨s', t', g1, g2, g3, g4, g5, g6⟩ := closest_at_end
        (w := ((s1.lo.1 : ℝ) - s2.lo.1, (s1.lo.2 : ℝ) - s2.lo.2))
        (d := ((s1.hi.1 : ℝ) - s1.lo.1, (s1.hi.2 : ℝ) - s1.lo.2))
        (e := ((s2.hi.1 : ℝ) - s2.lo.1, (s2.hi.2 : ℝ) - s2.lo.2)) (by
          rintro ⟨s, t, c1, c2, c3, c4, c5, c6⟩
          exact hno ⟨s, t, c1, c2, c3, c4, by simp only at c5 ⊢; linarith, by simp only at c6 ⊢; linarith⟩) t0 t1 u0 u1
      have key : distR (at' s1 s') (at' s2 t') ≤ distR (at' s1 t) (at' s2 u) := by
        apply distR_le
        simp only [at']
        convert g6 using 3 <;> ring
      refine le_trans ?_ key
      rcases g5 with h | h | h | h <;> subst h
      · rw [end0, comm]
        exact (a.2.1.trans a3.1).trans (l3.2 ⟨t', g3, g4, rfl⟩)
      · rw [end1, comm]
        exact (a.2.1.trans a3.2.1).trans (l4.2 ⟨t', g3, g4, rfl⟩)
      · rw [end0]
        exact (a.1.trans a1.1).trans (l1.2 ⟨s', g1, g2, rfl⟩)
      · rw [end1]
        exact (a.1.trans a1.2.1).trans (l2.2 ⟨s', g1, g2, rfl⟩)
  · refine ⟨0, by simp, ?_, ?_⟩
    · obtain ⟨s, t, ⟨c1, c2, c3, c4, c5, c6⟩, -⟩ := hb.mp hbb
      refine ⟨s, t, c1, c2, c3, c4, ?_⟩
      unfold distR at'
      simp only at c5 c6 ⊢
      rw [c5, c6]
      simp
    · rintro r ⟨t, u, -, -, -, -, rfl⟩
      exact Real.sqrt_nonneg _

example : Half (0, 0) ∧ Half (10, 0) ∧ ((0, 0) : Int × Int) ≠ (10, 0) := by
  simp [Half]

end Verif.Properties.SegmentDist
