import Verif.Model.OffsetArb
import Verif.Spec.OffsetArb
import Mathlib.Tactic
/-! Where the moved edges of a polygon cross. -/
namespace Verif.OffsetArb
open Verif.Spec.OffsetArb

theorem eval_line {x : ℝ} {p q : RP} (h : p.1 ≠ q.1) : (x - p.1) * (q.2 - p.2) = (evalAt x p q - p.2) * (q.1 - p.1) := by
  unfold evalAt
  have h' : q.1 - p.1 ≠ 0 := sub_ne_zero.2 (Ne.symm h)
  split_ifs with h1 h2
  · rw [h1]; ring
  · rw [h2]; ring
  · field_simp
    ring

/-- Lines that are not parallel: the result is on both. -/
theorem cross_spec {e f : RP × RP} (h : (e.2.1 - e.1.1) * (f.2.2 - f.1.2) - (e.2.2 - e.1.2) * (f.2.1 - f.1.1) ≠ 0) :
    ∃ x, lineCross e f = some x ∧ (x.1 - e.1.1) * (e.2.2 - e.1.2) = (x.2 - e.1.2) * (e.2.1 - e.1.1) ∧
      (x.1 - f.1.1) * (f.2.2 - f.1.2) = (x.2 - f.1.2) * (f.2.1 - f.1.1) := by
  unfold lineCross
  by_cases he : e.1.1 = e.2.1
  · rw [if_pos he]
    have hf : ¬ f.1.1 = f.2.1 := by
      intro hf; apply h; rw [he, hf]; ring
    rw [if_neg hf]
    refine ⟨_, rfl, ?_, ?_⟩
    · simp only; rw [← he]; ring
    · exact eval_line hf
  · rw [if_neg he]
    by_cases hf : f.1.1 = f.2.1
    · rw [if_pos hf]
      refine ⟨_, rfl, eval_line he, ?_⟩
      simp only; rw [← hf]; ring
    · rw [if_neg hf]
      simp only
      have hp : ¬ (e.2.1 - e.1.1) * (f.2.2 - f.1.2) = (f.2.1 - f.1.1) * (e.2.2 - e.1.2) := by
        intro g; apply h; rw [g]; ring
      rw [if_neg hp]
      obtain ⟨⟨a, b⟩, c, d⟩ := e
      obtain ⟨⟨a', b'⟩, c', d'⟩ := f
      simp only at *
      have d1 : (d - b) * (c' - a') - (d' - b') * (c - a) ≠ 0 := by intro g; apply h; linarith
      have d2 : (c - a) * (d' - b') - (c' - a') * (d - b) ≠ 0 := by intro g; apply h; linarith
      refine ⟨_, rfl, ?_, ?_⟩
      · simp only
        split_ifs with g1 g2
        · rw [← g1] at d1 ⊢
          simp only [sub_self, zero_mul, mul_zero, sub_zero] at d1 ⊢
          have k1 : d - b ≠ 0 := left_ne_zero_of_mul d1
          have k2 : c' - a' ≠ 0 := right_ne_zero_of_mul d1
          field_simp
          ring
        · rw [← g2]; ring
        · rw [show (c - a) * (d' - b') - (c' - a') * (d - b) = -((d - b) * (c' - a') - (d' - b') * (c - a)) by ring]
          field_simp
          ring
      · simp only
        split_ifs with g1 g2
        · rw [← g1]; ring
        · rw [← g2] at d1 ⊢
          simp only [sub_self, zero_mul, mul_zero, zero_sub] at d1 ⊢
          have k0 := neg_ne_zero.1 d1
          have k1 : d' - b' ≠ 0 := left_ne_zero_of_mul k0
          have k2 : c - a ≠ 0 := right_ne_zero_of_mul k0
          field_simp
          ring
        · rw [show (c - a) * (d' - b') - (c' - a') * (d - b) = -((d - b) * (c' - a') - (d' - b') * (c - a)) by ring]
          field_simp
          ring

/-- Two edges with unit normals `U`, `V` that end and start in `c`, moved by `t`. -/
theorem core {c U V : RP} {t l k q : ℝ} (hU : U.1 ^ 2 + U.2 ^ 2 = 1) (hV : V.1 ^ 2 + V.2 ^ 2 = 1) (hn : U.1 * V.1 + U.2 * V.2 ≠ -1) (ht : t ≠ 0) (hl : l ≠ 0)
    (hk : k ≠ 0) (hq : q ≤ |t| / 2) {e f : RP × RP} (e2 : e.2 = (c.1 + t * U.1, c.2 + t * U.2)) (e1 : e.1 = (e.2.1 + l * U.2, e.2.2 - l * U.1))
    (f1 : f.1 = (c.1 + t * V.1, c.2 + t * V.2)) (f2 : f.2 = (f.1.1 - k * V.2, f.1.2 + k * V.1)) (X : RP)
    (hX : X = if √(((e.2.1 + f.1.1) / 2 - c.1) * ((e.2.1 + f.1.1) / 2 - c.1) + ((e.2.2 + f.1.2) / 2 - c.2) * ((e.2.2 + f.1.2) / 2 - c.2)) < q
      then (lineCross e f).getD e.2 else (lineCross e (c, ((e.2.1 + f.1.1) / 2, (e.2.2 + f.1.2) / 2))).getD e.2) :
    (X.1 - c.1) * U.1 + (X.2 - c.2) * U.2 = t ∧ (X.1 - c.1) * V.1 + (X.2 - c.2) * V.2 = t ∧
      (U.1 * V.1 + U.2 * V.2 = 1 → (X.1 - c.1) * U.2 = (X.2 - c.2) * U.1) := by
  obtain ⟨⟨ea, eb⟩, ec, ed⟩ := e
  obtain ⟨⟨fa, fb⟩, fc, fd⟩ := f
  obtain ⟨c1, c2⟩ := c
  obtain ⟨u1, u2⟩ := U
  obtain ⟨v1, v2⟩ := V
  simp only [Prod.mk.injEq] at *
  obtain ⟨rfl, rfl⟩ := e2
  obtain ⟨rfl, rfl⟩ := e1
  obtain ⟨rfl, rfl⟩ := f1
  obtain ⟨rfl, rfl⟩ := f2
  have lag : (u1 * v2 - u2 * v1) ^ 2 + (u1 * v1 + u2 * v2) ^ 2 = 1 := by
    have : (u1 * v2 - u2 * v1) ^ 2 + (u1 * v1 + u2 * v2) ^ 2 = (u1 ^ 2 + u2 ^ 2) * (v1 ^ 2 + v2 ^ 2) := by ring
    rw [this, hU, hV]; ring
  split_ifs at hX with hs
  · have hcr : u1 * v2 - u2 * v1 ≠ 0 := by
      intro h0
      rw [h0] at lag
      have h1 : u1 * v1 + u2 * v2 = 1 := by
        have : (u1 * v1 + u2 * v2 - 1) * (u1 * v1 + u2 * v2 + 1) = 0 := by linarith
        rcases mul_eq_zero.1 this with g | g
        · linarith
        · exact absurd (by linarith) hn
      have e0 : ((c1 + t * u1 + (c1 + t * v1)) / 2 - c1) * ((c1 + t * u1 + (c1 + t * v1)) / 2 - c1) +
          ((c2 + t * u2 + (c2 + t * v2)) / 2 - c2) * ((c2 + t * u2 + (c2 + t * v2)) / 2 - c2) = t ^ 2 := by
        have : ((c1 + t * u1 + (c1 + t * v1)) / 2 - c1) * ((c1 + t * u1 + (c1 + t * v1)) / 2 - c1) +
          ((c2 + t * u2 + (c2 + t * v2)) / 2 - c2) * ((c2 + t * u2 + (c2 + t * v2)) / 2 - c2) =
          t ^ 2 * ((u1 ^ 2 + u2 ^ 2) + (v1 ^ 2 + v2 ^ 2) + 2 * (u1 * v1 + u2 * v2)) / 4 := by ring
        rw [this, hU, hV, h1]; ring
      rw [e0, Real.sqrt_sq_eq_abs] at hs
      have := abs_pos.2 ht
      linarith
    obtain ⟨x, hx, x1, x2⟩ := cross_spec (e := ((c1 + t * u1 + l * u2, c2 + t * u2 - l * u1), c1 + t * u1, c2 + t * u2))
      (f := ((c1 + t * v1, c2 + t * v2), c1 + t * v1 - k * v2, c2 + t * v2 + k * v1)) (by
        simp only
        have : (c1 + t * u1 - (c1 + t * u1 + l * u2)) * (c2 + t * v2 + k * v1 - (c2 + t * v2)) -
          (c2 + t * u2 - (c2 + t * u2 - l * u1)) * (c1 + t * v1 - k * v2 - (c1 + t * v1)) = l * k * (u1 * v2 - u2 * v1) := by ring
        rw [this]
        exact mul_ne_zero (mul_ne_zero hl hk) hcr)
    rw [hx] at hX
    simp only [Option.getD_some] at hX
    subst hX
    simp only at x1 x2
    refine ⟨?_, ?_, ?_⟩
    · have : l * ((X.1 - c1) * u1 + (X.2 - c2) * u2 - t * (u1 ^ 2 + u2 ^ 2)) = 0 := by linarith
      rw [hU] at this
      have := (mul_eq_zero.1 this).resolve_left hl
      linarith
    · have : k * ((X.1 - c1) * v1 + (X.2 - c2) * v2 - t * (v1 ^ 2 + v2 ^ 2)) = 0 := by linarith
      rw [hV] at this
      have := (mul_eq_zero.1 this).resolve_left hk
      linarith
    · intro h1
      rw [h1] at lag
      exact absurd (pow_eq_zero_iff (two_ne_zero) |>.1 (by linarith : (u1 * v2 - u2 * v1) ^ 2 = 0)) hcr
  · have hnz : 1 + (u1 * v1 + u2 * v2) ≠ 0 := by intro h; apply hn; linarith
    obtain ⟨x, hx, x1, x2⟩ := cross_spec (e := ((c1 + t * u1 + l * u2, c2 + t * u2 - l * u1), c1 + t * u1, c2 + t * u2))
      (f := ((c1, c2), (c1 + t * u1 + (c1 + t * v1)) / 2, (c2 + t * u2 + (c2 + t * v2)) / 2)) (by
        simp only
        have : (c1 + t * u1 - (c1 + t * u1 + l * u2)) * ((c2 + t * u2 + (c2 + t * v2)) / 2 - c2) -
          (c2 + t * u2 - (c2 + t * u2 - l * u1)) * ((c1 + t * u1 + (c1 + t * v1)) / 2 - c1) = -(l * t * ((u1 ^ 2 + u2 ^ 2) + (u1 * v1 + u2 * v2)) / 2) := by ring
        rw [this, hU]
        have := mul_ne_zero (mul_ne_zero hl ht) hnz
        intro h0
        apply this
        linarith)
    rw [hx] at hX
    simp only [Option.getD_some] at hX
    subst hX
    simp only at x1 x2
    have g1 : (X.1 - c1) * u1 + (X.2 - c2) * u2 = t := by
      have : l * ((X.1 - c1) * u1 + (X.2 - c2) * u2 - t * (u1 ^ 2 + u2 ^ 2)) = 0 := by linarith
      rw [hU] at this
      have := (mul_eq_zero.1 this).resolve_left hl
      linarith
    have g2 : (X.1 - c1) * (u2 + v2) = (X.2 - c2) * (u1 + v1) := by
      have : t * ((X.1 - c1) * (u2 + v2) - (X.2 - c2) * (u1 + v1)) = 0 := by linarith
      have := (mul_eq_zero.1 this).resolve_left ht
      linarith
    generalize X.1 - c1 = p at *
    generalize X.2 - c2 = r at *
    refine ⟨g1, ?_, ?_⟩
    · have id : (p * (u1 - v1) + r * (u2 - v2)) * ((u1 + v1) ^ 2 + (u2 + v2) ^ 2) =
          (p * (u1 + v1) + r * (u2 + v2)) * ((u1 ^ 2 + u2 ^ 2) - (v1 ^ 2 + v2 ^ 2)) +
          (p * (u2 + v2) - r * (u1 + v1)) * ((u1 - v1) * (u2 + v2) - (u2 - v2) * (u1 + v1)) := by ring
      rw [hU, hV, g2] at id
      have hS : (u1 + v1) ^ 2 + (u2 + v2) ^ 2 ≠ 0 := by
        have : (u1 + v1) ^ 2 + (u2 + v2) ^ 2 = (u1 ^ 2 + u2 ^ 2) + (v1 ^ 2 + v2 ^ 2) + 2 * (u1 * v1 + u2 * v2) := by ring
        rw [this, hU, hV]
        intro h; apply hnz; linarith
      have z : p * (u1 - v1) + r * (u2 - v2) = 0 := by
        have : (p * (u1 - v1) + r * (u2 - v2)) * ((u1 + v1) ^ 2 + (u2 + v2) ^ 2) = 0 := by rw [id]; ring
        exact (mul_eq_zero.1 this).resolve_right hS
      linarith
    · intro h1
      have d0 : (u1 - v1) ^ 2 + (u2 - v2) ^ 2 = 0 := by
        have : (u1 - v1) ^ 2 + (u2 - v2) ^ 2 = (u1 ^ 2 + u2 ^ 2) + (v1 ^ 2 + v2 ^ 2) - 2 * (u1 * v1 + u2 * v2) := by ring
        rw [this, hU, hV, h1]; ring
      have a1 : u1 = v1 := by nlinarith [sq_nonneg (u1 - v1), sq_nonneg (u2 - v2)]
      have a2 : u2 = v2 := by nlinarith [sq_nonneg (u1 - v1), sq_nonneg (u2 - v2)]
      rw [← a1, ← a2] at g2
      linarith

theorem len_pos {p c : Pt} (h : p ≠ c) : 0 < √(((c.1 : ℝ) - p.1) ^ 2 + ((c.2 : ℝ) - p.2) ^ 2) := by
  apply Real.sqrt_pos.2
  rcases eq_or_ne p.1 c.1 with h1 | h1
  · have h2 : p.2 ≠ c.2 := fun h2 => h (Prod.ext h1 h2)
    have : (c.2 : ℝ) - p.2 ≠ 0 := sub_ne_zero.2 (fun g => h2 (by exact_mod_cast g.symm))
    have := sq_nonneg ((c.1 : ℝ) - p.1)
    positivity
  · have : (c.1 : ℝ) - p.1 ≠ 0 := sub_ne_zero.2 (fun g => h1 (by exact_mod_cast g.symm))
    positivity

/-- The moved point is at the distance from both edges. -/
theorem moved_spec {p c n : Pt} {d m : Int} (hpc : p ≠ c) (hcn : c ≠ n) (hd : 0 < d) (hm : m = 1 ∨ m = -1) (hr : ¬ Reversed p c n) :
    AtDistance p c (m * d) (movedPoint p c n d m) ∧ AtDistance c n (m * d) (movedPoint p c n d m) ∧
      (Straight p c n → ((movedPoint p c n d m).1 - c.1) * ((c.1 : ℝ) - p.1) + ((movedPoint p c n d m).2 - c.2) * ((c.2 : ℝ) - p.2) = 0) := by
  have L1 := len_pos hpc
  have L2 := len_pos hcn
  have S1 := Real.sq_sqrt (show 0 ≤ ((c.1 : ℝ) - p.1) ^ 2 + ((c.2 : ℝ) - p.2) ^ 2 by positivity)
  have S2 := Real.sq_sqrt (show 0 ≤ ((n.1 : ℝ) - c.1) ^ 2 + ((n.2 : ℝ) - c.2) ^ 2 by positivity)
  have hdR : (0 : ℝ) < d := by exact_mod_cast hd
  have hm2 : (m : ℝ) ^ 2 = 1 := by rcases hm with rfl | rfl <;> norm_num
  have hmn : (m : ℝ) ≠ 0 := by rcases hm with rfl | rfl <;> norm_num
  have q1 : (c.1 - p.1 : ℝ) * (c.1 - p.1) + (c.2 - p.2) * (c.2 - p.2) = (c.1 - p.1 : ℝ) ^ 2 + (c.2 - p.2) ^ 2 := by ring
  have q2 : (n.1 - c.1 : ℝ) * (n.1 - c.1) + (n.2 - c.2) * (n.2 - c.2) = (n.1 - c.1 : ℝ) ^ 2 + (n.2 - c.2) ^ 2 := by ring
  unfold AtDistance
  generalize hl : √(((c.1 : ℝ) - p.1) ^ 2 + ((c.2 : ℝ) - p.2) ^ 2) = l at *
  generalize hk : √(((n.1 : ℝ) - c.1) ^ 2 + ((n.2 : ℝ) - c.2) ^ 2) = k at *
  have lag : (((c.1 : ℝ) - p.1) * (n.2 - c.2) - (c.2 - p.2) * (n.1 - c.1)) ^ 2 + (((c.1 : ℝ) - p.1) * (n.1 - c.1) + (c.2 - p.2) * (n.2 - c.2)) ^ 2 = (l * k) ^ 2 := by
    rw [mul_pow, S1, S2]; ring
  have dotUV : (((c.2 : ℝ) - p.2) / l) * (((n.2 : ℝ) - c.2) / k) + (-((c.1 : ℝ) - p.1) / l) * (-((n.1 : ℝ) - c.1) / k) =
      (((c.1 : ℝ) - p.1) * (n.1 - c.1) + (c.2 - p.2) * (n.2 - c.2)) / (l * k) := by
    field_simp
    ring
  have K := core (c := toR c) (U := (((c.2 : ℝ) - p.2) / l, -((c.1 : ℝ) - p.1) / l)) (V := (((n.2 : ℝ) - c.2) / k, -((n.1 : ℝ) - c.1) / k))
    (t := (m : ℝ) * d) (l := l) (k := k) (q := ((d.tdiv 2 : Int) : ℝ))
    (by simp only; rw [div_pow, div_pow, ← add_div, div_eq_one_iff_eq (by positivity), S1]; ring)
    (by simp only; rw [div_pow, div_pow, ← add_div, div_eq_one_iff_eq (by positivity), S2]; ring)
    (by
      simp only
      rw [dotUV]
      intro g
      have lk : 0 < l * k := by positivity
      rw [div_eq_iff lk.ne'] at g
      apply hr
      have c0 : ((c.1 : ℝ) - p.1) * (n.2 - c.2) - (c.2 - p.2) * (n.1 - c.1) = 0 := by
        rw [g] at lag
        exact pow_eq_zero_iff two_ne_zero |>.1 (by linarith)
      refine ⟨by exact_mod_cast c0, ?_⟩
      have : ((c.1 : ℝ) - p.1) * (n.1 - c.1) + (c.2 - p.2) * (n.2 - c.2) < 0 := by rw [g]; linarith
      exact_mod_cast this)
    (mul_ne_zero hmn hdR.ne') L1.ne' L2.ne'
    (by
      have e1 : |(m : ℝ) * d| = d := by rcases hm with rfl | rfl <;> simp [abs_of_pos hdR]
      rw [e1]
      have : 2 * d.tdiv 2 ≤ d := by
        rw [Int.tdiv_eq_ediv_of_nonneg (by omega)]; omega
      have : (2 : ℝ) * ((d.tdiv 2 : Int) : ℝ) ≤ d := by exact_mod_cast this
      linarith)
    (e := offsetEdge (toR p) (toR c) d m) (f := offsetEdge (toR c) (toR n) d m)
    (by simp only [offsetEdge, toR, q1, hl]; ext <;> simp only <;> ring)
    (by simp only [offsetEdge, toR, q1, hl]; ext <;> simp only <;> field_simp <;> ring)
    (by simp only [offsetEdge, toR, q2, hk]; ext <;> simp only <;> ring)
    (by simp only [offsetEdge, toR, q2, hk]; ext <;> simp only <;> field_simp <;> ring)
    (movedPoint p c n d m) rfl
  simp only [toR] at K
  generalize movedPoint p c n d m = X at *
  obtain ⟨k1, k2, k3⟩ := K
  refine ⟨?_, ?_, ?_⟩
  · rw [← k1]; field_simp; ring
  · rw [← k2]; field_simp; ring
  · rintro ⟨s1, s2⟩
    have s1' : ((c.1 : ℝ) - p.1) * (n.2 - c.2) - (c.2 - p.2) * (n.1 - c.1) = 0 := by exact_mod_cast s1
    have s2' : 0 < ((c.1 : ℝ) - p.1) * (n.1 - c.1) + (c.2 - p.2) * (n.2 - c.2) := by exact_mod_cast s2
    have lk : 0 < l * k := by positivity
    have e : ((c.1 : ℝ) - p.1) * (n.1 - c.1) + (c.2 - p.2) * (n.2 - c.2) = l * k := by
      rw [s1'] at lag
      have : (((c.1 : ℝ) - p.1) * (n.1 - c.1) + (c.2 - p.2) * (n.2 - c.2)) ^ 2 = (l * k) ^ 2 := by linarith
      exact (pow_left_inj₀ s2'.le lk.le two_ne_zero).1 this
    have := k3 (by rw [dotUV, e, div_self lk.ne'])
    field_simp at this
    linarith

theorem round_near (x : ℝ) : |((⌊x + 1 / 2⌋ : Int) : ℝ) - x| ≤ 1 / 2 := by
  have h1 := Int.floor_le (x + 1 / 2)
  have h2 := Int.lt_floor_add_one (x + 1 / 2)
  rw [abs_le]
  constructor <;> linarith

theorem modify_rounded (p c n : Pt) (d m : Int) : RoundedTo (modifyPt p c n d m) (movedPoint p c n d m) := ⟨round_near _, round_near _⟩

/-- Two lines that are not parallel have one point at given distances from them. -/
theorem dist_unique {p c n : Pt} {a b : ℝ} {x y : RP} (hc : (c.1 - p.1) * (n.2 - c.2) - (c.2 - p.2) * (n.1 - c.1) ≠ 0) (x1 : AtDistance p c a x)
    (x2 : AtDistance c n b x) (y1 : AtDistance p c a y) (y2 : AtDistance c n b y) : x = y := by
  unfold AtDistance at *
  have hc' : ((c.1 : ℝ) - p.1) * (n.2 - c.2) - (c.2 - p.2) * (n.1 - c.1) ≠ 0 := by exact_mod_cast hc
  generalize √(((c.1 : ℝ) - p.1) ^ 2 + ((c.2 : ℝ) - p.2) ^ 2) = l at *
  generalize √(((n.1 : ℝ) - c.1) ^ 2 + ((n.2 : ℝ) - c.2) ^ 2) = k at *
  have e1 : (x.1 - y.1) * ((c.2 : ℝ) - p.2) = (x.2 - y.2) * (c.1 - p.1) := by linarith
  have e2 : (x.1 - y.1) * ((n.2 : ℝ) - c.2) = (x.2 - y.2) * (n.1 - c.1) := by linarith
  have z1 : (x.1 - y.1) * (((c.1 : ℝ) - p.1) * (n.2 - c.2) - (c.2 - p.2) * (n.1 - c.1)) = 0 := by
    linear_combination ((c.1 : ℝ) - p.1) * e2 - ((n.1 : ℝ) - c.1) * e1
  have z2 : (x.2 - y.2) * (((c.1 : ℝ) - p.1) * (n.2 - c.2) - (c.2 - p.2) * (n.1 - c.1)) = 0 := by
    linear_combination ((c.2 : ℝ) - p.2) * e2 - ((n.2 : ℝ) - c.2) * e1
  have a1 := (mul_eq_zero.1 z1).resolve_right hc'
  have a2 := (mul_eq_zero.1 z2).resolve_right hc'
  exact Prod.ext (by linarith) (by linarith)

theorem int_of_near {r k : Int} {x : ℝ} (h : |(r : ℝ) - x| ≤ 1 / 2) (hx : x = k) : r = k := by
  rw [hx] at h
  have : |r - k| < 1 := by
    have : |((r - k : Int) : ℝ)| < 1 := by push_cast; linarith
    exact_mod_cast this
  have := abs_lt.1 this
  omega

theorem getD_at {l : List Pt} {i : Nat} {a : Pt} (h : i < l.length) : l.getD i a = l[i] := by
  rw [List.getD_eq_getElem?_getD, List.getElem?_eq_getElem h, Option.getD_some]

/-- The vertices of the result, one by one. -/
theorem resize_vertex {l : List Pt} (hl : 2 ≤ l.length) (d m : Int) :
    (resizeUp (l ++ l.take 1) d m).length = l.length + 1 ∧
    (∀ i < l.length, (resizeUp (l ++ l.take 1) d m)[i]? = some (modifyPt (vertex l (i + l.length - 1)) (vertex l i) (vertex l (i + 1)) d m)) ∧
    (resizeUp (l ++ l.take 1) d m)[l.length]? = (resizeUp (l ++ l.take 1) d m)[0]? := by
  have hd : (l ++ l.take 1).dropLast = l := by
    cases l with
    | nil => simp at hl
    | cons a t => rw [show (a :: t).take 1 = [a] by simp, List.dropLast_concat]
  unfold resizeUp
  simp only [hd]
  set r := ((l.drop (l.length - 1) ++ l.take (l.length - 1)).zip (l.zip (l.drop 1 ++ l.take 1))).map (fun t => modifyPt t.1 t.2.1 t.2.2 d m) with hr
  have rl : r.length = l.length := by
    rw [hr]; simp only [List.length_map, List.length_zip, List.length_append, List.length_drop, List.length_take]; omega
  refine ⟨?_, ?_, ?_⟩
  · simp only [List.length_append, List.length_take, rl]; omega
  · intro i hi
    rw [List.getElem?_append_left (by omega), List.getElem?_eq_getElem (by omega)]
    simp only [hr, List.getElem_map, List.getElem_zip]
    congr 2
    · rw [vertex]
      by_cases h0 : i = 0
      · subst h0
        rw [List.getElem_append_left (by simp; omega)]
        simp only [List.getElem_drop]
        rw [getD_at (Nat.mod_lt _ (by omega))]
        congr 1
        rw [Nat.mod_eq_of_lt (by omega)]; omega
      · rw [List.getElem_append_right (by simp; omega)]
        simp only [List.getElem_take, List.length_drop]
        rw [getD_at (Nat.mod_lt _ (by omega))]
        congr 1
        rw [show i + l.length - 1 = (i - 1) + l.length by omega, Nat.add_mod_right, Nat.mod_eq_of_lt (by omega)]
        omega
    · rw [vertex, getD_at (Nat.mod_lt _ (by omega))]
      congr 1
      rw [Nat.mod_eq_of_lt hi]
    · rw [vertex, getD_at (Nat.mod_lt _ (by omega))]
      by_cases h0 : i + 1 = l.length
      · rw [List.getElem_append_right (by simp; omega)]
        simp only [List.getElem_take, List.length_drop]
        congr 1
        rw [h0, Nat.mod_self]; omega
      · rw [List.getElem_append_left (by simp; omega)]
        simp only [List.getElem_drop]
        congr 1
        rw [Nat.mod_eq_of_lt (by omega)]; omega
  · rw [List.getElem?_append_right (by omega), List.getElem?_append_left (by omega), rl]
    simp

end Verif.OffsetArb
