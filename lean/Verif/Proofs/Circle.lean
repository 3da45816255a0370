import Verif.Spec.Circle
import Mathlib.Tactic.LinearCombination
import Mathlib.Tactic.FieldSimp
import Mathlib.Tactic.FinCases
import Mathlib.Tactic.Positivity
import Mathlib.Tactic.Linarith
/-!
# Circles through points and tangent to lines: the algebra behind C94
-/
namespace Verif.CircleProofs
open Verif.Spec.Circle

theorem away_eq {c p : ℝ × ℝ} {r : ℝ} (h0 : 0 ≤ r) (h : (c.1 - p.1) ^ 2 + (c.2 - p.2) ^ 2 = r ^ 2) : away c p = r := by
  unfold Spec.Circle.away; rw [h]; exact Real.sqrt_sq h0

/-- Three points. -/
theorem ppp_core {x1 y1 x2 y2 x3 y3 inv n1 n2 D : ℝ} (hD : D = (x1 - x2) * (y2 - y3) - (x2 - x3) * (y1 - y2))
    (h : 2 * D * inv = 1) (h1 : n1 = (x1 - x2) * (x1 + x2) + (y1 - y2) * (y1 + y2))
    (h2 : n2 = (x2 - x3) * (x2 + x3) + (y2 - y3) * (y2 + y3)) (i : Fin 3) :
    ((n1 * (y2 - y3) - n2 * (y1 - y2)) * inv - ![x1, x2, x3] i) ^ 2 +
      ((n2 * (x1 - x2) - n1 * (x2 - x3)) * inv - ![y1, y2, y3] i) ^ 2 =
      ((x1 - x2) * (x1 - x2) + (y1 - y2) * (y1 - y2)) * ((x2 - x3) * (x2 - x3) + (y2 - y3) * (y2 - y3)) *
        ((x1 - x3) * (x1 - x3) + (y1 - y3) * (y1 - y3)) * inv ^ 2 := by
  have e1 : ∀ px, (n1 * (y2 - y3) - n2 * (y1 - y2)) * inv - px = (n1 * (y2 - y3) - n2 * (y1 - y2) - 2 * D * px) * inv := by
    intro px; linear_combination px * h
  have e2 : ∀ py, (n2 * (x1 - x2) - n1 * (x2 - x3)) * inv - py = (n2 * (x1 - x2) - n1 * (x2 - x3) - 2 * D * py) * inv := by
    intro py; linear_combination py * h
  rw [e1, e2, mul_pow, mul_pow, ← add_mul]
  congr 1
  -- the vectors from the point to the centre, in the two differences
  obtain ⟨p, hp⟩ : ∃ p, p = x1 - x2 := ⟨_, rfl⟩
  obtain ⟨q, hq⟩ : ∃ q, q = y1 - y2 := ⟨_, rfl⟩
  obtain ⟨u, hu⟩ : ∃ u, u = x2 - x3 := ⟨_, rfl⟩
  obtain ⟨v, hv⟩ : ∃ v, v = y2 - y3 := ⟨_, rfl⟩
  have g1 : x1 = p + u + x3 := by rw [hp, hu]; ring
  have g2 : x2 = u + x3 := by rw [hu]; ring
  have g3 : y1 = q + v + y3 := by rw [hq, hv]; ring
  have g4 : y2 = v + y3 := by rw [hv]; ring
  rw [hD, h1, h2]
  have f1 : ((x1 - x2) * (x1 + x2) + (y1 - y2) * (y1 + y2)) = p * (p + 2 * u + 2 * x3) + q * (q + 2 * v + 2 * y3) := by
    rw [g1, g2, g3, g4]; ring
  have f2 : ((x2 - x3) * (x2 + x3) + (y2 - y3) * (y2 + y3)) = u * (u + 2 * x3) + v * (v + 2 * y3) := by rw [g2, g4]; ring
  rw [f1, f2, ← hp, ← hq, ← hu, ← hv, show x1 - x3 = p + u by rw [hp, hu]; ring, show y1 - y3 = q + v by rw [hq, hv]; ring]
  have w1 : ∀ px, (p * (p + 2 * u + 2 * x3) + q * (q + 2 * v + 2 * y3)) * v - (u * (u + 2 * x3) + v * (v + 2 * y3)) * q - 2 * (p * v - u * q) * px =
      (p * (p + 2 * u) + q * (q + 2 * v)) * v - (u * u + v * v) * q - 2 * (p * v - u * q) * (px - x3) := by intro px; ring
  have w2 : ∀ py, (u * (u + 2 * x3) + v * (v + 2 * y3)) * p - (p * (p + 2 * u + 2 * x3) + q * (q + 2 * v + 2 * y3)) * u - 2 * (p * v - u * q) * py =
      (u * u + v * v) * p - (p * (p + 2 * u) + q * (q + 2 * v)) * u - 2 * (p * v - u * q) * (py - y3) := by intro py; ring
  rw [w1, w2]
  have hx : ∃ z1 z2 : Fin 3 → ℝ, z1 = ![p + u, u, 0] ∧ z2 = ![q + v, v, 0] ∧ ![x1, x2, x3] i - x3 = z1 i ∧ ![y1, y2, y3] i - y3 = z2 i := by
    refine ⟨_, _, rfl, rfl, ?_, ?_⟩ <;> fin_cases i <;> simp [g1, g2, g3, g4]
  obtain ⟨z1, z2, hz1, hz2, k1, k2⟩ := hx
  rw [k1, k2, hz1, hz2]
  clear k1 k2 w1 w2 f1 f2 e1 e2 h hD h1 h2 hz1 hz2 g1 g2 g3 g4 hp hq hu hv
  fin_cases i <;> simp <;> ring

/-- A circle through two points, from its centre on the bisector: the turn to the foot on a line. -/
theorem turn_gen {vx vy t R L la lb cx cy x1 y1 : ℝ} (ex : cx - x1 = -vy / 2 + vx * t) (ey : cy - y1 = vx / 2 + vy * t) (hL0 : L ≠ 0) :
    -vy * (cy - R * lb / L - y1) - vx * (cx - R * la / L - x1) =
      (-(L * (vx ^ 2 + vy ^ 2) * t) + R * (la * vx + lb * vy)) / L := by
  rw [eq_div_iff hL0]
  simp only [div_eq_mul_inv] at *
  linear_combination (-vy * L) * ey - (vx * L) * ex + (R * (vy * lb + vx * la)) * (mul_inv_cancel₀ hL0)

/-- Such a circle goes through both points. -/
theorem norm_gen {vx vy t cx cy x1 y1 x2 y2 : ℝ} (hvx : vx = y2 - y1) (hvy : vy = x1 - x2)
    (ex : cx = (x1 + x2) / 2 + vx * t) (ey : cy = (y1 + y2) / 2 + vy * t) (i : Fin 2) :
    (cx - ![x1, x2] i) ^ 2 + (cy - ![y1, y2] i) ^ 2 = (vx ^ 2 + vy ^ 2) * (1 / 4 + t ^ 2) := by
  rw [ex, ey, hvx, hvy]
  fin_cases i <;> simp <;> ring

/-- Two points and a line: the distance from the line. -/
theorem pps_line {la lb x1 y1 x2 y2 X0 Y0 X1 Y1 d inv D σ teta S : ℝ} (hla : la = Y1 - Y0) (hlb : lb = X0 - X1)
    (hd : d * inv = 1) (ht : teta = la * (y2 - y1) + lb * (x1 - x2))
    (hS : S = (la * (x1 - X1) - lb * (Y1 - y1)) + (la * (x2 - X1) - lb * (Y1 - y2))) :
    la * (1 / 2 * (((x1 + x2) * d * d + teta * S * (y2 - y1)) + σ * (y2 - y1) * D) * (inv * inv) - X0) +
      lb * (1 / 2 * (((y1 + y2) * d * d + teta * S * (x1 - x2)) + σ * (x1 - x2) * D) * (inv * inv) - Y0) =
      1 / 2 * (S * (d * d + teta * teta) + σ * teta * D) * (inv * inv) := by
  have h2 : (d * d) * (inv * inv) = 1 := by linear_combination (d * inv + 1) * hd
  have hS' : S = la * (x1 + x2) + lb * (y1 + y2) - 2 * (la * X0 + lb * Y0) := by rw [hS, hla, hlb]; ring
  linear_combination (1 / 2 * (la * (x1 + x2) + lb * (y1 + y2) - S)) * h2 - (1 / 2 * (teta * S + σ * D) * (inv * inv)) * ht - 1 / 2 * hS'

/-- Two points and a line: the distance from either point. -/
theorem pps_point {la lb x1 y1 x2 y2 X1 Y1 d inv D σ teta A B S : ℝ}
    (hd : d * inv = 1) (hdd : d = (y2 - y1) * lb - (x1 - x2) * la) (hσ : σ * σ = 1)
    (ht : teta = la * (y2 - y1) + lb * (x1 - x2))
    (hA : A = la * (x1 - X1) - lb * (Y1 - y1)) (hB : B = la * (x2 - X1) - lb * (Y1 - y2)) (hS : S = A + B)
    (hD : D * D = (teta * teta + d * d) * A * B * 4) (i : Fin 2) :
    (la * la + lb * lb) *
    ((1 / 2 * (((x1 + x2) * d * d + teta * S * (y2 - y1)) + σ * (y2 - y1) * D) * (inv * inv) - ![x1, x2] i) ^ 2 +
      (1 / 2 * (((y1 + y2) * d * d + teta * S * (x1 - x2)) + σ * (x1 - x2) * D) * (inv * inv) - ![y1, y2] i) ^ 2) =
      (1 / 2 * (S * (d * d + teta * teta) + σ * teta * D) * (inv * inv)) ^ 2 := by
  have h2 : (d * d) * (inv * inv) = 1 := by linear_combination (d * inv + 1) * hd
  rw [norm_gen (vx := y2 - y1) (vy := x1 - x2) (t := 1 / 2 * (teta * S + σ * D) * (inv * inv)) rfl rfl
    (by linear_combination (1 / 2 * (x1 + x2)) * h2) (by linear_combination (1 / 2 * (y1 + y2)) * h2) i, ← mul_assoc]
  have hv : (la * la + lb * lb) * ((y2 - y1) ^ 2 + (x1 - x2) ^ 2) = teta * teta + d * d := by rw [hdd, ht]; ring
  have hAB : A - B = -d := by rw [hdd, hA, hB]; ring
  have hS2 : S * S = d * d + 4 * A * B := by
    rw [hS]; linear_combination (A - B - d) * hAB
  rw [hv]
  clear hv hdd ht hA hB hS hAB hd
  have main : (teta * teta + d * d) * ((d * d) * (d * d) + (teta * S + σ * D) ^ 2) =
      (S * (d * d + teta * teta) + σ * teta * D) ^ 2 := by
    linear_combination (-(teta * teta + d * d) * (d * d)) * hS2 + (d * d * D * D) * hσ + (d * d) * hD
  obtain ⟨w, hw⟩ : ∃ w, w = inv * inv := ⟨_, rfl⟩
  rw [← hw] at h2 ⊢
  linear_combination (1 / 4 * w * w) * main - (1 / 4 * (teta * teta + d * d) * (1 + d * d * w)) * h2

theorem contact_line {c q : ℝ × ℝ} {s e : Int × Int} (h : Contact c q (.line s e)) (hse : s ≠ e) :
    ((pt e).1 - (pt s).1) ^ 2 + ((pt e).2 - (pt s).2) ^ 2 ≠ 0 ∧
    q.1 = c.1 + turn (pt s) (pt e) c * ((pt e).2 - (pt s).2) / (((pt e).1 - (pt s).1) ^ 2 + ((pt e).2 - (pt s).2) ^ 2) ∧
    q.2 = c.2 - turn (pt s) (pt e) c * ((pt e).1 - (pt s).1) / (((pt e).1 - (pt s).1) ^ 2 + ((pt e).2 - (pt s).2) ^ 2) := by
  obtain ⟨h1, h2⟩ := h
  have hne : ((pt e).1 - (pt s).1) ^ 2 + ((pt e).2 - (pt s).2) ^ 2 ≠ 0 := by
    intro h
    have a1 : ((pt e).1 - (pt s).1) = 0 := by nlinarith [sq_nonneg ((pt e).1 - (pt s).1), sq_nonneg ((pt e).2 - (pt s).2)]
    have a2 : ((pt e).2 - (pt s).2) = 0 := by nlinarith [sq_nonneg ((pt e).1 - (pt s).1), sq_nonneg ((pt e).2 - (pt s).2)]
    apply hse
    simp only [pt, sub_eq_zero] at a1 a2
    exact Prod.ext (by exact_mod_cast a1.symm) (by exact_mod_cast a2.symm)
  refine ⟨hne, ?_, ?_⟩
  · rw [← sub_eq_iff_eq_add', eq_div_iff hne]
    simp only [turn, pt] at h1 h2 ⊢
    linear_combination ((e.1 : ℝ) - s.1) * h2 - ((e.2 : ℝ) - s.2) * h1
  · rw [← sub_eq_zero, show q.2 - (c.2 - turn (pt s) (pt e) c * ((pt e).1 - (pt s).1) / (((pt e).1 - (pt s).1) ^ 2 + ((pt e).2 - (pt s).2) ^ 2)) =
      (q.2 - c.2) + turn (pt s) (pt e) c * ((pt e).1 - (pt s).1) / (((pt e).1 - (pt s).1) ^ 2 + ((pt e).2 - (pt s).2) ^ 2) by ring,
      add_div' _ _ _ hne, div_eq_zero_iff]
    left
    simp only [turn, pt] at h1 h2 ⊢
    linear_combination ((e.2 : ℝ) - s.2) * h2 + ((e.1 : ℝ) - s.1) * h1

/-- Two points and a line: the turn from the points to the point of contact. -/
theorem pps_turn {la lb x1 y1 x2 y2 d inv D σ S L teta cx cy R : ℝ}
    (hd : d * inv = 1) (hdd : d = (y2 - y1) * lb - (x1 - x2) * la) (hL : L = la * la + lb * lb) (hL0 : L ≠ 0)
    (ht : teta = la * (y2 - y1) + lb * (x1 - x2))
    (hcx : cx = 1 / 2 * (((x1 + x2) * d * d + teta * S * (y2 - y1)) + σ * (y2 - y1) * D) * (inv * inv))
    (hcy : cy = 1 / 2 * (((y1 + y2) * d * d + teta * S * (x1 - x2)) + σ * (x1 - x2) * D) * (inv * inv))
    (hR : R = 1 / 2 * (S * (d * d + teta * teta) + σ * teta * D) * (inv * inv)) :
    (x2 - x1) * (cy - R * lb / L - y1) - (y2 - y1) * (cx - R * la / L - x1) = -(σ * D) / (2 * L) := by
  have h2 : (d * d) * (inv * inv) = 1 := by linear_combination (d * inv + 1) * hd
  have hv : L * ((y2 - y1) ^ 2 + (x1 - x2) ^ 2) = teta * teta + d * d := by rw [hdd, hL, ht]; ring
  have e := turn_gen (R := R) (L := L) (la := la) (lb := lb) (vx := y2 - y1) (vy := x1 - x2) (x1 := x1) (y1 := y1) (cx := cx) (cy := cy)
    (t := 1 / 2 * (teta * S + σ * D) * (inv * inv))
    (by rw [hcx]; linear_combination (1 / 2 * (x1 + x2)) * h2) (by rw [hcy]; linear_combination (1 / 2 * (y1 + y2)) * h2) hL0
  rw [show -(x1 - x2) = x2 - x1 by ring, hv, ← ht] at e
  rw [e, div_eq_div_iff hL0 (by positivity), hR]
  linear_combination (-(σ * D * L)) * h2

/-- Two points on a parallel to the line. -/
theorem pps_par {la lb x1 y1 x2 y2 X0 Y0 X1 Y1 inv teta S n cx cy R : ℝ} (hla : la = Y1 - Y0) (hlb : lb = X0 - X1)
    (hd : (y2 - y1) * lb - (x1 - x2) * la = 0)
    (ht : teta = la * (y2 - y1) + lb * (x1 - x2))
    (hS : S = (la * (x1 - X1) - lb * (Y1 - y1)) + (la * (x2 - X1) - lb * (Y1 - y2)))
    (hn : n = teta * teta - S * S)
    (hcx : cx = 1 / 4 * (teta * S * (x1 + x2) * 2 + n * (y2 - y1)) * inv)
    (hcy : cy = 1 / 4 * (teta * S * (y1 + y2) * 2 + n * (x1 - x2)) * inv)
    (hR : R = 1 / 4 * (teta * S * S * 2 + n * teta) * inv)
    (hi : teta * S * inv = 1) :
    la * (cx - X0) + lb * (cy - Y0) = R ∧
    (∀ i : Fin 2, (la * la + lb * lb) * ((cx - ![x1, x2] i) ^ 2 + (cy - ![y1, y2] i) ^ 2) = R ^ 2) ∧
    ∀ L, L = la * la + lb * lb → L ≠ 0 →
      (x2 - x1) * (cy - R * lb / L - y1) - (y2 - y1) * (cx - R * la / L - x1) = teta * S / (2 * L) := by
  have hv : (la * la + lb * lb) * ((y2 - y1) ^ 2 + (x1 - x2) ^ 2) = teta * teta := by
    rw [ht]
    linear_combination ((y2 - y1) * lb - (x1 - x2) * la) * hd
  obtain ⟨t, htt⟩ : ∃ t, t = 1 / 4 * n * inv := ⟨_, rfl⟩
  have ex : cx = (x1 + x2) / 2 + (y2 - y1) * t := by
    rw [hcx, htt]; linear_combination (1 / 2 * (x1 + x2)) * hi
  have ey : cy = (y1 + y2) / 2 + (x1 - x2) * t := by
    rw [hcy, htt]; linear_combination (1 / 2 * (y1 + y2)) * hi
  have hR' : R = S / 2 + t * teta := by
    rw [hR, htt]; linear_combination (1 / 2 * S) * hi
  have e3 : t * (teta * S) = n / 4 := by rw [htt]; linear_combination (1 / 4 * n) * hi
  clear hR hcx hcy htt
  refine ⟨?_, ?_, ?_⟩
  · rw [ex, ey, hR', ht, hS, hla, hlb]; ring
  · intro i
    rw [norm_gen rfl rfl ex ey i, ← mul_assoc, hv, hR']
    rw [hn] at e3
    linear_combination -e3
  · intro L hL hL0
    have hv' : L * ((y2 - y1) ^ 2 + (x1 - x2) ^ 2) = teta * teta := by rw [hL]; exact hv
    have e := turn_gen (R := R) (L := L) (la := la) (lb := lb) (vx := y2 - y1) (vy := x1 - x2) (x1 := x1) (y1 := y1) (cx := cx) (cy := cy)
      (t := t) (by rw [ex]; ring) (by rw [ey]; ring) hL0
    rw [show -(x1 - x2) = x2 - x1 by ring, hv', ← ht] at e
    rw [e, div_eq_div_iff hL0 (by positivity), hR']
    ring

end Verif.CircleProofs
