import Verif.Proofs.Circle
/-!
# A point and two lines: the algebra behind C94
-/
namespace Verif.CircleProofs
open Verif.Spec.Circle

/-- A point and two lines that cross: the data of the formula. -/
structure Cross (a0 b0 a1 b1 u1 u2 dx dy X s K or : ℝ) : Prop where
  hu1 : u1 * u1 = a0 * a0 + b0 * b0
  hu2 : u2 * u2 = a1 * a1 + b1 * b1
  p1 : 0 < u1
  p2 : 0 < u2
  hor : or = a1 * b0 - a0 * b1
  or0 : or ≠ 0
  hX : X * X = (a0 * dy - b0 * dx) * (a1 * dy - b1 * dx) * -2 * (u1 * u2 + (a0 * a1 + b0 * b1))
  hs : s * s = 1
  hK : K = (a1 * -dx + b1 * -dy) * u1 + (a0 * -dx + b0 * -dy) * u2 + s * X
  r2 : 0 ≤ or * (a1 * dy - b1 * dx)
  r1 : or * (a0 * dy - b0 * dx) ≤ 0
  hne : ¬ (dx = 0 ∧ dy = 0)

namespace Cross
variable {a0 b0 a1 b1 u1 u2 dx dy X s K or : ℝ} (h : Cross a0 b0 a1 b1 u1 u2 dx dy X s K or)
include h

theorem quad : K * K + 2 * K * (dx * (a1 * u1 + a0 * u2) + dy * (b1 * u1 + b0 * u2)) +
    (u1 * u2 + (a0 * a1 + b0 * b1)) ^ 2 * (dx * dx + dy * dy) = 0 := by
  have e : K + (dx * (a1 * u1 + a0 * u2) + dy * (b1 * u1 + b0 * u2)) = s * X := by rw [h.hK]; ring
  have e2 : (dx * (a1 * u1 + a0 * u2) + dy * (b1 * u1 + b0 * u2)) ^ 2 - X * X =
      (u1 * u2 + (a0 * a1 + b0 * b1)) ^ 2 * (dx * dx + dy * dy) := by
    rw [h.hX]
    linear_combination ((a1 * dx + b1 * dy) ^ 2 - u2 * u2 * (dx * dx + dy * dy)) * h.hu1 +
      ((a0 * dx + b0 * dy) ^ 2 - (a0 * a0 + b0 * b0) * (dx * dx + dy * dy)) * h.hu2
  linear_combination (K + (dx * (a1 * u1 + a0 * u2) + dy * (b1 * u1 + b0 * u2)) + s * X) * e + X * X * h.hs - e2

theorem lenSq : (a1 * u1 + a0 * u2) ^ 2 + (b1 * u1 + b0 * u2) ^ 2 - (u1 * u2 + (a0 * a1 + b0 * b1)) ^ 2 = or ^ 2 := by
  rw [h.hor]
  linear_combination (a1 * a1 + b1 * b1 - u2 * u2) * h.hu1 

theorem d_pos : 0 < dx * dx + dy * dy := by
  by_contra hc
  apply h.hne
  constructor <;> nlinarith [mul_self_nonneg dx, mul_self_nonneg dy]

theorem a_pos : 0 < u1 * u2 + (a0 * a1 + b0 * b1) := by
  have hu : 0 < u1 * u2 := mul_pos h.p1 h.p2
  have e : (u1 * u2) ^ 2 - (a0 * a1 + b0 * b1) ^ 2 = or ^ 2 := by
    rw [h.hor]; linear_combination (u2 * u2) * h.hu1 + (a0 * a0 + b0 * b0) * h.hu2
  have : 0 < or ^ 2 := by have := h.or0; positivity
  by_contra hc
  nlinarith

theorem dw_pos : 0 < dx * (a1 * u1 + a0 * u2) + dy * (b1 * u1 + b0 * u2) := by
  have ha := h.a_pos
  have e : or * (or * (dx * (a1 * u1 + a0 * u2) + dy * (b1 * u1 + b0 * u2))) =
      (u1 * u2 + (a0 * a1 + b0 * b1)) * (u1 * (or * (a1 * dy - b1 * dx)) + u2 * -(or * (a0 * dy - b0 * dx))) := by
    rw [h.hor]
    linear_combination (-(a1 * b0 - a0 * b1) * u2 * (a1 * dy - b1 * dx)) * h.hu1 + ((a1 * b0 - a0 * b1) * u1 * (a0 * dy - b0 * dx)) * h.hu2
  have o2 : 0 < or * or := mul_self_pos.2 h.or0
  have hp : 0 < u1 * (or * (a1 * dy - b1 * dx)) + u2 * -(or * (a0 * dy - b0 * dx)) := by
    have n1 := mul_nonneg h.p1.le h.r2
    have n2 := mul_nonneg h.p2.le (neg_nonneg.2 h.r1)
    by_contra hc
    have z1 : u1 * (or * (a1 * dy - b1 * dx)) = 0 := by linarith
    have z2 : u2 * -(or * (a0 * dy - b0 * dx)) = 0 := by linarith
    have w1 : a1 * dy - b1 * dx = 0 := by
      rcases mul_eq_zero.1 z1 with q | q
      · exact absurd q h.p1.ne'
      · exact (mul_eq_zero.1 q).resolve_left h.or0
    have w2 : a0 * dy - b0 * dx = 0 := by
      rcases mul_eq_zero.1 z2 with q | q
      · exact absurd q h.p2.ne'
      · exact (mul_eq_zero.1 (neg_eq_zero.1 q)).resolve_left h.or0
    have hor := h.hor
    apply h.hne
    constructor
    · have : or * dx = 0 := by rw [hor]; linear_combination a0 * w1 - a1 * w2
      exact (mul_eq_zero.1 this).resolve_left h.or0
    · have : or * dy = 0 := by rw [hor]; linear_combination b0 * w1 - b1 * w2
      exact (mul_eq_zero.1 this).resolve_left h.or0
  have := mul_pos ha hp
  rw [← e, ← mul_assoc] at this
  exact (mul_pos_iff_of_pos_left o2).1 this

theorem K_neg : K < 0 := by
  have h1 := h.quad
  have h2 := h.dw_pos
  have h3 := mul_pos (pow_pos h.a_pos 2) h.d_pos
  by_contra hc
  push Not at hc
  nlinarith [mul_nonneg hc h2.le, mul_self_nonneg K]

theorem point {ix iy px py : ℝ} (hdx : dx = ix - or * px) (hdy : dy = iy - or * py) :
    (((a1 * u1 + a0 * u2) * (dx * dx + dy * dy) + ix * K) / (K * or) - px) ^ 2 +
      (((b1 * u1 + b0 * u2) * (dx * dx + dy * dy) + iy * K) / (K * or) - py) ^ 2 = (-(dx * dx + dy * dy) / K) ^ 2 := by
  have hK := h.K_neg.ne
  have ho := h.or0
  have hKo : K * or ≠ 0 := mul_ne_zero hK ho
  rw [div_sub' hKo, div_sub' hKo, div_pow, div_pow, div_pow, ← add_div, div_eq_div_iff (pow_ne_zero 2 hKo) (pow_ne_zero 2 hK)]
  have e1 : (a1 * u1 + a0 * u2) * (dx * dx + dy * dy) + ix * K - K * or * px =
      (a1 * u1 + a0 * u2) * (dx * dx + dy * dy) + dx * K := by rw [hdx]; ring
  have e2 : (b1 * u1 + b0 * u2) * (dx * dx + dy * dy) + iy * K - K * or * py =
      (b1 * u1 + b0 * u2) * (dx * dx + dy * dy) + dy * K := by rw [hdy]; ring
  rw [e1, e2]
  linear_combination (K ^ 2 * (dx * dx + dy * dy)) * h.quad + (K ^ 2 * (dx * dx + dy * dy) ^ 2) * h.lenSq

theorem turn_eq {ix iy px py : ℝ} (hdx : dx = ix - or * px) (hdy : dy = iy - or * py) :
    let cx := ((a1 * u1 + a0 * u2) * (dx * dx + dy * dy) + ix * K) / (K * or)
    let cy := ((b1 * u1 + b0 * u2) * (dx * dx + dy * dy) + iy * K) / (K * or)
    let T := (dx * dx + dy * dy) / K
    turn (cx + T * -b0 / u1, cy - T * -a0 / u1) (cx + T * b1 / u2, cy - T * a1 / u2) (px, py) = T / (u1 * u2) * (s * X / or) := by
  intro cx cy T
  have hK := h.K_neg.ne
  have ho := h.or0
  have hKo : K * or ≠ 0 := mul_ne_zero hK ho
  have hu1 := h.p1.ne'
  have hu2 := h.p2.ne'
  have hT : T * K = dx * dx + dy * dy := div_mul_cancel₀ _ hK
  have hcx : cx * (K * or) = (a1 * u1 + a0 * u2) * (dx * dx + dy * dy) + ix * K := div_mul_cancel₀ _ hKo
  have hcy : cy * (K * or) = (b1 * u1 + b0 * u2) * (dx * dx + dy * dy) + iy * K := div_mul_cancel₀ _ hKo
  clear_value cx cy T
  obtain ⟨i1, hi1⟩ : ∃ i, u1 * i = 1 := ⟨u1⁻¹, mul_inv_cancel₀ hu1⟩
  obtain ⟨i2, hi2⟩ : ∃ i, u2 * i = 1 := ⟨u2⁻¹, mul_inv_cancel₀ hu2⟩
  obtain ⟨io, hio⟩ : ∃ i, or * i = 1 := ⟨or⁻¹, mul_inv_cancel₀ ho⟩
  have d1 : ∀ z, z / u1 = z * i1 := fun z => by rw [div_eq_iff hu1]; linear_combination -z * hi1
  have d2 : ∀ z, z / u2 = z * i2 := fun z => by rw [div_eq_iff hu2]; linear_combination -z * hi2
  have d3 : ∀ z, z / or = z * io := fun z => by rw [div_eq_iff ho]; linear_combination -z * hio
  have d4 : ∀ z, z / (u1 * u2) = z * i1 * i2 := fun z => by rw [← div_div, d1, d2]
  have ex : px = cx - (T * (a1 * u1 + a0 * u2) + dx) * io := by
    have : K * or * px = K * or * (cx - (T * (a1 * u1 + a0 * u2) + dx) * io) := by
      linear_combination (-1) * hcx + (a1 * u1 + a0 * u2) * hT + K * hdx + K * (T * (a1 * u1 + a0 * u2) + dx) * hio
    exact mul_left_cancel₀ hKo this
  have ey : py = cy - (T * (b1 * u1 + b0 * u2) + dy) * io := by
    have : K * or * py = K * or * (cy - (T * (b1 * u1 + b0 * u2) + dy) * io) := by
      linear_combination (-1) * hcy + (b1 * u1 + b0 * u2) * hT + K * hdy + K * (T * (b1 * u1 + b0 * u2) + dy) * hio
    exact mul_left_cancel₀ hKo this
  have eX : s * X = K + (dx * (a1 * u1 + a0 * u2) + dy * (b1 * u1 + b0 * u2)) := by rw [h.hK]; ring
  have eT : T * (u1 * u2 + (a0 * a1 + b0 * b1)) ^ 2 = -(K + 2 * (dx * (a1 * u1 + a0 * u2) + dy * (b1 * u1 + b0 * u2))) := by
    have : K * (T * (u1 * u2 + (a0 * a1 + b0 * b1)) ^ 2) = K * -(K + 2 * (dx * (a1 * u1 + a0 * u2) + dy * (b1 * u1 + b0 * u2))) := by
      linear_combination h.quad + (u1 * u2 + (a0 * a1 + b0 * b1)) ^ 2 * hT
    exact mul_left_cancel₀ hK this
  have el := h.lenSq
  have eor := h.hor
  unfold turn
  dsimp only
  rw [d1, d1, d2, d2, d4, d3, eX]
  set wx := a1 * u1 + a0 * u2 with hwx
  set wy := b1 * u1 + b0 * u2 with hwy
  have hA : cx + T * b1 * i2 - (cx + T * -b0 * i1) = T * i1 * i2 * wy := by
    rw [hwy]; linear_combination (-T * b1 * i2) * hi1 - (T * b0 * i1) * hi2
  have hB : cy - T * a1 * i2 - (cy - T * -a0 * i1) = -(T * i1 * i2 * wx) := by
    rw [hwx]; linear_combination (T * a1 * i2) * hi1 + (T * a0 * i1) * hi2
  have hC : py - (cy - T * -a0 * i1) = -((T * wy + dy) * io) - T * a0 * i1 := by rw [ey]; ring
  have hD : px - (cx + T * -b0 * i1) = -((T * wx + dx) * io) + T * b0 * i1 := by rw [ex]; ring
  rw [hA, hB, hC, hD]
  have hw : b0 * wx - a0 * wy = u1 * or := by rw [hwx, hwy, eor]; ring
  have key : wy * (-((T * wy + dy) * io) - T * a0 * i1) + wx * (-((T * wx + dx) * io) + T * b0 * i1) =
      (K + (dx * wx + dy * wy)) * io := by
    linear_combination (T * i1) * hw + (T * or) * hi1 - (T * or) * hio - (T * io) * el - io * eT
  linear_combination (T * i1 * i2) * key

end Cross

/-- A point and two parallel lines. -/
theorem par_core {a0 b0 X1 Y1 X2 Y2 px py Q s L dx dy cx cy W : ℝ} (hL : L = a0 * a0 + b0 * b0) (hL0 : L ≠ 0)
    (hdx : dx = a0 * (py - Y1) - b0 * (px - X1)) (hdy : dy = b0 * (px - X2) - a0 * (py - Y2)) (hQ : Q * Q = dx * dy) (hs : s * s = 1)
    (hW : W = (dx + dy) / 2)
    (hcx : cx = (a0 * (2 * s) * Q + (b0 * b0 * (X1 + X2) - a0 * b0 * (Y1 + Y2 - py * 2) + a0 * a0 * (px * 2))) / (2 * L))
    (hcy : cy = (b0 * (2 * s) * Q + (a0 * a0 * (Y1 + Y2) - a0 * b0 * (X1 + X2 - px * 2) + b0 * b0 * (py * 2))) / (2 * L)) :
    a0 * (cy - Y1) - b0 * (cx - X1) = W ∧ a0 * (cy - Y2) - b0 * (cx - X2) = -W ∧
    L * ((cx - px) ^ 2 + (cy - py) ^ 2) = W ^ 2 ∧
    turn (cx + W * b0 / L, cy - W * a0 / L) (cx - W * b0 / L, cy + W * a0 / L) (px, py) = 2 * W * s * Q / L := by
  obtain ⟨i, hi⟩ : ∃ i, L * i = 1 := ⟨L⁻¹, mul_inv_cancel₀ hL0⟩
  have d1 : ∀ z, z / L = z * i := fun z => by rw [div_eq_iff hL0]; linear_combination -z * hi
  have ex : cx = px + (2 * s * a0 * Q + b0 * (dx - dy)) * i / 2 := by
    rw [hcx, ← div_div, div_right_comm, d1, hdx, hdy]
    linear_combination (px * i) * hL.symm + px * hi
  have ey : cy = py + (2 * s * b0 * Q - a0 * (dx - dy)) * i / 2 := by
    rw [hcy, ← div_div, div_right_comm, d1, hdx, hdy]
    linear_combination (py * i) * hL.symm + py * hi
  have hi' : (a0 * a0 + b0 * b0) * i = 1 := by rw [← hL]; exact hi
  refine ⟨?_, ?_, ?_, ?_⟩
  · rw [ex, ey, hW, hdx, hdy]
    linear_combination (-(a0 * (py - Y1) - b0 * (px - X1) - (b0 * (px - X2) - a0 * (py - Y2))) / 2) * hi'
  · rw [ex, ey, hW, hdx, hdy]
    linear_combination (-(a0 * (py - Y1) - b0 * (px - X1) - (b0 * (px - X2) - a0 * (py - Y2))) / 2) * hi'
  · rw [ex, ey, hW]
    clear ex ey hcx hcy hdx hdy hW d1
    rw [hL]
    have : (px + (2 * s * a0 * Q + b0 * (dx - dy)) * i / 2 - px) ^ 2 + (py + (2 * s * b0 * Q - a0 * (dx - dy)) * i / 2 - py) ^ 2 =
      (a0 * a0 + b0 * b0) * (i * i) * (4 * (s * s) * (Q * Q) + (dx - dy) ^ 2) / 4 := by ring
    rw [this, hs, hQ]
    linear_combination ((dx + dy) ^ 2 / 4 * ((a0 * a0 + b0 * b0) * i + 1)) * hi'
  · unfold turn
    dsimp only
    rw [d1, d1, d1, ex, ey]
    clear ex ey hcx hcy hdx hdy hW d1
    linear_combination (2 * W * s * Q * i) * hi'

/-- Three lines. -/
theorem sss_core {a0 b0 c0 l0 a1 b1 c1 l1 a2 b2 c2 l2 den : ℝ}
    (hd : den = (a1 * b2 - a2 * b1) * l0 + (a2 * b0 - a0 * b2) * l1 + (a0 * b1 - a1 * b0) * l2) (h0 : den ≠ 0) (i : Fin 3) :
    ![b0, b1, b2] i * (((a1 * c2 - a2 * c1) * l0 + (a2 * c0 - a0 * c2) * l1 + (a0 * c1 - a1 * c0) * l2) / den) -
      ![a0, a1, a2] i * (((b1 * c2 - b2 * c1) * l0 + (b2 * c0 - b0 * c2) * l1 + (b0 * c1 - b1 * c0) * l2) / den) - ![c0, c1, c2] i =
      (0 + (a1 * c2 - a2 * c1) * b0 + (a2 * c0 - a0 * c2) * b1 + (a0 * c1 - a1 * c0) * b2) / den * ![l0, l1, l2] i := by
  have e : ∀ z, z = z * den / den := fun z => by rw [mul_div_assoc, div_self h0, mul_one]
  rw [e (![c0, c1, c2] i), mul_div_assoc', mul_div_assoc', ← sub_div, ← sub_div, div_mul_eq_mul_div]
  congr 1
  rw [hd]
  fin_cases i <;> simp <;> ring

/-- Three different points of a circle about the origin are not on one line. -/
theorem three_units {x1 y1 x2 y2 x3 y3 : ℝ} (h1 : x1 * x1 + y1 * y1 = 1) (h2 : x2 * x2 + y2 * y2 = 1) (h3 : x3 * x3 + y3 * y3 = 1)
    (h12 : ¬ (x1 = x2 ∧ y1 = y2)) (h13 : ¬ (x1 = x3 ∧ y1 = y3)) (h23 : ¬ (x2 = x3 ∧ y2 = y3)) :
    (x2 - x1) * (y3 - y1) - (y2 - y1) * (x3 - x1) ≠ 0 := by
  intro h
  have hD : (x2 - x1) ^ 2 + (y2 - y1) ^ 2 ≠ 0 := by
    intro hz
    apply h12
    constructor <;> nlinarith [sq_nonneg (x2 - x1), sq_nonneg (y2 - y1)]
  obtain ⟨i, hi⟩ : ∃ i, ((x2 - x1) ^ 2 + (y2 - y1) ^ 2) * i = 1 := ⟨_, mul_inv_cancel₀ hD⟩
  obtain ⟨t, ht⟩ : ∃ t, t = ((x3 - x1) * (x2 - x1) + (y3 - y1) * (y2 - y1)) * i := ⟨_, rfl⟩
  have ex : x3 - x1 = t * (x2 - x1) := by
    rw [ht]; linear_combination (-(x3 - x1)) * hi - (y2 - y1) * i * h
  have ey : y3 - y1 = t * (y2 - y1) := by
    rw [ht]; linear_combination (-(y3 - y1)) * hi + (x2 - x1) * i * h
  have hx : x3 = x1 + t * (x2 - x1) := by linear_combination ex
  have hy : y3 = y1 + t * (y2 - y1) := by linear_combination ey
  have hq : t * (t - 1) * ((x2 - x1) ^ 2 + (y2 - y1) ^ 2) = 0 := by
    rw [hx, hy] at h3
    linear_combination h3 - (1 - t) * h1 - t * h2
  rcases mul_eq_zero.1 ((mul_eq_zero.1 hq).resolve_right hD) with z | z
  · exact h13 ⟨by rw [hx, z]; ring, by rw [hy, z]; ring⟩
  · have z : t = 1 := by linarith
    exact h23 ⟨by rw [hx, z]; ring, by rw [hy, z]; ring⟩

end Verif.CircleProofs
