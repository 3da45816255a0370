import Verif.Model.VoronoiLazy
import Verif.Properties.VoronoiCircle
/-!
# C95: the two ways of computing a circle event agree
-/
namespace Verif.Properties.VoronoiLazy
open Verif.Voronoi Verif.Spec.Circle Verif.CircleProofs Verif.Robust Verif.Properties.Robust Verif.Properties.VoronoiCircle

theorem event_of {s1 s2 s3 : Site} {c : Circle} (h1 : lazyCircle s1 s2 s3 = some c) (h2 : formCircle s1 s2 s3 = some c) (rx ry rl : Bool) :
    eventCircle rx ry rl s1 s2 s3 = some c := by
  unfold eventCircle
  rw [h1, h2]
  cases rx <;> cases ry <;> cases rl <;> rfl

theorem ppp_lazy (s1 s2 s3 : Site) (h : turn (pt s1.p0) (pt s2.p0) (pt s3.p0) < 0) : lazyPpp s1 s2 s3 = mpPpp s1 s2 s3 := by
  obtain ⟨D, hD⟩ : ∃ z : Int, z = (s1.p0.1 - s2.p0.1) * (s2.p0.2 - s3.p0.2) - (s2.p0.1 - s3.p0.1) * (s1.p0.2 - s2.p0.2) := ⟨_, rfl⟩
  have hDr : (D : ℝ) = turn (pt s1.p0) (pt s2.p0) (pt s3.p0) := by rw [hD]; unfold turn pt; push_cast; ring
  have hDneg : (D : ℝ) < 0 := by rw [hDr]; exact h
  obtain ⟨inv, hinv⟩ : ∃ z : ℝ, z = 1 / 2 / (D : ℝ) := ⟨_, rfl⟩
  have hinvneg : inv < 0 := by rw [hinv]; exact div_neg_of_pos_of_neg (by norm_num) hDneg
  obtain ⟨cx, hcx⟩ : ∃ z : Int, z = ((s1.p0.1 - s2.p0.1) * (s1.p0.1 + s2.p0.1) + (s1.p0.2 - s2.p0.2) * (s1.p0.2 + s2.p0.2)) * (s2.p0.2 - s3.p0.2) -
    ((s2.p0.1 - s3.p0.1) * (s2.p0.1 + s3.p0.1) + (s2.p0.2 - s3.p0.2) * (s2.p0.2 + s3.p0.2)) * (s1.p0.2 - s2.p0.2) := ⟨_, rfl⟩
  obtain ⟨sq, hsq⟩ : ∃ z : Int, z = ((s1.p0.1 - s2.p0.1) * (s1.p0.1 - s2.p0.1) + (s1.p0.2 - s2.p0.2) * (s1.p0.2 - s2.p0.2)) *
    ((s2.p0.1 - s3.p0.1) * (s2.p0.1 - s3.p0.1) + (s2.p0.2 - s3.p0.2) * (s2.p0.2 - s3.p0.2)) *
    ((s1.p0.1 - s3.p0.1) * (s1.p0.1 - s3.p0.1) + (s1.p0.2 - s3.p0.2) * (s1.p0.2 - s3.p0.2)) := ⟨_, rfl⟩
  have hsq0 : 0 ≤ sq := by
    rw [hsq]
    refine mul_nonneg (mul_nonneg ?_ ?_) ?_ <;> exact add_nonneg (mul_self_nonneg _) (mul_self_nonneg _)
  have hr : Real.sqrt sq * Real.sqrt sq = sq := sqrt_self hsq0
  unfold lazyPpp mpPpp
  simp only [← hD, ← hsq, ← hcx]
  rw [divE_some hDneg.ne]
  simp only [Option.bind_eq_bind, Option.bind_some, ← hinv]
  have e1 : (s1.p0.1 - s2.p0.1) * (s1.p0.1 + s2.p0.1) * (s2.p0.2 - s3.p0.2) + (s1.p0.2 - s2.p0.2) * (s1.p0.2 + s2.p0.2) * (s2.p0.2 - s3.p0.2) -
      (s2.p0.1 - s3.p0.1) * (s2.p0.1 + s3.p0.1) * (s1.p0.2 - s2.p0.2) - (s2.p0.2 - s3.p0.2) * (s2.p0.2 + s3.p0.2) * (s1.p0.2 - s2.p0.2) = cx := by
    rw [hcx]; ring
  rw [e1]
  have fin : ∀ v : ℝ, v = ((cx : ℝ) - Real.sqrt sq) * inv →
      some (Circle.mk ((cx : ℝ) * inv) (((s2.p0.1 - s3.p0.1) * (s2.p0.1 + s3.p0.1) * (s1.p0.1 - s2.p0.1) +
        (s2.p0.2 - s3.p0.2) * (s2.p0.2 + s3.p0.2) * (s1.p0.1 - s2.p0.1) - (s1.p0.1 - s2.p0.1) * (s1.p0.1 + s2.p0.1) * (s2.p0.1 - s3.p0.1) -
        (s1.p0.2 - s2.p0.2) * (s1.p0.2 + s2.p0.2) * (s2.p0.1 - s3.p0.1) : Int) * inv) (((cx : ℝ) - Real.sqrt sq) * inv)) =
      some (Circle.mk ((cx : ℝ) * inv) ((((s2.p0.1 - s3.p0.1) * (s2.p0.1 + s3.p0.1) + (s2.p0.2 - s3.p0.2) * (s2.p0.2 + s3.p0.2)) * (s1.p0.1 - s2.p0.1) -
        ((s1.p0.1 - s2.p0.1) * (s1.p0.1 + s2.p0.1) + (s1.p0.2 - s2.p0.2) * (s1.p0.2 + s2.p0.2)) * (s2.p0.1 - s3.p0.1) : Int) * inv) v) := by
    intro v hv
    rw [hv]
    congr 4
    ring
  by_cases hx : (cx : ℝ) * inv < 0
  · rw [if_neg (not_not.2 hx)]
    have hc : 0 < (cx : ℝ) := by
      by_contra hc; push Not at hc
      exact absurd (mul_nonneg_of_nonpos_of_nonpos hc hinvneg.le) (not_le.2 hx)
    have := Real.sqrt_nonneg (sq : ℝ)
    rw [divE_of (z := ((cx : ℝ) - Real.sqrt sq) * inv) (by linarith : (cx : ℝ) + Real.sqrt sq ≠ 0) (by push_cast; linear_combination (inv) * hr)]
    exact fin _ rfl
  · rw [if_pos hx, if_neg (not_not.2 hinvneg)]
    exact fin _ (by ring)

theorem pps_lazy (s1 s2 s3 : Site) (idx : Nat) (hseg : s3.isSegment = true) (hne : s1.p0 ≠ s2.p0)
    (r1 : OnRight s1.p0 s3.p0 s3.p1) (r2 : OnRight s2.p0 s3.p0 s3.p1)
    (hoff : turn (pt s3.p0) (pt s3.p1) (pt s1.p0) < 0 ∨ turn (pt s3.p0) (pt s3.p1) (pt s2.p0) < 0) :
    lazyPps s1 s2 s3 idx = mpPps s1 s2 s3 idx := by
  obtain ⟨c, hc, -, -, -, -, -, la, lb, teta, d, A, B, len, t, R, hla, hlb, hte, hd, hA, hB, hlen, pl, pA, pB, pS, pR, ec, eR, h0, h1⟩ :=
    pps_event s1 s2 s3 idx hseg hne r1 r2 hoff
  have hsl0 : 0 < Real.sqrt (len : ℝ) := Real.sqrt_pos.2 (by exact_mod_cast pl)
  rw [hc]
  unfold lazyPps
  have e1 : (s3.p1.2 - s3.p0.2) * (s2.p0.2 - s1.p0.2) - (s3.p0.1 - s3.p1.1) * (s2.p0.1 - s1.p0.1) = teta := by rw [hte, hla, hlb]; ring
  have e2 : (s3.p0.2 - s3.p1.2) * (s3.p1.1 - s1.p0.1) - (s3.p0.1 - s3.p1.1) * (s3.p1.2 - s1.p0.2) = A := by rw [hA, hla, hlb]; ring
  have e3 : (s3.p0.2 - s3.p1.2) * (s3.p1.1 - s2.p0.1) - (s3.p0.1 - s3.p1.1) * (s3.p1.2 - s2.p0.2) = B := by rw [hB, hla, hlb]; ring
  have e4 : (s1.p0.2 - s2.p0.2) * (s3.p1.1 - s3.p0.1) - (s1.p0.1 - s2.p0.1) * (s3.p1.2 - s3.p0.2) = d := by rw [hd, hla, hlb]; ring
  simp only [e1, e2, e3, e4]
  simp only [← hla, ← hlb, ← hlen]
  rw [divE_some hsl0.ne']
  simp only [Option.bind_eq_bind, Option.bind_some]
  subst ec
  dsimp only at eR
  have fin : ∀ t' : ℝ, t' = t →
      (let cx := 1 / 2 * ((s1.p0.1 : ℝ) + s2.p0.1) + ((s2.p0.2 - s1.p0.2 : Int) : ℝ) * t'
       let cy := 1 / 2 * ((s1.p0.2 : ℝ) + s2.p0.2) + ((s1.p0.1 - s2.p0.1 : Int) : ℝ) * t'
       let r := -((la : ℝ) * s3.p0.1) - lb * s3.p0.2 + la * cx + lb * cy
       some (Circle.mk cx cy (cx + (if r < 0 then -r else r) * (1 / Real.sqrt len)))) =
      some ⟨1 / 2 * ((s1.p0.1 : ℝ) + s2.p0.1) + ((s2.p0.2 : ℝ) - s1.p0.2) * t, 1 / 2 * ((s1.p0.2 : ℝ) + s2.p0.2) + ((s1.p0.1 : ℝ) - s2.p0.1) * t,
          1 / 2 * ((s1.p0.1 : ℝ) + s2.p0.1) + ((s2.p0.2 : ℝ) - s1.p0.2) * t + R / Real.sqrt len⟩ := by
    intro t' ht
    rw [ht]
    dsimp only
    have er : -((la : ℝ) * s3.p0.1) - lb * s3.p0.2 + la * (1 / 2 * ((s1.p0.1 : ℝ) + s2.p0.1) + ((s2.p0.2 - s1.p0.2 : Int) : ℝ) * t) +
        lb * (1 / 2 * ((s1.p0.2 : ℝ) + s2.p0.2) + ((s1.p0.1 - s2.p0.1 : Int) : ℝ) * t) = R := by
      rw [← eR]; push_cast; ring
    rw [er, if_neg (not_lt.2 pR.le), mul_one_div]
    push_cast
    rfl
  by_cases hz : d = 0
  · rw [if_pos hz]
    obtain ⟨ht0, ht⟩ := h0 hz
    have hAB : B = A := by
      have : B - A = d := by rw [hA, hB, hd]; ring
      omega
    have hA0 : A ≠ 0 := by omega
    have rA : (A : ℝ) ≠ 0 := by exact_mod_cast hA0
    have rT : (teta : ℝ) ≠ 0 := by exact_mod_cast ht0
    rw [divE_some (mul_ne_zero (by norm_num) rA), divE_some (mul_ne_zero (by norm_num) rT)]
    simp only [Option.bind_some]
    refine fin _ ?_
    rw [hAB] at ht
    field_simp
    linear_combination (-2 : ℝ) * ht
  · rw [if_neg hz]
    have rd : (d : ℝ) ≠ 0 := by exact_mod_cast hz
    have ht := h1 hz
    rw [divE_some (mul_ne_zero rd rd), divE_some (mul_ne_zero (mul_ne_zero (by norm_num) rd) rd)]
    simp only [Option.bind_some]
    refine fin _ ?_
    have : (if idx = 2 then -(Real.sqrt (((teta * teta + d * d) * A * B : Int) : ℝ) / ((d : ℝ) * d)) else Real.sqrt (((teta * teta + d * d) * A * B : Int) : ℝ) / ((d : ℝ) * d)) =
      (if idx = 2 then -1 else 1) * Real.sqrt (((teta * teta + d * d) * A * B : Int) : ℝ) / ((d : ℝ) * d) := by
      split_ifs <;> ring
    rw [this]
    generalize (if idx = 2 then -1 else 1 : ℝ) = σ at *
    generalize Real.sqrt (((teta * teta + d * d) * A * B : Int) : ℝ) = D at *
    field_simp
    linear_combination (-1 : ℝ) * ht

theorem pss_lazy (s1 s2 s3 : Site) (idx : Nat) (k2 : s2.isSegment = true) (k3 : s3.isSegment = true)
    (hw : ¬ SameWay (s2.p0, s2.p1) (s3.p0, s3.p1)) (r2 : OnRight s1.p0 s2.p0 s2.p1) (r3 : OnRight s1.p0 s3.p0 s3.p1) :
    lazyPss s1 s2 s3 idx = mpPss s1 s2 s3 idx := by
  obtain ⟨c, hc, -, -, -, -, -, a0, b0, a1, b1, or, B0, B1, B2, ha0, hb0, ha1, hb1, hor, hB0, hB1, hB2, pB0, pB1, h0, h1⟩ :=
    pss_event s1 s2 s3 idx k2 k3 hw r2 r3
  have pu1 : 0 < Real.sqrt (B0 : ℝ) := Real.sqrt_pos.2 (by exact_mod_cast pB0)
  have pu2 : 0 < Real.sqrt (B1 : ℝ) := Real.sqrt_pos.2 (by exact_mod_cast pB1)
  have hu1 : Real.sqrt (B0 : ℝ) * Real.sqrt B0 = B0 := sqrt_self pB0.le
  have hu2 : Real.sqrt (B1 : ℝ) * Real.sqrt B1 = B1 := sqrt_self pB1.le
  have hB0R : (B0 : ℝ) ≠ 0 := by exact_mod_cast pB0.ne'
  rw [hc]
  unfold lazyPss
  simp only [← ha0, ← hb0, ← ha1, ← hb1, ← hB0, ← hB1]
  rw [show b0 * a1 - a0 * b1 = or by rw [hor]; ring]
  obtain ⟨x, y, lower⟩ := c
  dsimp only at h0 h1
  by_cases ho : or = 0
  · rw [if_pos ho]
    obtain ⟨dx, dy, hdx, hdy, pdx, pdy, hl, hx, hy⟩ := h0 ho
    rw [← hdx, ← hdy, divE_some hB0R, divE_some pu1.ne']
    simp only [Option.bind_eq_bind, Option.bind_some]
    obtain ⟨c0, hc0⟩ : ∃ z : Int, z = b0 * (s3.p0.1 - s2.p1.1) - a0 * (s3.p0.2 - s2.p1.2) := ⟨_, rfl⟩
    have ec0 : c0 = -(dx + dy) := by rw [hc0, hdx, hdy]; ring
    have rc0 : (c0 : ℝ) = -((dx : ℝ) + dy) := by rw [ec0]; push_cast; ring
    have rB0 : (B0 : ℝ) = a0 * a0 + b0 * b0 := by rw [hB0]; push_cast; ring
    rw [← hc0]
    obtain ⟨σ, hσ⟩ : ∃ z : ℝ, z = if idx = 2 then 1 else -1 := ⟨_, rfl⟩
    rw [← hσ] at hx hy
    obtain ⟨D, hD⟩ : ∃ z : ℝ, z = Real.sqrt ((dx * dy : Int) : ℝ) := ⟨_, rfl⟩
    rw [← hD] at hx hy ⊢
    have ht : ∀ v : ℝ, (if idx = 2 then v + D else v - D) = v + σ * D := by intro v; rw [hσ]; split_ifs <;> ring
    rw [ht]
    obtain ⟨t, et⟩ : ∃ z : ℝ, z = (-(a0 : ℝ) * (((s2.p1.1 : ℝ) + s3.p0.1) * (1 / 2) - s1.p0.1) - b0 * (((s2.p1.2 : ℝ) + s3.p0.2) * (1 / 2) - s1.p0.2) + σ * D) / B0 :=
      ⟨_, rfl⟩
    rw [← et]
    have etB : t * B0 = -(a0 : ℝ) * (((s2.p1.1 : ℝ) + s3.p0.1) * (1 / 2) - s1.p0.1) - b0 * (((s2.p1.2 : ℝ) + s3.p0.2) * (1 / 2) - s1.p0.2) + σ * D := by
      rw [et, div_mul_cancel₀ _ hB0R]
    have ex : 1 / 2 * ((s2.p1.1 : ℝ) + s3.p0.1) + a0 * t = x := by
      apply mul_right_cancel₀ (mul_ne_zero two_ne_zero hB0R)
      rw [hx]
      linear_combination (2 * (a0 : ℝ)) * etB + ((s2.p1.1 : ℝ) + s3.p0.1) * rB0
    have ey : 1 / 2 * ((s2.p1.2 : ℝ) + s3.p0.2) + b0 * t = y := by
      apply mul_right_cancel₀ (mul_ne_zero two_ne_zero hB0R)
      rw [hy]
      linear_combination (2 * (b0 : ℝ)) * etB + ((s2.p1.2 : ℝ) + s3.p0.2) * rB0
    rw [ex, ey, rc0]
    have el : (if c0 < 0 then x - 1 / 2 * -((dx : ℝ) + dy) / Real.sqrt B0 else x + 1 / 2 * -((dx : ℝ) + dy) / Real.sqrt B0) = lower := by
      rw [hl]
      split_ifs with h
      · ring
      · have z1 : dx = 0 := by omega
        have z2 : dy = 0 := by omega
        rw [z1, z2]; simp
    rw [el]
    rfl
  · rw [if_neg ho]
    obtain ⟨ix, iy, dx, dy, T, hix, hiy, hdx, hdy, pT, hx, hy, hl, pa, hT⟩ := h1 ho
    have oR : (or : ℝ) ≠ 0 := by exact_mod_cast ho
    have ror : (or : ℝ) = a1 * b0 - a0 * b1 := by rw [hor]; push_cast; ring
    have rB0 : (B0 : ℝ) = a0 * a0 + b0 * b0 := by rw [hB0]; push_cast; ring
    have rB1 : (B1 : ℝ) = a1 * a1 + b1 * b1 := by rw [hB1]; push_cast; ring
    have rB2 : (B2 : ℝ) = a0 * a1 + b0 * b1 := by rw [hB2]; push_cast; ring
    rw [divE_some oR, show a0 * a1 - b0 * (s3.p0.2 - s3.p1.2) = B2 by rw [hB2, hb1]; ring]
    obtain ⟨u, hu⟩ : ∃ z : ℝ, z = Real.sqrt B0 := ⟨_, rfl⟩
    obtain ⟨w, hw⟩ : ∃ z : ℝ, z = Real.sqrt B1 := ⟨_, rfl⟩
    rw [← hu] at pu1 hu1 hx hy pa hT ⊢
    rw [← hw] at pu2 hu2 hx hy pa hT ⊢
    obtain ⟨a, ha⟩ : ∃ z : ℝ, z = u * w + B2 := ⟨_, rfl⟩
    rw [← ha] at pa hT
    have hbr : ∀ f : ℝ → Option Circle, (if ¬ B2 < 0 then some ((B2 : ℝ) + u * w) >>= f else divE ((or : ℝ) * or) (u * w - B2) >>= f) = f a := by
      intro f
      by_cases hn : B2 < 0
      · have hnr : (B2 : ℝ) < 0 := by exact_mod_cast hn
        have hp : u * w - B2 ≠ 0 := by have := mul_pos pu1 pu2; linarith
        rw [if_neg (not_not.2 hn), divE_of (z := a) hp (by
          rw [ha, ror]
          have e1 : u * w * (u * w) = (a0 * a0 + b0 * b0) * (a1 * a1 + b1 * b1) := by
            rw [← rB0, ← rB1]; linear_combination (w * w) * hu1 + (B0 : ℝ) * hu2
          rw [rB2]
          linear_combination (-1 : ℝ) * e1)]
        rfl
      · rw [if_pos hn, add_comm, ← ha]; rfl
    refine (hbr _).trans ?_
    simp only [Option.bind_eq_bind, Option.bind_some]
    obtain ⟨m1, hm1⟩ : ∃ z : Int, z = b0 * (s2.p0.1 - s1.p0.1) - a0 * (s2.p0.2 - s1.p0.2) := ⟨_, rfl⟩
    obtain ⟨m2, hm2⟩ : ∃ z : Int, z = a1 * (s3.p1.2 - s1.p0.2) - b1 * (s3.p1.1 - s1.p0.1) := ⟨_, rfl⟩
    rw [← hm1, ← hm2] at hT ⊢
    obtain ⟨D, hD⟩ : ∃ z : ℝ, z = Real.sqrt (2 * a * m1 * m2) := ⟨_, rfl⟩
    rw [← hD] at hT ⊢
    obtain ⟨σ, hσ⟩ : ∃ z : ℝ, z = if idx = 2 then 1 else -1 := ⟨_, rfl⟩
    rw [← hσ] at hT
    have ht : ∀ v : ℝ, (if idx = 2 then v + D else v - D) = v + σ * D := by intro v; rw [hσ]; split_ifs <;> ring
    rw [ht]
    obtain ⟨i, hi⟩ : ∃ z : ℝ, z = 1 / (or : ℝ) := ⟨_, rfl⟩
    have hi1 : (or : ℝ) * i = 1 := by rw [hi, mul_one_div, div_self oR]
    rw [← hi]
    have eix : (a1 : ℝ) * (b0 * s2.p0.1 - a0 * s2.p0.2 : Int) * i + a0 * (a1 * s3.p1.2 - b1 * s3.p1.1 : Int) * i = ix * i := by
      rw [hix]; push_cast; ring
    have eiy : (b0 : ℝ) * (a1 * s3.p1.2 - b1 * s3.p1.1 : Int) * i + b1 * (b0 * s2.p0.1 - a0 * s2.p0.2 : Int) * i = iy * i := by
      rw [hiy]; push_cast; ring
    rw [eix, eiy]
    rw [divE_of (z := T * i) (mul_ne_zero pa.ne' pa.ne') (by
      have rdx : (dx : ℝ) = ix - or * s1.p0.1 := by rw [hdx]; push_cast; ring
      have rdy : (dy : ℝ) = iy - or * s1.p0.2 := by rw [hdy]; push_cast; ring
      rw [rdx, rdy] at hT
      push_cast
      linear_combination (-i) * hT + ((s1.p0.1 : ℝ) * (a1 * u + a0 * w) + s1.p0.2 * (b1 * u + b0 * w) + σ * D) * -hi1)]
    simp only [Option.bind_some]
    have ex : ix * i + T * i * (a0 * w) + T * i * (a1 * u) = x := by
      apply mul_right_cancel₀ oR
      rw [hx]; linear_combination (ix + T * (a1 * u + a0 * w)) * hi1
    have ey : iy * i + T * i * (b0 * w) + T * i * (b1 * u) = y := by
      apply mul_right_cancel₀ oR
      rw [hy]; linear_combination (iy + T * (b1 * u + b0 * w)) * hi1
    rw [ex, ey]
    have el : (if or < 0 then x - (if T * i < 0 then -(T * i) else T * i) * or else x + (if T * i < 0 then -(T * i) else T * i) * or) = lower := by
      rw [hl]
      have e1 : T * i * or = T := by linear_combination T * hi1
      by_cases hn : or < 0
      · have hnr : (or : ℝ) < 0 := by exact_mod_cast hn
        have hin : i < 0 := by rw [hi]; exact div_neg_of_pos_of_neg one_pos hnr
        rw [if_pos hn, if_neg (not_lt.2 (mul_nonneg_of_nonpos_of_nonpos pT hin.le)), e1]
      · have hnr : (0 : ℝ) < or := lt_of_le_of_ne (by exact_mod_cast not_lt.1 hn) (Ne.symm oR)
        have hin : 0 < i := by rw [hi]; exact div_pos one_pos hnr
        rw [if_neg hn]
        by_cases hT0 : T * i < 0
        · rw [if_pos hT0, neg_mul, e1]; ring
        · have : T * i = 0 := le_antisymm (mul_nonpos_of_nonpos_of_nonneg pT hin.le) (not_lt.1 hT0)
          have hT00 : T = 0 := by rw [← e1, this, zero_mul]
          rw [if_neg hT0, e1, hT00]; ring
    rw [el]
    rfl

theorem sss_lazy (s1 s2 s3 : Site) (h : (mpSss s1 s2 s3).isSome) : lazySss s1 s2 s3 = mpSss s1 s2 s3 := by
  unfold mpSss at h ⊢
  unfold lazySss
  have nn : ∀ a b : Int, 0 ≤ a * a + b * b := fun a b => add_nonneg (mul_self_nonneg _) (mul_self_nonneg _)
  simp only [C42_eval3 _ _ _ _ _ _ (nn _ _) (nn _ _) (nn _ _), C42_eval4 _ _ _ _ _ _ _ _ (nn _ _) (nn _ _) (nn _ _) (by norm_num : (0 : Int) ≤ 1),
    Option.bind_eq_bind, Option.bind_some] at h ⊢
  generalize s1.p1.1 - s1.p0.1 = a1 at *
  generalize s2.p1.1 - s2.p0.1 = a2 at *
  generalize s3.p1.1 - s3.p0.1 = a3 at *
  generalize s1.p1.2 - s1.p0.2 = b1 at *
  generalize s2.p1.2 - s2.p0.2 = b2 at *
  generalize s3.p1.2 - s3.p0.2 = b3 at *
  generalize s1.p0.1 * s1.p1.2 - s1.p0.2 * s1.p1.1 = c1 at *
  generalize s2.p0.1 * s2.p1.2 - s2.p0.2 * s2.p1.1 = c2 at *
  generalize s3.p0.1 * s3.p1.2 - s3.p0.2 * s3.p1.1 = c3 at *
  generalize Real.sqrt ((a1 * a1 + b1 * b1 : Int) : ℝ) = l1 at *
  generalize Real.sqrt ((a2 * a2 + b2 * b2 : Int) : ℝ) = l2 at *
  generalize Real.sqrt ((a3 * a3 + b3 * b3 : Int) : ℝ) = l3 at *
  obtain ⟨den, hden⟩ : ∃ z : ℝ, z = ((a2 * b3 - a3 * b2 : Int) : ℝ) * l1 + ((a3 * b1 - a1 * b3 : Int) : ℝ) * l2 + ((a1 * b2 - a2 * b1 : Int) : ℝ) * l3 :=
    ⟨_, rfl⟩
  rw [← hden] at h ⊢
  have d0 : den ≠ 0 := by
    intro hz
    rw [hz] at h
    simp [divE] at h
  have eden : ((a1 * b2 - b1 * a2 : Int) : ℝ) * l3 + ((a2 * b3 - b2 * a3 : Int) : ℝ) * l1 + ((a3 * b1 - b3 * a1 : Int) : ℝ) * l2 = den := by
    rw [hden]; push_cast; ring
  rw [eden]
  simp only [divE_some d0, Option.bind_some]
  congr 2
  · congr 1; push_cast; ring
  · congr 1; push_cast; ring
  · congr 1; push_cast; rw [Real.sqrt_one]; ring

/-- What the fast way makes of the sites, and what is recorded whichever of the three numbers are computed again, is the event `c` of the exact way. -/
def OneEvent (c : Circle) (s1 s2 s3 : Site) : Prop :=
  formCircle s1 s2 s3 = some c ∧ lazyCircle s1 s2 s3 = some c ∧ ∀ rx ry rl, eventCircle rx ry rl s1 s2 s3 = some c

theorem one_of {s1 s2 s3 : Site} {c : Circle} (h1 : formCircle s1 s2 s3 = some c) (h2 : lazyCircle s1 s2 s3 = formCircle s1 s2 s3) : OneEvent c s1 s2 s3 :=
  ⟨h1, h2.trans h1, event_of (h2.trans h1) h1⟩

/-- Three points that turn right: the recorded circle passes through them, whichever of its numbers are computed again. -/
theorem C95_ppp (s1 s2 s3 : Site) (k1 : s1.isSegment = false) (k2 : s2.isSegment = false) (k3 : s3.isSegment = false)
    (h : turn (pt s1.p0) (pt s2.p0) (pt s3.p0) < 0) :
    ∃ c, OneEvent c s1 s2 s3 ∧ TouchesAll c.x c.y c.lower (shape s1) (shape s2) (shape s3) := by
  obtain ⟨c, e, -, t, -⟩ := C94_ppp s1 s2 s3 k1 k2 k3 h
  exact ⟨c, one_of e (by simp [formCircle, lazyCircle, k1, k2, k3, ppp_lazy s1 s2 s3 h]), t⟩

example : turn (pt (0, 0)) (pt (0, 2)) (pt (2, 0)) < 0 := by norm_num [turn, pt]

/-- Two points to the right of a segment, in the three orders. -/
theorem C95_pps (s1 s2 s3 : Site) (k1 : s1.isSegment = false) (k2 : s2.isSegment = false) (k3 : s3.isSegment = true)
    (hne : s1.p0 ≠ s2.p0) (r1 : OnRight s1.p0 s3.p0 s3.p1) (r2 : OnRight s2.p0 s3.p0 s3.p1)
    (hoff : turn (pt s3.p0) (pt s3.p1) (pt s1.p0) < 0 ∨ turn (pt s3.p0) (pt s3.p1) (pt s2.p0) < 0) :
    (∃ c, OneEvent c s1 s2 s3 ∧ TouchesAll c.x c.y c.lower (shape s1) (shape s2) (shape s3)) ∧
    (∃ c, OneEvent c s1 s3 s2 ∧ TouchesAll c.x c.y c.lower (shape s1) (shape s3) (shape s2)) ∧
    (∃ c, OneEvent c s3 s1 s2 ∧ TouchesAll c.x c.y c.lower (shape s3) (shape s1) (shape s2)) := by
  obtain ⟨⟨c1, e1, -, t1, -⟩, ⟨c2, e2, -, t2, -⟩, ⟨c3, e3, -, t3, -⟩⟩ := C94_pps s1 s2 s3 k1 k2 k3 hne r1 r2 hoff
  have hl := fun idx => pps_lazy s1 s2 s3 idx k3 hne r1 r2 hoff
  exact ⟨⟨c1, one_of e1 (by simp [formCircle, lazyCircle, k1, k2, k3, hl]), t1⟩, ⟨c2, one_of e2 (by simp [formCircle, lazyCircle, k1, k2, k3, hl]), t2⟩,
    ⟨c3, one_of e3 (by simp [formCircle, lazyCircle, k1, k2, k3, hl]), t3⟩⟩

example : OnRight (1, 1) (0, 0) (0, 7) ∧ OnRight (5, 2) (0, 0) (0, 7) ∧ turn (pt (0, 0)) (pt (0, 7)) (pt (1, 1)) < 0 := by
  norm_num [OnRight, turn, pt]

/-- A point to the right of two segments that do not run the same way, in the three orders. -/
theorem C95_pss (s1 s2 s3 : Site) (k1 : s1.isSegment = false) (k2 : s2.isSegment = true) (k3 : s3.isSegment = true)
    (hw : ¬ SameWay (s2.p0, s2.p1) (s3.p0, s3.p1)) (r2 : OnRight s1.p0 s2.p0 s2.p1) (r3 : OnRight s1.p0 s3.p0 s3.p1) :
    (∃ c, OneEvent c s1 s2 s3 ∧ TouchesAll c.x c.y c.lower (shape s1) (shape s2) (shape s3)) ∧
    (∃ c, OneEvent c s2 s1 s3 ∧ TouchesAll c.x c.y c.lower (shape s2) (shape s1) (shape s3)) ∧
    (∃ c, OneEvent c s2 s3 s1 ∧ TouchesAll c.x c.y c.lower (shape s2) (shape s3) (shape s1)) := by
  obtain ⟨⟨c1, e1, -, t1, -⟩, ⟨c2, e2, -, t2, -⟩, ⟨c3, e3, -, t3, -⟩⟩ := C94_pss s1 s2 s3 k1 k2 k3 hw r2 r3
  have hl := fun idx => pss_lazy s1 s2 s3 idx k2 k3 hw r2 r3
  exact ⟨⟨c1, one_of e1 (by simp [formCircle, lazyCircle, k1, k2, k3, hl]), t1⟩, ⟨c2, one_of e2 (by simp [formCircle, lazyCircle, k1, k2, k3, hl]), t2⟩,
    ⟨c3, one_of e3 (by simp [formCircle, lazyCircle, k1, k2, k3, hl]), t3⟩⟩

example : ¬ SameWay ((0, 0), (0, 7)) ((0, 0), (5, 1)) ∧ OnRight (3, -2) (0, 0) (0, 7) ∧ OnRight (3, -2) (0, 0) (5, 1) := by
  norm_num [OnRight, SameWay, Parallel, turn, pt]

/-- Three segments no two of which run the same way. -/
theorem C95_sss (s1 s2 s3 : Site) (k1 : s1.isSegment = true) (k2 : s2.isSegment = true) (k3 : s3.isSegment = true)
    (h12 : ¬ SameWay (s1.p0, s1.p1) (s2.p0, s2.p1)) (h13 : ¬ SameWay (s1.p0, s1.p1) (s3.p0, s3.p1))
    (h23 : ¬ SameWay (s2.p0, s2.p1) (s3.p0, s3.p1)) :
    ∃ c, OneEvent c s1 s2 s3 ∧ TouchesAll c.x c.y c.lower (shape s1) (shape s2) (shape s3) := by
  obtain ⟨c, e, h⟩ := C94_sss s1 s2 s3 k1 k2 k3 h12 h13 h23
  have e' : mpSss s1 s2 s3 = some c := by simpa [formCircle, k1, k2, k3] using e
  exact ⟨c, one_of e (by simp [formCircle, lazyCircle, k1, k2, k3, sss_lazy s1 s2 s3 (by rw [e']; rfl)]), (h _ _ _).2 ⟨rfl, rfl, rfl⟩⟩

example : ¬ SameWay ((0, 0), (0, 3)) ((0, 3), (4, 0)) ∧ ¬ SameWay ((0, 0), (0, 3)) ((4, 0), (0, 0)) ∧ ¬ SameWay ((0, 3), (4, 0)) ((4, 0), (0, 0)) := by
  norm_num [SameWay, Parallel]

end Verif.Properties.VoronoiLazy
