import Verif.Spec.Beach
import Verif.Proofs.Circle
/-!
# Arcs of the beach line as functions of the height
-/
namespace Verif.BeachProofs
open Verif.Spec.Circle Verif.Spec.Beach Verif.CircleProofs

/-- Offset of the arc of a point from the sweep line at `w`. -/
noncomputable def tP (sx sy w y : ℝ) : ℝ := ((sx - w) * (sx - w) + (sy - y) * (sy - y)) / (2 * (sx - w))

/-- Offset of the arc of a segment from `(sx, sy)` with direction `(a, b)` and length `len`. -/
noncomputable def tS (sx sy a b len w y : ℝ) : ℝ := (a * (y - sy) - b * (w - sx)) / (len + b)

theorem arc_point {p : Int × Int} {w X y : ℝ} (h : (p.1 : ℝ) < w) : OnArc w (X, y) (.point p) ↔ X - w = tP p.1 p.2 w y := by
  have hD : (p.1 : ℝ) - w < 0 := by linarith
  have h2 : 2 * ((p.1 : ℝ) - w) < 0 := by linarith
  unfold OnArc tP
  rw [eq_div_iff h2.ne]
  constructor
  · intro e
    unfold away pt at e
    dsimp only at e
    have h0 : 0 ≤ (X - (p.1 : ℝ)) ^ 2 + (y - p.2) ^ 2 := add_nonneg (sq_nonneg _) (sq_nonneg _)
    have := Real.sq_sqrt h0
    rw [e] at this
    nlinarith
  · intro e
    apply away_eq
    · by_contra hc; push Not at hc
      have : (X - w) * (2 * ((p.1 : ℝ) - w)) < 0 := mul_neg_of_pos_of_neg (by dsimp only at hc; linarith) h2
      nlinarith [mul_self_nonneg ((p.1 : ℝ) - w), mul_self_nonneg ((p.2 : ℝ) - y)]
    · unfold pt; dsimp only; nlinarith

/-- The length of a segment. -/
theorem away_pos {s e : Int × Int} (h : s ≠ e) :
    0 < away (pt s) (pt e) ∧ away (pt s) (pt e) * away (pt s) (pt e) = ((e.1 : ℝ) - s.1) * (e.1 - s.1) + ((e.2 : ℝ) - s.2) * (e.2 - s.2) := by
  have h0 : 0 ≤ ((pt s).1 - (pt e).1) ^ 2 + ((pt s).2 - (pt e).2) ^ 2 := add_nonneg (sq_nonneg _) (sq_nonneg _)
  have hs := Real.sq_sqrt h0
  refine ⟨?_, by unfold away; rw [← sq, hs]; unfold pt; dsimp only; ring⟩
  unfold away
  rw [Real.sqrt_pos]
  rcases h0.lt_or_eq with h' | h'
  · exact h'
  · exfalso
    apply h
    have a1 : (pt s).1 - (pt e).1 = 0 := by nlinarith [sq_nonneg ((pt s).1 - (pt e).1), sq_nonneg ((pt s).2 - (pt e).2)]
    have a2 : (pt s).2 - (pt e).2 = 0 := by nlinarith [sq_nonneg ((pt s).1 - (pt e).1), sq_nonneg ((pt s).2 - (pt e).2)]
    unfold pt at a1 a2
    dsimp only at a1 a2
    exact Prod.ext (by exact_mod_cast sub_eq_zero.1 a1) (by exact_mod_cast sub_eq_zero.1 a2)

theorem len_b {a b len : ℝ} (h0 : 0 < len) (h : len * len = a * a + b * b) : 0 ≤ len + b := by
  by_contra hc; push Not at hc
  nlinarith [mul_self_nonneg a]

theorem arc_line {s e : Int × Int} {w X y : ℝ} (hne : s ≠ e) (h : OnArc w (X, y) (.line s e)) :
    (X - w) * (away (pt s) (pt e) + ((e.2 : ℝ) - s.2)) = ((e.1 : ℝ) - s.1) * (y - s.2) - ((e.2 : ℝ) - s.2) * (w - s.1) ∧ X ≤ w := by
  obtain ⟨h1, h2, -⟩ := h
  refine ⟨?_, h2⟩
  unfold rightDist at h1
  rw [div_eq_iff (away_pos hne).1.ne'] at h1
  unfold turn at h1
  unfold pt at h1 ⊢
  dsimp only at h1 ⊢
  linarith

/-- A segment behind the sweep line with an arc does not run straight down. -/
theorem arc_behind {s e : Int × Int} {w : Int} {X y : ℝ} (hb : Behind w (.line s e)) (h : OnArc (w : ℝ) (X, y) (.line s e)) :
    0 < away (pt s) (pt e) + ((e.2 : ℝ) - s.2) ∧ X - w = tS s.1 s.2 (e.1 - s.1) (e.2 - s.2) (away (pt s) (pt e)) w y := by
  obtain ⟨p0, p1⟩ := away_pos hb.1
  obtain ⟨h1, -⟩ := arc_line hb.1 h
  have hp : 0 < away (pt s) (pt e) + ((e.2 : ℝ) - s.2) := by
    rcases (len_b p0 p1).lt_or_eq with h' | h'
    · exact h'
    · exfalso
      have ha : ((e.1 : ℝ) - s.1) = 0 := by nlinarith
      rw [← h', ha] at h1
      have hb0 : ((e.2 : ℝ) - s.2) ≠ 0 := by linarith
      have : ((e.2 : ℝ) - s.2) * ((w : ℝ) - s.1) = 0 := by linarith
      rcases mul_eq_zero.1 this with h | h
      · exact hb0 h
      · have e1 : w = s.1 := by exact_mod_cast sub_eq_zero.1 h
        have e2 : e.1 = s.1 := by exact_mod_cast sub_eq_zero.1 ha
        rcases hb.2 with h | h <;> omega
  refine ⟨hp, ?_⟩
  unfold tS
  rw [eq_div_iff hp.ne', h1]

/-- From front to behind: the slope at the change is negative. -/
theorem falls {α δ ε : ℝ} (hε : 0 < ε) (h : ∀ h, 0 < h → h < ε → 0 < -h * (α * -h + δ) ∧ h * (α * h + δ) < 0) : δ < 0 := by
  obtain ⟨h1, h2⟩ := h (ε / 2) (by linarith) (by linarith)
  have : 0 < ε / 2 := by linarith
  have a1 : α * -(ε / 2) + δ < 0 := by by_contra hc; push Not at hc; nlinarith
  have a2 : α * (ε / 2) + δ < 0 := by by_contra hc; push Not at hc; nlinarith
  linarith

theorem falls_above {α δ ε : ℝ} (hε : 0 < ε) (h : ∀ h, 0 < h → h < ε → h * (α * h + δ) < 0) : δ ≤ 0 := by
  by_contra hc; push Not at hc
  by_cases ha : 0 ≤ α
  · have := h (ε / 2) (by linarith) (by linarith)
    have : 0 ≤ α * (ε / 2) := mul_nonneg ha (by linarith)
    nlinarith
  · push Not at ha
    obtain ⟨k, k0, k1, k2⟩ : ∃ k, 0 < k ∧ k < ε ∧ k * -α ≤ δ / 2 := by
      refine ⟨min (ε / 2) (δ / (2 * -α)), ?_, ?_, ?_⟩
      · exact lt_min (by linarith) (div_pos hc (by linarith))
      · exact lt_of_le_of_lt (min_le_left _ _) (by linarith)
      · calc min (ε / 2) (δ / (2 * -α)) * -α ≤ δ / (2 * -α) * -α := mul_le_mul_of_nonneg_right (min_le_right _ _) (by linarith)
          _ = δ / 2 := by rw [div_mul_eq_mul_div, mul_div_mul_right _ _ (by linarith : -α ≠ 0)]
    have := h k k0 k1
    nlinarith

theorem falls_below {α δ ε : ℝ} (hε : 0 < ε) (h : ∀ h, 0 < h → h < ε → -h * (α * -h + δ) < 0) : 0 ≤ δ := by
  have := falls_above (α := α) (δ := -δ) hε (fun k h0 h1 => by have := h k h0 h1; nlinarith)
  linarith

/-- Difference of the arcs of two points, around a height. -/
theorem pp_expand {lx ly rx ry w : ℝ} (Y : ℝ) :
    ∀ y, tP lx ly w y - tP rx ry w y = tP lx ly w Y - tP rx ry w Y +
      (y - Y) * ((1 / (2 * (lx - w)) - 1 / (2 * (rx - w))) * (y - Y) + (2 * (Y - ly) * (1 / (2 * (lx - w))) - 2 * (Y - ry) * (1 / (2 * (rx - w))))) := by
  intro y
  unfold tP
  rw [div_eq_mul_one_div, div_eq_mul_one_div _ (2 * (rx - w)), div_eq_mul_one_div ((lx - w) * (lx - w) + (ly - Y) * (ly - Y)),
    div_eq_mul_one_div ((rx - w) * (rx - w) + (ry - Y) * (ry - Y))]
  ring

/-- Difference of the arcs of a point and a segment. -/
theorem ps_expand {sx sy w x0 y0 a b len : ℝ} (Y : ℝ) :
    ∀ y, tP sx sy w y - tS x0 y0 a b len w y = tP sx sy w Y - tS x0 y0 a b len w Y +
      (y - Y) * (1 / (2 * (sx - w)) * (y - Y) + (2 * (Y - sy) * (1 / (2 * (sx - w))) - a * (1 / (len + b)))) := by
  intro y
  unfold tP tS
  rw [div_eq_mul_one_div, div_eq_mul_one_div _ (len + b), div_eq_mul_one_div ((sx - w) * (sx - w) + (sy - Y) * (sy - Y)),
    div_eq_mul_one_div (a * (Y - y0) - b * (w - x0))]
  ring

theorem ss_expand {x0 y0 a b len x1 y1 c d len' w : ℝ} (Y : ℝ) :
    ∀ y, tS x0 y0 a b len w y - tS x1 y1 c d len' w y = tS x0 y0 a b len w Y - tS x1 y1 c d len' w Y +
      (y - Y) * (a * (1 / (len + b)) - c * (1 / (len' + d))) := by
  intro y
  unfold tS
  rw [div_eq_mul_one_div, div_eq_mul_one_div _ (len' + d), div_eq_mul_one_div (a * (Y - y0) - b * (w - x0)),
    div_eq_mul_one_div (c * (Y - y1) - d * (w - x1))]
  ring

/-- Nearer points have their arcs in front at their own height. -/
theorem tP_own {lx ly rx ry w : ℝ} (hl : lx < w) (hrl : rx < lx) : tP rx ry w ly < tP lx ly w ly := by
  have h1 : tP lx ly w ly = (lx - w) / 2 := by
    unfold tP
    rw [div_eq_div_iff (by linarith) two_ne_zero]; ring
  have h2 : tP rx ry w ly ≤ (rx - w) / 2 := by
    unfold tP
    rw [div_le_iff_of_neg (by linarith)]
    nlinarith [mul_self_nonneg (ry - ly)]
  linarith

/-- Left of the sweep line, the arc of a nearer point against that of a farther one. -/
theorem pp_down {α δ u v : ℝ} (hα : α < 0) (hδ : δ < 0) (hu : 0 < u * (α * u + δ)) :
    u < 0 ∧ (u < v → (v * (α * v + δ) < 0 ↔ 0 < v)) := by
  have u0 : u < 0 := by
    by_contra hc; push Not at hc
    have := mul_nonneg_of_nonpos_of_nonpos hα.le (neg_nonpos.2 hc)
    nlinarith
  refine ⟨u0, fun huv => ⟨fun h => ?_, fun h => ?_⟩⟩
  · by_contra hc; push Not at hc
    have a1 : α * u + δ < 0 := by by_contra hc'; push Not at hc'; nlinarith
    have a2 : α * v + δ < 0 := by nlinarith
    nlinarith
  · have := mul_neg_of_neg_of_pos hα h
    nlinarith

theorem pp_up {α δ u v : ℝ} (hα : 0 < α) (hδ : δ < 0) (hu : u * (α * u + δ) < 0) :
    0 < u ∧ (v < u → (v * (α * v + δ) < 0 ↔ 0 < v)) := by
  have u0 : 0 < u := by
    by_contra hc; push Not at hc
    have := mul_nonneg hα.le (neg_nonneg.2 hc)
    nlinarith
  refine ⟨u0, fun huv => ⟨fun h => ?_, fun h => ?_⟩⟩
  · by_contra hc; push Not at hc
    have := mul_nonneg hα.le (neg_nonneg.2 hc)
    nlinarith
  · have a1 : α * u + δ < 0 := by by_contra hc'; push Not at hc'; nlinarith
    have a2 : α * v + δ < 0 := by nlinarith
    nlinarith

/-- The height at which the arc of a point is farthest in front of the line, in the terms of the fast test. -/
theorem fast_form {a b len dx dy : ℝ} (hl : len * len = a * a + b * b) :
    (len + b) * (a * (dy + dx) * (dy - dx) - 2 * b * dx * dy) = (a * dy - b * dx - len * dx) * (dy * (len + b) + a * dx) := by
  linear_combination (dy * dx) * hl

end Verif.BeachProofs
