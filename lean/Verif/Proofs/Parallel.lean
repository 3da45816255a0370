import Mathlib.Tactic.FieldSimp
import Verif.Proofs.WindMap
/-!
# The winding number of a parallelogram
-/
namespace Verif.Parallel
open Verif.Spec Verif.Spec.Arb Verif.WindMap

/-- `X` as a function of the abscissas of the ends and the side of the edge the point is on. -/
def Y (u v x c : ℚ) : Int := if u ≤ x ∧ x < v ∧ 0 ≤ c then 1 else if v ≤ x ∧ x < u ∧ c ≤ 0 then -1 else 0

/-- The sum over the four sides; the point is `s` and `t` times the sides away from the first corner. -/
def W (a b x s t : ℚ) : Int := Y 0 a x t + Y a (a + b) x (1 - s) + Y (a + b) b x (1 - t) + Y b 0 x s

theorem Y_move (u v x c d : ℚ) : Y (u + d) (v + d) (x + d) c = Y u v x c := by
  unfold Y; simp only [add_le_add_iff_right, add_lt_add_iff_right]

theorem W_turn (a b x s t : ℚ) : W a b x s t = W b (-a) (x - a) t (1 - s) := by
  unfold W
  rw [← Y_move 0 b (x - a) (1 - s) a, ← Y_move b (b + -a) (x - a) (1 - t) a, ← Y_move (b + -a) (-a) (x - a) (1 - (1 - s)) a, ← Y_move (-a) 0 (x - a) t a]
  have e1 : x - a + a = x := by ring
  have e2 : b + -a + a = b := by ring
  have e3 : -a + a = 0 := by ring
  have e4 : 1 - (1 - s) = s := by ring
  rw [e1, e2, e3, e4, zero_add, add_comm b a]
  ring

/-- What is to be shown of the four sides. -/
def Good (a b x s t : ℚ) : Prop :=
  0 ≤ W a b x s t ∧ (W a b x s t ≠ 0 → 0 ≤ s ∧ s ≤ 1 ∧ 0 ≤ t ∧ t ≤ 1) ∧ (0 < s → s < 1 → 0 < t → t < 1 → 1 ≤ W a b x s t)

theorem good_turn {a b x s t : ℚ} (h : Good b (-a) (x - a) t (1 - s)) : Good a b x s t := by
  unfold Good at *
  rw [W_turn]
  refine ⟨h.1, fun w => ?_, fun h1 h2 h3 h4 => h.2.2 h3 h4 (by linarith) (by linarith)⟩
  obtain ⟨h1, h2, h3, h4⟩ := h.2.1 w
  exact ⟨by linarith, by linarith, h1, h2⟩

theorem good_pos {a b x s t : ℚ} (ha : 0 ≤ a) (hb : 0 ≤ b) (hne : 0 < a + b) (h : x = a * s + b * t) : Good a b x s t := by
  have w : W a b x s t = (if 0 ≤ x ∧ x < a ∧ 0 ≤ t then 1 else 0) + (if a ≤ x ∧ x < a + b ∧ s ≤ 1 then 1 else 0)
      - (if b ≤ x ∧ x < a + b ∧ 1 ≤ t then 1 else 0) - (if 0 ≤ x ∧ x < b ∧ s ≤ 0 then 1 else 0) := by
    unfold W Y
    rw [if_neg (c := a ≤ x ∧ x < 0 ∧ t ≤ 0) (by rintro ⟨h1, h2, -⟩; linarith), if_neg (c := a + b ≤ x ∧ x < a ∧ 1 - s ≤ 0) (by rintro ⟨h1, h2, -⟩; linarith),
      if_neg (c := a + b ≤ x ∧ x < b ∧ 0 ≤ 1 - t) (by rintro ⟨h1, h2, -⟩; linarith), if_neg (c := b ≤ x ∧ x < 0 ∧ 0 ≤ s) (by rintro ⟨h1, h2, -⟩; linarith)]
    simp only [sub_nonneg, sub_nonpos]
    have n : ∀ (p : Prop) [Decidable p], (if p then (-1 : Int) else 0) = -(if p then 1 else 0) := fun p _ => by split_ifs <;> rfl
    rw [n, n]; ring
  unfold Good
  by_cases h0 : 0 ≤ x ∧ x < a + b
  · obtain ⟨h0, h1⟩ := h0
    by_cases ha' : x < a
    · by_cases hb' : x < b
      · have w' : W a b x s t = (if 0 ≤ t then 1 else 0) - (if s ≤ 0 then 1 else 0) := by
          rw [w]; simp only [h0, ha', hb', h1, not_le.2 ha', not_le.2 hb', true_and, false_and, if_false]; ring
        rw [w']
        refine ⟨?_, ?_, fun h1 h2 h3 h4 => by rw [if_pos h3.le, if_neg (not_le.2 h1)]; rfl⟩
        · split_ifs with c1 c2 c2 <;> try simp
          nlinarith
        · split_ifs with c1 c2 c2 <;> try simp
          · exact ⟨by linarith, by nlinarith, c1, by nlinarith⟩
          · exact absurd c1 (not_not.2 (by nlinarith))
      · have hb'' := not_lt.1 hb'
        have w' : W a b x s t = (if 0 ≤ t then 1 else 0) - (if 1 ≤ t then 1 else 0) := by
          rw [w]; simp only [h0, ha', hb', h1, not_le.2 ha', hb'', true_and, false_and, and_false, if_false]; ring
        rw [w']
        refine ⟨?_, ?_, fun h1 h2 h3 h4 => by rw [if_pos h3.le, if_neg (not_le.2 h4)]; rfl⟩
        · split_ifs with c1 c2 c2 <;> try simp
          linarith
        · split_ifs with c1 c2 c2 <;> try simp
          · exact ⟨by nlinarith, by nlinarith, c1, by linarith⟩
          · exact absurd c1 (not_not.2 (by linarith))
    · have ha'' := not_lt.1 ha'
      by_cases hb' : x < b
      · have w' : W a b x s t = (if s ≤ 1 then 1 else 0) - (if s ≤ 0 then 1 else 0) := by
          rw [w]; simp only [h0, ha', hb', h1, not_le.2 hb', ha'', true_and, false_and, and_false, if_false]; ring
        rw [w']
        refine ⟨?_, ?_, fun h1 h2 h3 h4 => by rw [if_pos h2.le, if_neg (not_le.2 h1)]; rfl⟩
        · split_ifs with c1 c2 c2 <;> try simp
          linarith
        · split_ifs with c1 c2 c2 <;> try simp
          · exact ⟨by linarith, c1, by nlinarith, by nlinarith⟩
          · exact absurd c1 (not_not.2 (by linarith))
      · have hb'' := not_lt.1 hb'
        have w' : W a b x s t = (if s ≤ 1 then 1 else 0) - (if 1 ≤ t then 1 else 0) := by
          rw [w]; simp only [h0, ha', hb', h1, hb'', ha'', true_and, false_and, and_false, if_false]; ring
        rw [w']
        refine ⟨?_, ?_, fun h1 h2 h3 h4 => by rw [if_pos h2.le, if_neg (not_le.2 h4)]; rfl⟩
        · split_ifs with c1 c2 c2 <;> try simp
          nlinarith
        · split_ifs with c1 c2 c2 <;> try simp
          · exact ⟨by nlinarith, c1, by nlinarith, by linarith⟩
          · exact absurd c1 (not_not.2 (by nlinarith))
  · have w' : W a b x s t = 0 := by
      rw [w, if_neg (by rintro ⟨h1, h2, -⟩; exact h0 ⟨h1, by linarith⟩), if_neg (by rintro ⟨h1, h2, -⟩; exact h0 ⟨by linarith, h2⟩),
        if_neg (by rintro ⟨h1, h2, -⟩; exact h0 ⟨by linarith, h2⟩), if_neg (by rintro ⟨h1, h2, -⟩; exact h0 ⟨h1, by linarith⟩)]; rfl
    rw [w']
    refine ⟨le_refl _, fun h => absurd rfl h, fun h1 h2 h3 h4 => absurd ⟨by rw [h]; positivity, ?_⟩ h0⟩
    rw [h]
    rcases lt_or_eq_of_le ha with g | g
    · nlinarith
    · rw [← g] at hne ⊢; nlinarith

theorem good {a b x s t : ℚ} (hne : a ≠ 0 ∨ b ≠ 0) (h : x = a * s + b * t) : Good a b x s t := by
  rcases le_or_gt 0 a with ha | ha
  · rcases le_or_gt 0 b with hb | hb
    · refine good_pos ha hb ?_ h
      rcases hne with hn | hn
      · have := lt_of_le_of_ne ha hn.symm; linarith
      · have := lt_of_le_of_ne hb hn.symm; linarith
    · apply good_turn; apply good_turn; apply good_turn
      exact good_pos (by linarith) (by linarith) (by linarith) (by rw [h]; ring)
  · rcases le_or_gt 0 b with hb | hb
    · apply good_turn
      exact good_pos hb (by linarith) (by linarith) (by rw [h]; ring)
    · apply good_turn; apply good_turn
      exact good_pos (by linarith) (by linarith) (by linarith) (by rw [h]; ring)

theorem Y_scale {u v x c k : ℚ} (hk : 0 < k) : Y u v x (k * c) = Y u v x c := by
  unfold Y
  have h0 : 0 ≤ k * c ↔ 0 ≤ c := mul_nonneg_iff_of_pos_left hk
  have : k * c ≤ 0 ↔ c ≤ 0 := by
    constructor
    · intro h; nlinarith
    · intro h; nlinarith
  simp only [this, h0]

theorem X_Y (ax ay bx b' qx qy : ℚ) : X ax ay bx b' qx qy = Y ax bx qx (cr ax ay bx b' qx qy) := rfl

/-- The four corners: `o` moved by `b`, by nothing, by `a` and by both. -/
def corners (o a b : Int × Int) : List (Int × Int) := [(o.1 + b.1, o.2 + b.2), o, (o.1 + a.1, o.2 + a.2), (o.1 + a.1 + b.1, o.2 + a.2 + b.2)]

def det (a b : Int × Int) : Int := a.1 * b.2 - a.2 * b.1

theorem shoelace_corners (o a b : Int × Int) : shoelace (corners o a b) = 2 * det a b := by
  simp [shoelace, edges, corners, det]; ring

theorem wind_corners (o a b : Int × Int) (q : ℚ × ℚ) : windAt (corners o a b) q =
    X (o.1 + b.1) (o.2 + b.2) o.1 o.2 q.1 q.2 + X o.1 o.2 (o.1 + a.1) (o.2 + a.2) q.1 q.2 + X (o.1 + a.1) (o.2 + a.2) (o.1 + a.1 + b.1) (o.2 + a.2 + b.2) q.1 q.2
      + X (o.1 + a.1 + b.1) (o.2 + a.2 + b.2) (o.1 + b.1) (o.2 + b.2) q.1 q.2 := by
  simp [windAt, edges, corners, crossing_X]; ring

theorem wind_W {o a b : Int × Int} (hD : 0 < det a b) {q : ℚ × ℚ} {s t : ℚ} (h1 : q.1 = o.1 + s * a.1 + t * b.1) (h2 : q.2 = o.2 + s * a.2 + t * b.2) :
    windAt (corners o a b) q = W a.1 b.1 (q.1 - o.1) s t := by
  have hD' : (0 : ℚ) < a.1 * b.2 - a.2 * b.1 := by unfold det at hD; exact_mod_cast hD
  rw [wind_corners, X_Y, X_Y, X_Y, X_Y]
  have c1 : cr (o.1 + b.1) (o.2 + b.2) o.1 o.2 q.1 q.2 = (a.1 * b.2 - a.2 * b.1) * s := by unfold cr; rw [h1, h2]; ring
  have c2 : cr o.1 o.2 (o.1 + a.1) (o.2 + a.2) q.1 q.2 = (a.1 * b.2 - a.2 * b.1) * t := by unfold cr; rw [h1, h2]; ring
  have c3 : cr (o.1 + a.1) (o.2 + a.2) (o.1 + a.1 + b.1) (o.2 + a.2 + b.2) q.1 q.2 = (a.1 * b.2 - a.2 * b.1) * (1 - s) := by unfold cr; rw [h1, h2]; ring
  have c4 : cr (o.1 + a.1 + b.1) (o.2 + a.2 + b.2) (o.1 + b.1) (o.2 + b.2) q.1 q.2 = (a.1 * b.2 - a.2 * b.1) * (1 - t) := by unfold cr; rw [h1, h2]; ring
  rw [c1, c2, c3, c4, Y_scale hD', Y_scale hD', Y_scale hD', Y_scale hD']
  unfold W
  rw [← Y_move 0 a.1 (q.1 - o.1) t o.1, ← Y_move a.1 (a.1 + b.1) (q.1 - o.1) (1 - s) o.1, ← Y_move (a.1 + b.1) b.1 (q.1 - o.1) (1 - t) o.1, ← Y_move b.1 0 (q.1 - o.1) s o.1]
  have e1 : (a.1 + b.1 + o.1 : ℚ) = o.1 + a.1 + b.1 := by ring
  rw [sub_add_cancel, zero_add, e1, add_comm (a.1 : ℚ) o.1, add_comm (b.1 : ℚ) o.1]
  ring

/-- Every point is a combination of the sides of a parallelogram that has an area. -/
theorem coords {a b : Int × Int} (hD : det a b ≠ 0) (o : Int × Int) (q : ℚ × ℚ) : ∃ s t : ℚ, q.1 = o.1 + s * a.1 + t * b.1 ∧ q.2 = o.2 + s * a.2 + t * b.2 := by
  have hD' : (a.1 * b.2 - a.2 * b.1 : ℚ) ≠ 0 := by unfold det at hD; exact_mod_cast hD
  refine ⟨((q.1 - o.1) * b.2 - (q.2 - o.2) * b.1) / (a.1 * b.2 - a.2 * b.1), (a.1 * (q.2 - o.2) - a.2 * (q.1 - o.1)) / (a.1 * b.2 - a.2 * b.1), ?_, ?_⟩
  · rw [add_assoc, div_mul_eq_mul_div, div_mul_eq_mul_div, ← add_div, ← sub_eq_iff_eq_add', eq_div_iff hD']; ring
  · rw [add_assoc, div_mul_eq_mul_div, div_mul_eq_mul_div, ← add_div, ← sub_eq_iff_eq_add', eq_div_iff hD']; ring

/-- The winding number of a flat parallelogram is zero. -/
theorem wind_flat {o a b : Int × Int} (hD : det a b = 0) (q : ℚ × ℚ) : windAt (corners o a b) q = 0 := by
  have key : ∀ (dx dy m n : ℚ), 0 < dx → (a.1 : ℚ) = m * dx → (a.2 : ℚ) = m * dy → (b.1 : ℚ) = n * dx → (b.2 : ℚ) = n * dy → windAt (corners o a b) q = 0 := by
    intro dx dy m n hx h1 h2 h3 h4
    have e : ∀ ux k c K : ℚ, c = k * K → Y ux (ux + k * dx) q.1 c = if 0 ≤ K then (if ux ≤ q.1 then 1 else 0) - (if ux + k * dx ≤ q.1 then 1 else 0) else 0 := by
      intro ux k c K hc
      unfold Y
      rcases lt_trichotomy k 0 with hk | hk | hk
      · have : k * dx < 0 := mul_neg_of_neg_of_pos hk hx
        have hcK : c ≤ 0 ↔ 0 ≤ K := by
          rw [hc]; constructor
          · intro h; by_contra hn; nlinarith
          · intro h; nlinarith
        rw [if_neg (by rintro ⟨g1, g2, -⟩; linarith)]
        simp only [hcK]
        by_cases g : 0 ≤ K
        · by_cases g1 : ux ≤ q.1
          · rw [if_neg (by rintro ⟨-, g2, -⟩; linarith), if_pos g, if_pos g1, if_pos (by linarith)]; rfl
          · by_cases g2 : ux + k * dx ≤ q.1
            · rw [if_pos ⟨g2, by linarith, g⟩, if_pos g, if_neg g1, if_pos g2]; rfl
            · rw [if_neg (by rintro ⟨g3, -, -⟩; exact g2 g3), if_pos g, if_neg g1, if_neg g2]; rfl
        · rw [if_neg (by rintro ⟨-, -, g3⟩; exact g g3), if_neg g]
      · subst hk
        rw [zero_mul, add_zero, if_neg (by rintro ⟨g1, g2, -⟩; linarith), if_neg (by rintro ⟨g1, g2, -⟩; linarith), sub_self, ite_self]
      · have : 0 < k * dx := mul_pos hk hx
        have hcK : 0 ≤ c ↔ 0 ≤ K := by rw [hc]; exact mul_nonneg_iff_of_pos_left hk
        rw [if_neg (c := ux + k * dx ≤ q.1 ∧ q.1 < ux ∧ c ≤ 0) (by rintro ⟨g1, g2, -⟩; linarith)]
        simp only [hcK]
        by_cases g : 0 ≤ K
        · by_cases g1 : ux ≤ q.1
          · by_cases g2 : ux + k * dx ≤ q.1
            · rw [if_neg (by rintro ⟨-, g3, -⟩; linarith), if_pos g, if_pos g1, if_pos g2]; rfl
            · rw [if_pos ⟨g1, by linarith, g⟩, if_pos g, if_pos g1, if_neg g2]; rfl
          · rw [if_neg (by rintro ⟨g3, -, -⟩; exact g1 g3), if_pos g, if_neg g1, if_neg (by linarith)]; rfl
        · rw [if_neg (by rintro ⟨-, -, g3⟩; exact g g3), if_neg g]
    rw [wind_corners, X_Y, X_Y, X_Y, X_Y]
    have k1 := e (o.1 + b.1) (-n) (cr (o.1 + b.1) (o.2 + b.2) o.1 o.2 q.1 q.2) (dx * (q.2 - o.2) - dy * (q.1 - o.1)) (by unfold cr; rw [h3, h4]; ring)
    have k2 := e o.1 m (cr o.1 o.2 (o.1 + a.1) (o.2 + a.2) q.1 q.2) (dx * (q.2 - o.2) - dy * (q.1 - o.1)) (by unfold cr; rw [h1, h2]; ring)
    have k3 := e (o.1 + a.1) n (cr (o.1 + a.1) (o.2 + a.2) (o.1 + a.1 + b.1) (o.2 + a.2 + b.2) q.1 q.2) (dx * (q.2 - o.2) - dy * (q.1 - o.1)) (by unfold cr; rw [h1, h2, h3, h4]; ring)
    have k4 := e (o.1 + a.1 + b.1) (-m) (cr (o.1 + a.1 + b.1) (o.2 + a.2 + b.2) (o.1 + b.1) (o.2 + b.2) q.1 q.2) (dx * (q.2 - o.2) - dy * (q.1 - o.1)) (by unfold cr; rw [h1, h2, h3, h4]; ring)
    have r1 : (o.1 + b.1 + -n * dx : ℚ) = o.1 := by rw [h3]; ring
    have r4 : (o.1 + a.1 + b.1 + -m * dx : ℚ) = o.1 + b.1 := by rw [h1]; ring
    rw [r1] at k1
    rw [← h1] at k2
    rw [← h3] at k3
    rw [r4] at k4
    rw [k1, k2, k3, k4]
    split_ifs <;> rfl
  have hD' : (a.1 * b.2 - a.2 * b.1 : ℚ) = 0 := by unfold det at hD; exact_mod_cast hD
  rcases lt_trichotomy (a.1 : ℚ) 0 with ha | ha | ha
  · have ha0 := ha.ne
    exact key (-a.1) (-a.2) (-1) (-b.1 / a.1) (by linarith) (by ring) (by ring) (by field_simp) (by field_simp; linarith)
  · rcases lt_trichotomy (b.1 : ℚ) 0 with hb | hb | hb
    · have : (a.2 : ℚ) = 0 := by
        rw [ha, zero_mul, zero_sub, neg_eq_zero] at hD'
        exact (mul_eq_zero.1 hD').resolve_right hb.ne
      exact key (-b.1) (-b.2) 0 (-1) (by linarith) (by rw [ha]; ring) (by rw [this]; ring) (by ring) (by ring)
    · rw [wind_corners, ha, hb]
      unfold X
      simp only [add_zero]
      have n : ∀ p : Prop, ¬ ((o.1 : ℚ) ≤ q.1 ∧ q.1 < o.1 ∧ p) := by rintro p ⟨g1, g2, -⟩; linarith
      simp only [n, if_false]; rfl
    · have : (a.2 : ℚ) = 0 := by
        rw [ha, zero_mul, zero_sub, neg_eq_zero] at hD'
        exact (mul_eq_zero.1 hD').resolve_right hb.ne'
      exact key b.1 b.2 0 1 hb (by rw [ha]; ring) (by rw [this]; ring) (by ring) (by ring)
  · have ha0 := ha.ne'
    exact key a.1 a.2 1 (b.1 / a.1) ha (by ring) (by ring) (by field_simp) (by field_simp; linarith)

/-- Exchanging the sides turns the parallelogram around. -/
theorem wind_swap (o a b : Int × Int) (q : ℚ × ℚ) : windAt (corners o b a) q = - windAt (corners o a b) q := by
  have e1 : (o.1 + b.1 + a.1 : ℚ) = o.1 + a.1 + b.1 := by ring
  have e2 : (o.2 + b.2 + a.2 : ℚ) = o.2 + a.2 + b.2 := by ring
  rw [wind_corners, wind_corners, e1, e2]
  have k1 := X_swap o.1 o.2 (o.1 + a.1) (o.2 + a.2) q.1 q.2
  have k2 := X_swap o.1 o.2 (o.1 + b.1) (o.2 + b.2) q.1 q.2
  have k3 := X_swap (o.1 + a.1) (o.2 + a.2) (o.1 + a.1 + b.1) (o.2 + a.2 + b.2) q.1 q.2
  have k4 := X_swap (o.1 + b.1) (o.2 + b.2) (o.1 + a.1 + b.1) (o.2 + a.2 + b.2) q.1 q.2
  linarith

/-- A parallelogram adds to the depth of a set nowhere less than nothing, only in its own points something, and in its interior at least one. -/
theorem depth_corners (o a b : Int × Int) (q : ℚ × ℚ) : 0 ≤ orient (corners o a b) * windAt (corners o a b) q ∧
    (orient (corners o a b) * windAt (corners o a b) q ≠ 0 → ∃ s t : ℚ, 0 ≤ s ∧ s ≤ 1 ∧ 0 ≤ t ∧ t ≤ 1 ∧ q.1 = o.1 + s * a.1 + t * b.1 ∧ q.2 = o.2 + s * a.2 + t * b.2) ∧
    (∀ s t : ℚ, 0 < s → s < 1 → 0 < t → t < 1 → det a b ≠ 0 → q.1 = o.1 + s * a.1 + t * b.1 → q.2 = o.2 + s * a.2 + t * b.2 →
      1 ≤ orient (corners o a b) * windAt (corners o a b) q) := by
  have pos : ∀ a b : Int × Int, 0 < det a b → 0 ≤ windAt (corners o a b) q ∧
      (windAt (corners o a b) q ≠ 0 → ∃ s t : ℚ, 0 ≤ s ∧ s ≤ 1 ∧ 0 ≤ t ∧ t ≤ 1 ∧ q.1 = o.1 + s * a.1 + t * b.1 ∧ q.2 = o.2 + s * a.2 + t * b.2) ∧
      (∀ s t : ℚ, 0 < s → s < 1 → 0 < t → t < 1 → q.1 = o.1 + s * a.1 + t * b.1 → q.2 = o.2 + s * a.2 + t * b.2 → 1 ≤ windAt (corners o a b) q) := by
    intro a b hD
    have hne : (a.1 : ℚ) ≠ 0 ∨ (b.1 : ℚ) ≠ 0 := by
      by_contra hn
      push Not at hn
      have h1 : a.1 = 0 := by exact_mod_cast hn.1
      have h2 : b.1 = 0 := by exact_mod_cast hn.2
      unfold det at hD
      rw [h1, h2] at hD; simp at hD
    have g : ∀ s t : ℚ, q.1 = o.1 + s * a.1 + t * b.1 → q.2 = o.2 + s * a.2 + t * b.2 → Good a.1 b.1 (q.1 - o.1) s t ∧ windAt (corners o a b) q = W a.1 b.1 (q.1 - o.1) s t :=
      fun s t h1 h2 => ⟨good hne (by rw [h1]; ring), wind_W hD h1 h2⟩
    obtain ⟨s, t, h1, h2⟩ := coords hD.ne' o q
    obtain ⟨⟨g1, g2, g3⟩, hw⟩ := g s t h1 h2
    refine ⟨by rw [hw]; exact g1, fun h => ?_, fun s t s1 s2 t1 t2 h1 h2 => ?_⟩
    · rw [hw] at h
      obtain ⟨k1, k2, k3, k4⟩ := g2 h
      exact ⟨s, t, k1, k2, k3, k4, h1, h2⟩
    · obtain ⟨⟨-, -, g3⟩, hw⟩ := g s t h1 h2
      rw [hw]; exact g3 s1 s2 t1 t2
  rcases lt_trichotomy (det a b) 0 with hD | hD | hD
  · have ho : orient (corners o a b) = -1 := by unfold orient; rw [shoelace_corners, if_neg (by omega)]
    have hw : orient (corners o a b) * windAt (corners o a b) q = windAt (corners o b a) q := by rw [ho, wind_swap o a b]; ring
    obtain ⟨p1, p2, p3⟩ := pos b a (by unfold det at *; linarith [mul_comm b.1 a.2, mul_comm b.2 a.1])
    rw [hw]
    refine ⟨p1, fun h => ?_, fun s t s1 s2 t1 t2 _ h1 h2 => p3 t s t1 t2 s1 s2 (by rw [h1]; ring) (by rw [h2]; ring)⟩
    obtain ⟨s, t, k1, k2, k3, k4, k5, k6⟩ := p2 h
    exact ⟨t, s, k3, k4, k1, k2, by rw [k5]; ring, by rw [k6]; ring⟩
  · rw [wind_flat hD, mul_zero]
    exact ⟨le_refl _, fun h => absurd rfl h, fun s t _ _ _ _ h => absurd hD h⟩
  · have ho : orient (corners o a b) = 1 := by unfold orient; rw [shoelace_corners, if_pos (by omega)]
    rw [ho, one_mul]
    obtain ⟨p1, p2, p3⟩ := pos a b hD
    exact ⟨p1, p2, fun s t s1 s2 t1 t2 _ => p3 s t s1 s2 t1 t2⟩

/-- A point of a flat parallelogram is on one of its sides. -/
theorem flat_rim {a b : Int × Int} (hD : det a b = 0) {s t : ℚ} (s1 : 0 ≤ s) (s2 : s ≤ 1) (t1 : 0 ≤ t) (t2 : t ≤ 1) :
    ∃ s' t' : ℚ, 0 ≤ s' ∧ s' ≤ 1 ∧ 0 ≤ t' ∧ t' ≤ 1 ∧ (s' = 0 ∨ s' = 1 ∨ t' = 0 ∨ t' = 1) ∧ s * a.1 + t * b.1 = s' * a.1 + t' * b.1 ∧ s * a.2 + t * b.2 = s' * a.2 + t' * b.2 := by
  have hD' : (a.1 * b.2 - a.2 * b.1 : ℚ) = 0 := by unfold det at hD; exact_mod_cast hD
  -- the sides are multiples of one another
  have key : ∀ (ax ay bx b' s t c : ℚ), 0 ≤ s → s ≤ 1 → 0 ≤ t → t ≤ 1 → bx = c * ax → b' = c * ay →
      ∃ s' t' : ℚ, 0 ≤ s' ∧ s' ≤ 1 ∧ 0 ≤ t' ∧ t' ≤ 1 ∧ (s' = 0 ∨ s' = 1 ∨ t' = 0 ∨ t' = 1) ∧ s * ax + t * bx = s' * ax + t' * bx ∧ s * ay + t * b' = s' * ay + t' * b' := by
    intro ax ay bx b' s t c s1 s2 t1 t2 h1 h2
    by_cases hc : 0 ≤ c
    · by_cases hm : s ≤ c * (1 - t)
      · rcases eq_or_lt_of_le hc with h0 | h0
        · exact ⟨s, 0, s1, s2, by norm_num, by norm_num, by simp, by rw [h1, ← h0]; ring, by rw [h2, ← h0]; ring⟩
        · have : 0 ≤ s / c := div_nonneg s1 hc
          refine ⟨0, t + s / c, by norm_num, by norm_num, by linarith, ?_, by simp, by rw [h1]; field_simp; ring, by rw [h2]; field_simp; ring⟩
          have : s / c ≤ 1 - t := by rw [div_le_iff₀ h0]; linarith
          linarith
      · refine ⟨s - c * (1 - t), 1, by linarith, ?_, by norm_num, by norm_num, by simp, by rw [h1]; ring, by rw [h2]; ring⟩
        have := mul_nonneg hc (show 0 ≤ 1 - t by linarith)
        linarith
    · have hc' : c < 0 := not_le.1 hc
      have hc0 := hc'.ne
      by_cases hm : s ≤ -c * t
      · have : 0 ≤ s / -c := div_nonneg s1 (by linarith)
        have h3 : s / -c ≤ t := by rw [div_le_iff₀ (by linarith)]; linarith
        refine ⟨0, t - s / -c, by norm_num, by norm_num, by linarith, by linarith, by simp, ?_, ?_⟩
        · rw [h1]; field_simp; ring
        · rw [h2]; field_simp; ring
      · refine ⟨s + c * t, 0, by linarith, by nlinarith, by norm_num, by norm_num, by simp, by rw [h1]; ring, by rw [h2]; ring⟩
  by_cases h0 : (a.1 : ℚ) = 0
  · by_cases h0' : (a.2 : ℚ) = 0
    · exact ⟨0, t, by norm_num, by norm_num, t1, t2, by simp, by rw [h0]; ring, by rw [h0']; ring⟩
    · refine key _ _ _ _ s t (b.2 / a.2) s1 s2 t1 t2 ?_ (by field_simp)
      rw [h0, mul_zero]
      rw [h0, zero_mul, zero_sub, neg_eq_zero] at hD'
      exact (mul_eq_zero.1 hD').resolve_left h0'
  · exact key _ _ _ _ s t (b.1 / a.1) s1 s2 t1 t2 (by field_simp) (by field_simp; linarith)

end Verif.Parallel
