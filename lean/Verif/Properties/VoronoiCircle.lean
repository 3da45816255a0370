import Verif.Proofs.CircleCross
import Verif.Proofs.CircleEval
/-!
# C94: circle events touch their three sites
-/
namespace Verif.Properties.VoronoiCircle
open Verif.Voronoi Verif.Spec.Circle Verif.CircleProofs Verif.Robust Verif.Properties.Robust

/-- The point or directed line of a site. -/
def shape (s : Site) : Shape := if s.isSegment then .line s.p0 s.p1 else .point s.p0

theorem shape_point {s : Site} (h : s.isSegment = false) : shape s = .point s.p0 := by simp [shape, h]
theorem shape_line {s : Site} (h : s.isSegment = true) : shape s = .line s.p0 s.p1 := by simp [shape, h]

theorem seg_ne {s : Site} (h : s.isSegment = true) : s.p0 ≠ s.p1 := by
  intro e; simp [Site.isSegment, e] at h

theorem len_pos {p q : Int × Int} (h : p ≠ q) : 0 < (q.2 - p.2) * (q.2 - p.2) + (q.1 - p.1) * (q.1 - p.1) := by
  by_contra hc
  apply h
  have a1 : q.1 - p.1 = 0 := by nlinarith [mul_self_nonneg (q.1 - p.1), mul_self_nonneg (q.2 - p.2)]
  have a2 : q.2 - p.2 = 0 := by nlinarith [mul_self_nonneg (q.1 - p.1), mul_self_nonneg (q.2 - p.2)]
  exact Prod.ext (by omega) (by omega)

theorem away_sq (p q : Int × Int) : away (pt p) (pt q) = Real.sqrt (((q.2 - p.2) * (q.2 - p.2) + (q.1 - p.1) * (q.1 - p.1) : Int) : ℝ) := by
  unfold away pt; push_cast; congr 1; ring

theorem sq_zero {a b : Int} (e : a * a + b * b = 0) : a = 0 ∧ b = 0 := by
  constructor <;> nlinarith [mul_self_nonneg a, mul_self_nonneg b]

/-- C94, three points that turn to the right: the event is a circle through the three of them. -/
theorem C94_ppp (s1 s2 s3 : Site) (k1 : s1.isSegment = false) (k2 : s2.isSegment = false) (k3 : s3.isSegment = false)
    (h : turn (pt s1.p0) (pt s2.p0) (pt s3.p0) < 0) :
    ∃ c, formCircle s1 s2 s3 = some c ∧ 0 < c.lower - c.x ∧
      TouchesAll c.x c.y c.lower (shape s1) (shape s2) (shape s3) ∧ Clockwise c.x c.y (shape s1) (shape s2) (shape s3) := by
  obtain ⟨D, hD⟩ : ∃ z : Int, z = (s1.p0.1 - s2.p0.1) * (s2.p0.2 - s3.p0.2) - (s2.p0.1 - s3.p0.1) * (s1.p0.2 - s2.p0.2) := ⟨_, rfl⟩
  have hDr : (D : ℝ) = turn (pt s1.p0) (pt s2.p0) (pt s3.p0) := by rw [hD]; unfold turn pt; push_cast; ring
  have hDneg : (D : ℝ) < 0 := by rw [hDr]; exact h
  have hD0 : (D : ℝ) ≠ 0 := hDneg.ne
  obtain ⟨inv, hinv⟩ : ∃ z : ℝ, z = 1 / 2 / (D : ℝ) := ⟨_, rfl⟩
  have hi : 2 * (D : ℝ) * inv = 1 := by rw [hinv]; field_simp
  have hinvneg : inv < 0 := by rw [hinv]; exact div_neg_of_pos_of_neg (by norm_num) hDneg
  obtain ⟨n1, hn1⟩ : ∃ z : Int, z = (s1.p0.1 - s2.p0.1) * (s1.p0.1 + s2.p0.1) + (s1.p0.2 - s2.p0.2) * (s1.p0.2 + s2.p0.2) := ⟨_, rfl⟩
  obtain ⟨n2, hn2⟩ : ∃ z : Int, z = (s2.p0.1 - s3.p0.1) * (s2.p0.1 + s3.p0.1) + (s2.p0.2 - s3.p0.2) * (s2.p0.2 + s3.p0.2) := ⟨_, rfl⟩
  obtain ⟨sq, hsq⟩ : ∃ z : Int, z = ((s1.p0.1 - s2.p0.1) * (s1.p0.1 - s2.p0.1) + (s1.p0.2 - s2.p0.2) * (s1.p0.2 - s2.p0.2)) *
    ((s2.p0.1 - s3.p0.1) * (s2.p0.1 - s3.p0.1) + (s2.p0.2 - s3.p0.2) * (s2.p0.2 - s3.p0.2)) *
    ((s1.p0.1 - s3.p0.1) * (s1.p0.1 - s3.p0.1) + (s1.p0.2 - s3.p0.2) * (s1.p0.2 - s3.p0.2)) := ⟨_, rfl⟩
  have hsq0 : 0 ≤ sq := by
    rw [hsq]
    refine mul_nonneg (mul_nonneg ?_ ?_) ?_ <;> exact add_nonneg (mul_self_nonneg _) (mul_self_nonneg _)
  have core := ppp_core (x1 := (s1.p0.1 : ℝ)) (y1 := s1.p0.2) (x2 := s2.p0.1) (y2 := s2.p0.2) (x3 := s3.p0.1) (y3 := s3.p0.2)
    (inv := inv) (n1 := n1) (n2 := n2) (D := D) (by rw [hD]; push_cast; ring) hi (by rw [hn1]; push_cast; ring) (by rw [hn2]; push_cast; ring)
  have hr : Real.sqrt sq * Real.sqrt sq = sq := sqrt_self hsq0
  have hsqR : (sq : ℝ) = (((s1.p0.1 : ℝ) - s2.p0.1) * (s1.p0.1 - s2.p0.1) + (s1.p0.2 - s2.p0.2) * (s1.p0.2 - s2.p0.2)) *
    (((s2.p0.1 : ℝ) - s3.p0.1) * (s2.p0.1 - s3.p0.1) + (s2.p0.2 - s3.p0.2) * (s2.p0.2 - s3.p0.2)) *
    (((s1.p0.1 : ℝ) - s3.p0.1) * (s1.p0.1 - s3.p0.1) + (s1.p0.2 - s3.p0.2) * (s1.p0.2 - s3.p0.2)) := by rw [hsq]; push_cast; ring
  have hsqpos : (0 : ℝ) < sq := by
    rcases (Int.cast_nonneg (R := ℝ) hsq0).lt_or_eq with q | q
    · exact q
    · exfalso
      have hz : sq = 0 := by exact_mod_cast q.symm
      have e : D = 0 := by
        rw [hsq] at hz
        rcases mul_eq_zero.1 hz with hz | hz
        · rcases mul_eq_zero.1 hz with hz | hz
          · obtain ⟨e1, e2⟩ := sq_zero hz; rw [hD, e1, e2]; ring
          · obtain ⟨e1, e2⟩ := sq_zero hz; rw [hD, e1, e2]; ring
        · obtain ⟨e1, e2⟩ := sq_zero hz
          rw [hD, show s1.p0.1 = s3.p0.1 by omega, show s1.p0.2 = s3.p0.2 by omega]; ring
      rw [e] at hD0; simp at hD0
  have hrpos : 0 < Real.sqrt sq := Real.sqrt_pos.2 hsqpos
  refine ⟨⟨((n1 * (s2.p0.2 - s3.p0.2) - n2 * (s1.p0.2 - s2.p0.2) : Int) : ℝ) * inv,
    ((n2 * (s1.p0.1 - s2.p0.1) - n1 * (s2.p0.1 - s3.p0.1) : Int) : ℝ) * inv,
    ((n1 * (s2.p0.2 - s3.p0.2) - n2 * (s1.p0.2 - s2.p0.2) : Int) : ℝ) * inv - Real.sqrt sq * inv⟩, ?_, ?_, ?_, ?_⟩
  · unfold formCircle
    simp only [k1, k2, k3, Bool.not_false, if_true]
    unfold mpPpp
    simp only [← hn1, ← hn2, ← hsq, ← hD]
    rw [divE_some hD0]
    simp only [Option.bind_eq_bind, Option.bind_some, ← hinv]
    obtain ⟨cx, hcx⟩ : ∃ z : Int, z = n1 * (s2.p0.2 - s3.p0.2) - n2 * (s1.p0.2 - s2.p0.2) := ⟨_, rfl⟩
    rw [← hcx]
    by_cases hx : (cx : ℝ) * inv < 0
    · rw [if_neg (not_not.2 hx)]
      have hc : 0 < (cx : ℝ) := by
        by_contra hc; push Not at hc
        exact absurd (mul_nonneg_of_nonpos_of_nonpos hc hinvneg.le) (not_le.2 hx)
      rw [divE_of (z := (cx : ℝ) * inv - Real.sqrt sq * inv) (by linarith : (cx : ℝ) + Real.sqrt sq ≠ 0)
        (by push_cast; linear_combination (inv) * hr)]
      rfl
    · rw [if_pos hx, if_neg (not_not.2 hinvneg)]
      rfl
  · dsimp only
    have : Real.sqrt sq * inv < 0 := mul_neg_of_pos_of_neg hrpos hinvneg
    linarith
  · rw [shape_point k1, shape_point k2, shape_point k3]
    have hr0 : 0 ≤ -(Real.sqrt sq * inv) := by
      have : Real.sqrt sq * inv < 0 := mul_neg_of_pos_of_neg hrpos hinvneg
      linarith
    unfold TouchesAll Touches
    dsimp only
    rw [sub_sub_cancel_left]
    have e2 : (-(Real.sqrt sq * inv)) ^ 2 = (sq : ℝ) * inv ^ 2 := by linear_combination inv ^ 2 * hr
    refine ⟨away_eq hr0 ?_, away_eq hr0 ?_, away_eq hr0 ?_⟩
    · rw [e2, hsqR]; have := core 0; simp only [pt]; push_cast; simpa using this
    · rw [e2, hsqR]; have := core 1; simp only [pt]; push_cast; simpa using this
    · rw [e2, hsqR]; have := core 2; simp only [pt]; push_cast; simpa using this
  · rw [shape_point k1, shape_point k2, shape_point k3]
    intro q1 q2 q3 e1 e2 e3
    simp only [Contact] at e1 e2 e3
    rw [e1, e2, e3]; exact h.le

example : turn (pt (0, 0)) (pt (0, 2)) (pt (2, 0)) < 0 := by norm_num [turn, pt]

/-- Signed distance from the line of a segment site, in the integers of the code. -/
theorem right_eq {p s e : Int × Int} :
    -turn (pt s) (pt e) (pt p) = (((e.2 - s.2) * (p.1 - e.1) - (s.1 - e.1) * (e.2 - p.2) : Int) : ℝ) := by
  unfold turn pt; push_cast; ring

theorem rightDist_eq {c : ℝ × ℝ} {s e : Int × Int} {R : ℝ} (h : ((e.2 : ℝ) - s.2) * (c.1 - s.1) + ((s.1 : ℝ) - e.1) * (c.2 - s.2) = R) :
    rightDist c s e = R / Real.sqrt (((e.2 - s.2) * (e.2 - s.2) + (s.1 - e.1) * (s.1 - e.1) : Int) : ℝ) := by
  unfold rightDist
  rw [away_sq, show (e.1 - s.1) * (e.1 - s.1) = (s.1 - e.1) * (s.1 - e.1) by ring]
  congr 1
  rw [← h]; unfold turn pt; ring

theorem radius_pos {d S A B σ teta D : ℝ} (hdR : d ≠ 0) (hSr : 0 < S) (hSR : S = A + B) (hσσ : σ * σ = 1)
    (hDD : D * D = (teta * teta + d * d) * A * B * 4) : 0 < S * (d * d + teta * teta) + σ * teta * D := by
  have hdd : 0 < d * d := mul_self_pos.2 hdR
  have hN : 0 < d * d + teta * teta := add_pos_of_pos_of_nonneg hdd (mul_self_nonneg _)
  have hAB : A * B * 4 ≤ S * S := by
    have : S * S - A * B * 4 = (A - B) * (A - B) := by rw [hSR]; ring
    have := mul_self_nonneg (A - B)
    linarith
  have h1 : (σ * teta * D) ^ 2 < (S * (d * d + teta * teta)) ^ 2 := by
    have e : (σ * teta * D) ^ 2 = teta * teta * ((d * d + teta * teta) * (A * B * 4)) := by
      linear_combination (teta * teta * D * D) * hσσ + (teta * teta) * hDD
    have t1 : teta * teta * ((d * d + teta * teta) * (A * B * 4)) ≤ teta * teta * ((d * d + teta * teta) * (S * S)) :=
      mul_le_mul_of_nonneg_left (mul_le_mul_of_nonneg_left hAB hN.le) (mul_self_nonneg _)
    have t2 : 0 < d * d * ((d * d + teta * teta) * (S * S)) := mul_pos hdd (mul_pos hN (mul_pos hSr hSr))
    have e2 : (S * (d * d + teta * teta)) ^ 2 = d * d * ((d * d + teta * teta) * (S * S)) + teta * teta * ((d * d + teta * teta) * (S * S)) := by ring
    rw [e, e2]; linarith
  have := (abs_lt_of_sq_lt_sq' h1 (mul_pos hSr hN).le).1
  linarith

/-- Two points and a segment: the event and the side of the point of contact. -/
theorem pps_event (s1 s2 s3 : Site) (idx : Nat) (hseg : s3.isSegment = true) (hne : s1.p0 ≠ s2.p0)
    (r1 : OnRight s1.p0 s3.p0 s3.p1) (r2 : OnRight s2.p0 s3.p0 s3.p1)
    (hoff : turn (pt s3.p0) (pt s3.p1) (pt s1.p0) < 0 ∨ turn (pt s3.p0) (pt s3.p1) (pt s2.p0) < 0) :
    ∃ c, mpPps s1 s2 s3 idx = some c ∧ 0 < c.lower - c.x ∧
      Touches (c.x, c.y) (c.lower - c.x) (.point s1.p0) ∧ Touches (c.x, c.y) (c.lower - c.x) (.point s2.p0) ∧
      Touches (c.x, c.y) (c.lower - c.x) (.line s3.p0 s3.p1) ∧
      (∀ q, Contact (c.x, c.y) q (.line s3.p0 s3.p1) →
        (Parallel (s1.p0, s2.p0) (s3.p0, s3.p1) → turn (pt s1.p0) (pt s2.p0) q = turn (pt s1.p0) (pt s2.p0) (pt s3.p0)) ∧
        (¬ Parallel (s1.p0, s2.p0) (s3.p0, s3.p1) →
          (idx = 2 → 0 ≤ turn (pt s1.p0) (pt s2.p0) q) ∧ (idx ≠ 2 → turn (pt s1.p0) (pt s2.p0) q ≤ 0))) ∧
      ∃ (la lb teta d A B len : Int) (t R : ℝ), la = s3.p1.2 - s3.p0.2 ∧ lb = s3.p0.1 - s3.p1.1 ∧
        teta = la * (s2.p0.2 - s1.p0.2) + lb * (s1.p0.1 - s2.p0.1) ∧ d = (s2.p0.2 - s1.p0.2) * lb - (s1.p0.1 - s2.p0.1) * la ∧
        A = la * (s1.p0.1 - s3.p1.1) - lb * (s3.p1.2 - s1.p0.2) ∧ B = la * (s2.p0.1 - s3.p1.1) - lb * (s3.p1.2 - s2.p0.2) ∧
        len = la * la + lb * lb ∧ 0 < len ∧ 0 ≤ A ∧ 0 ≤ B ∧ 0 < A + B ∧ 0 < R ∧
        c = ⟨1 / 2 * ((s1.p0.1 : ℝ) + s2.p0.1) + ((s2.p0.2 : ℝ) - s1.p0.2) * t, 1 / 2 * ((s1.p0.2 : ℝ) + s2.p0.2) + ((s1.p0.1 : ℝ) - s2.p0.1) * t,
          1 / 2 * ((s1.p0.1 : ℝ) + s2.p0.1) + ((s2.p0.2 : ℝ) - s1.p0.2) * t + R / Real.sqrt len⟩ ∧
        (la : ℝ) * (c.x - s3.p0.1) + lb * (c.y - s3.p0.2) = R ∧
        (d = 0 → teta ≠ 0 ∧ t * (4 * (teta * (A + B))) = teta * teta - (A + B) * (A + B)) ∧
        (d ≠ 0 → t * (2 * d * d) = (if idx = 2 then -1 else 1) * (2 * Real.sqrt (((teta * teta + d * d) * A * B : Int) : ℝ)) + teta * (A + B)) := by
  have hs := seg_ne hseg
  obtain ⟨la, hla⟩ : ∃ z : Int, z = s3.p1.2 - s3.p0.2 := ⟨_, rfl⟩
  obtain ⟨lb, hlb⟩ : ∃ z : Int, z = s3.p0.1 - s3.p1.1 := ⟨_, rfl⟩
  obtain ⟨vx, hvx⟩ : ∃ z : Int, z = s2.p0.2 - s1.p0.2 := ⟨_, rfl⟩
  obtain ⟨vy, hvy⟩ : ∃ z : Int, z = s1.p0.1 - s2.p0.1 := ⟨_, rfl⟩
  obtain ⟨len, hlen⟩ : ∃ z : Int, z = la * la + lb * lb := ⟨_, rfl⟩
  obtain ⟨teta, hteta⟩ : ∃ z : Int, z = la * vx + lb * vy := ⟨_, rfl⟩
  obtain ⟨d, hd⟩ : ∃ z : Int, z = vx * lb - vy * la := ⟨_, rfl⟩
  obtain ⟨A, hA⟩ : ∃ z : Int, z = la * (s1.p0.1 - s3.p1.1) - lb * (s3.p1.2 - s1.p0.2) := ⟨_, rfl⟩
  obtain ⟨B, hB⟩ : ∃ z : Int, z = la * (s2.p0.1 - s3.p1.1) - lb * (s3.p1.2 - s2.p0.2) := ⟨_, rfl⟩
  obtain ⟨S, hS⟩ : ∃ z : Int, z = A + B := ⟨_, rfl⟩
  have eA : -turn (pt s3.p0) (pt s3.p1) (pt s1.p0) = (A : ℝ) := by rw [right_eq, hA, hla, hlb]
  have eB : -turn (pt s3.p0) (pt s3.p1) (pt s2.p0) = (B : ℝ) := by rw [right_eq, hB, hla, hlb]
  have hA0 : 0 ≤ A := by unfold OnRight at r1; have : (0 : ℝ) ≤ A := by linarith
                         exact_mod_cast this
  have hB0 : 0 ≤ B := by unfold OnRight at r2; have : (0 : ℝ) ≤ B := by linarith
                         exact_mod_cast this
  have hS0 : 0 < S := by
    rw [hS]
    rcases hoff with h | h
    · have : (0 : ℝ) < A := by linarith
      have : 0 < A := by exact_mod_cast this
      omega
    · have : (0 : ℝ) < B := by linarith
      have : 0 < B := by exact_mod_cast this
      omega
  have hlen0 : 0 < len := by
    have := len_pos hs
    rw [hlen, hla, hlb]; nlinarith
  have hvv : 0 < vx * vx + vy * vy := by
    have := len_pos hne
    rw [hvx, hvy]; nlinarith
  have hlenR : (0 : ℝ) < len := by exact_mod_cast hlen0
  have hpar : Parallel (s1.p0, s2.p0) (s3.p0, s3.p1) ↔ d = 0 := by
    unfold Parallel; rw [hd, hvx, hvy, hla, hlb]; dsimp only; constructor <;> intro h <;> linarith
  have hsl : Real.sqrt (len : ℝ) * Real.sqrt len = len := sqrt_self hlen0.le
  have hsl0 : 0 < Real.sqrt (len : ℝ) := Real.sqrt_pos.2 hlenR
  have hR : ∀ {c : ℝ × ℝ} {R : ℝ}, (la : ℝ) * (c.1 - s3.p0.1) + lb * (c.2 - s3.p0.2) = R → rightDist c s3.p0 s3.p1 = R / Real.sqrt len := by
    intro c R h
    rw [hlen, hla, hlb]
    apply rightDist_eq
    rw [← h, hla, hlb]; push_cast; ring
  have hP : ∀ {c : ℝ × ℝ} {R : ℝ} {p : Int × Int}, 0 ≤ R → (len : ℝ) * ((c.1 - p.1) ^ 2 + (c.2 - p.2) ^ 2) = R ^ 2 →
      away c (pt p) = R / Real.sqrt len := by
    intro c R p h0 h
    apply away_eq (by positivity)
    rw [div_pow, sq (Real.sqrt _), hsl, eq_div_iff hlenR.ne', ← h]; unfold pt; ring
  have hq : ∀ {x y : ℝ} {q : ℝ × ℝ} {R : ℝ}, (la : ℝ) * (x - s3.p0.1) + lb * (y - s3.p0.2) = R → Contact (x, y) q (.line s3.p0 s3.p1) →
      turn (pt s1.p0) (pt s2.p0) q =
        ((s2.p0.1 : ℝ) - s1.p0.1) * (y - R * lb / len - s1.p0.2) - ((s2.p0.2 : ℝ) - s1.p0.2) * (x - R * la / len - s1.p0.1) := by
    intro x y q R h hc
    obtain ⟨_, e1, e2⟩ := contact_line hc hs
    have eL : ((pt s3.p1).1 - (pt s3.p0).1) ^ 2 + ((pt s3.p1).2 - (pt s3.p0).2) ^ 2 = (len : ℝ) := by
      rw [hlen, hla, hlb]; unfold pt; push_cast; ring
    have eT : turn (pt s3.p0) (pt s3.p1) (x, y) = -R := by
      rw [← h, hla, hlb]; unfold turn pt; push_cast; ring
    rw [eL, eT] at e1 e2
    have ea : (pt s3.p1).2 - (pt s3.p0).2 = (la : ℝ) := by rw [hla]; unfold pt; push_cast; ring
    have eb : (pt s3.p1).1 - (pt s3.p0).1 = -(lb : ℝ) := by rw [hlb]; unfold pt; push_cast; ring
    rw [ea] at e1; rw [eb] at e2
    unfold turn
    rw [e1, e2]; unfold pt; dsimp only; ring
  have hqpar : ∀ {x y : ℝ} {q : ℝ × ℝ}, Contact (x, y) q (.line s3.p0 s3.p1) → d = 0 →
      turn (pt s1.p0) (pt s2.p0) q = turn (pt s1.p0) (pt s2.p0) (pt s3.p0) := by
    intro x y q hc h0
    have h1 := hc.1
    have h0' : (vx : ℝ) * lb - vy * la = 0 := by rw [← Int.cast_mul, ← Int.cast_mul, ← Int.cast_sub, ← hd, h0]; simp
    have e : (len : ℝ) * (turn (pt s1.p0) (pt s2.p0) q - turn (pt s1.p0) (pt s2.p0) (pt s3.p0)) = 0 := by
      rw [hlen, hla, hlb]
      rw [hla, hlb, hvx, hvy] at h0'
      unfold turn pt at h1 ⊢
      push_cast at h0' ⊢
      linear_combination (((s3.p1.2 : ℝ) - s3.p0.2) * (q.2 - s3.p0.2) + ((s3.p1.1 : ℝ) - s3.p0.1) * (q.1 - s3.p0.1)) * h0' +
        (((s3.p1.1 : ℝ) - s3.p0.1) * (s2.p0.1 - s1.p0.1) + ((s3.p1.2 : ℝ) - s3.p0.2) * (s2.p0.2 - s1.p0.2)) * h1
    have := (mul_eq_zero.1 e).resolve_left hlenR.ne'
    linarith
  by_cases hd0 : d = 0
  · have h0' : ((s2.p0.2 : ℝ) - s1.p0.2) * lb - (s1.p0.1 - s2.p0.1) * la = 0 := by
      have : ((d : Int) : ℝ) = 0 := by rw [hd0]; simp
      rw [hd, hvx, hvy] at this; push_cast at this; linarith
    have hteta0 : teta ≠ 0 := by
      intro h
      have : len * (vx * vx + vy * vy) = teta * teta + d * d := by rw [hlen, hteta, hd]; ring
      rw [h, hd0] at this
      have := mul_pos hlen0 hvv
      omega
    have hden : ((teta * S : Int) : ℝ) ≠ 0 := by
      have : teta * S ≠ 0 := mul_ne_zero hteta0 hS0.ne'
      exact_mod_cast this
    obtain ⟨inv, hinv⟩ : ∃ z : ℝ, z = 1 / ((teta * S : Int) : ℝ) := ⟨_, rfl⟩
    have hi : (teta : ℝ) * S * inv = 1 := by
      rw [hinv]; push_cast at hden ⊢; field_simp
    obtain ⟨n, hn⟩ : ∃ z : Int, z = teta * teta - S * S := ⟨_, rfl⟩
    obtain ⟨x, hx⟩ : ∃ z : ℝ, z = 1 / 4 * ((teta * S * (s1.p0.1 + s2.p0.1) * 2 + n * vx : Int) : ℝ) * inv := ⟨_, rfl⟩
    obtain ⟨y, hy⟩ : ∃ z : ℝ, z = 1 / 4 * ((teta * S * (s1.p0.2 + s2.p0.2) * 2 + n * vy : Int) : ℝ) * inv := ⟨_, rfl⟩
    obtain ⟨R, hRdef⟩ : ∃ z : ℝ, z = 1 / 4 * ((teta * S * S * 2 + n * teta : Int) : ℝ) * inv := ⟨_, rfl⟩
    obtain ⟨c1, c2, -⟩ := pps_par (la := la) (lb := lb) (x1 := s1.p0.1) (y1 := s1.p0.2) (x2 := s2.p0.1) (y2 := s2.p0.2) (X0 := s3.p0.1)
      (Y0 := s3.p0.2) (X1 := s3.p1.1) (Y1 := s3.p1.2) (inv := inv) (teta := teta) (S := S) (n := n) (cx := x) (cy := y) (R := R)
      (by rw [hla]; push_cast; ring) (by rw [hlb]; push_cast; ring) h0' (by rw [hteta, hvx, hvy]; push_cast; ring)
      (by rw [hS, hA, hB]; push_cast; ring) (by rw [hn]; push_cast; ring) (by rw [hx, hvx]; push_cast; ring)
      (by rw [hy, hvy]; push_cast; ring) (by rw [hRdef]; push_cast; ring) hi
    have hRpos : 0 < R := by
      have e : R * (4 * S) = S * S + teta * teta := by
        rw [hRdef, hn]; push_cast
        linear_combination ((S : ℝ) * S + teta * teta) * hi
      have hSr : (0 : ℝ) < S := by exact_mod_cast hS0
      by_contra hc
      push Not at hc
      nlinarith [mul_self_nonneg (teta : ℝ), mul_pos hSr hSr, mul_nonneg_of_nonpos_of_nonpos hc (by linarith : -(4 * (S : ℝ)) ≤ 0)]
    have hlow : x + R / Real.sqrt len - x = R / Real.sqrt len := by ring
    refine ⟨⟨x, y, x + R / Real.sqrt len⟩, ?_, ?_, ?_, ?_, ?_, ?_, ?_⟩
    · unfold mpPps
      simp only [← hla, ← hlb, ← hvx, ← hvy, ← hlen, ← hteta, ← hd, ← hA, ← hB, ← hS, ← hn]
      rw [if_pos hd0, divE_some hden, C42_eval2 _ _ _ _ hlen0.le (by norm_num)]
      simp only [Option.bind_eq_bind, Option.bind_some, ← hinv]
      rw [divE_of (z := x + R / Real.sqrt len) hsl0.ne' (by
        rw [add_mul, div_mul_cancel₀ _ hsl0.ne', hx, hRdef]; push_cast; rw [Real.sqrt_one]; ring)]
      simp only [Option.bind_some, Option.pure_def, ← hx, ← hy]
    · dsimp only; rw [hlow]; positivity
    · dsimp only; rw [hlow]
      exact hP (c := (x, y)) hRpos.le (by have := c2 0; rw [hlen]; push_cast; simpa using this)
    · dsimp only; rw [hlow]
      exact hP (c := (x, y)) hRpos.le (by have := c2 1; rw [hlen]; push_cast; simpa using this)
    · dsimp only; rw [hlow]
      exact hR (c := (x, y)) c1
    · intro q hc
      refine ⟨fun _ => hqpar hc hd0, fun h => absurd (hpar.2 hd0) h⟩
    · have ex : x = 1 / 2 * ((s1.p0.1 : ℝ) + s2.p0.1) + ((s2.p0.2 : ℝ) - s1.p0.2) * (1 / 4 * n * inv) := by
        rw [hx, hvx]; push_cast; linear_combination (1 / 2 * ((s1.p0.1 : ℝ) + s2.p0.1)) * hi
      have ey : y = 1 / 2 * ((s1.p0.2 : ℝ) + s2.p0.2) + ((s1.p0.1 : ℝ) - s2.p0.1) * (1 / 4 * n * inv) := by
        rw [hy, hvy]; push_cast; linear_combination (1 / 2 * ((s1.p0.2 : ℝ) + s2.p0.2)) * hi
      refine ⟨la, lb, teta, d, A, B, len, 1 / 4 * n * inv, R, hla, hlb, by rw [hteta, hvx, hvy], by rw [hd, hvx, hvy], hA, hB, hlen, hlen0, hA0, hB0,
        by rw [← hS]; exact hS0, hRpos, by rw [← ex, ← ey], c1, fun _ => ⟨hteta0, ?_⟩, fun h => absurd hd0 h⟩
      have : (S : ℝ) = A + B := by rw [hS]; push_cast; ring
      rw [← this, hn]; push_cast
      linear_combination ((teta : ℝ) * teta - S * S) * hi
  · have hdR : (d : ℝ) ≠ 0 := by exact_mod_cast hd0
    obtain ⟨inv, hinv⟩ : ∃ z : ℝ, z = 1 / (d : ℝ) := ⟨_, rfl⟩
    have hi : (d : ℝ) * inv = 1 := by rw [hinv]; field_simp
    obtain ⟨det, hdet⟩ : ∃ z : Int, z = (teta * teta + d * d) * A * B * 4 := ⟨_, rfl⟩
    have hdet0 : 0 ≤ det := by
      rw [hdet]
      have := add_nonneg (mul_self_nonneg teta) (mul_self_nonneg d)
      positivity
    obtain ⟨σ, hσ, hσ1⟩ : ∃ z : Int, (∀ v : Int, (if idx = 2 then -v else v) = z * v) ∧ z = if idx = 2 then -1 else 1 := by
      refine ⟨if idx = 2 then -1 else 1, fun v => ?_, rfl⟩
      split_ifs <;> ring
    have hσσ : (σ : ℝ) * σ = 1 := by rw [hσ1]; split_ifs <;> norm_num
    obtain ⟨D, hDdef⟩ : ∃ z : ℝ, z = Real.sqrt det := ⟨_, rfl⟩
    have hD0 : 0 ≤ D := by rw [hDdef]; exact Real.sqrt_nonneg _
    have hDD : D * D = ((teta : ℝ) * teta + d * d) * A * B * 4 := by
      rw [hDdef, sqrt_self hdet0, hdet]; push_cast; ring
    obtain ⟨x, hx⟩ : ∃ z : ℝ, z = 1 / 2 * ((((s1.p0.1 : ℝ) + s2.p0.1) * d * d + teta * S * ((s2.p0.2 : ℝ) - s1.p0.2)) + σ * ((s2.p0.2 : ℝ) - s1.p0.2) * D) * (inv * inv) := ⟨_, rfl⟩
    obtain ⟨y, hy⟩ : ∃ z : ℝ, z = 1 / 2 * ((((s1.p0.2 : ℝ) + s2.p0.2) * d * d + teta * S * ((s1.p0.1 : ℝ) - s2.p0.1)) + σ * ((s1.p0.1 : ℝ) - s2.p0.1) * D) * (inv * inv) := ⟨_, rfl⟩
    obtain ⟨R, hRdef⟩ : ∃ z : ℝ, z = 1 / 2 * ((S : ℝ) * (d * d + teta * teta) + σ * teta * D) * (inv * inv) := ⟨_, rfl⟩
    have hSr : (0 : ℝ) < S := by exact_mod_cast hS0
    have hteR : (teta : ℝ) = la * ((s2.p0.2 : ℝ) - s1.p0.2) + lb * ((s1.p0.1 : ℝ) - s2.p0.1) := by rw [hteta, hvx, hvy]; push_cast; ring
    have hddR : (d : ℝ) = ((s2.p0.2 : ℝ) - s1.p0.2) * lb - ((s1.p0.1 : ℝ) - s2.p0.1) * la := by rw [hd, hvx, hvy]; push_cast; ring
    have hAR : (A : ℝ) = la * ((s1.p0.1 : ℝ) - s3.p1.1) - lb * ((s3.p1.2 : ℝ) - s1.p0.2) := by rw [hA]; push_cast; ring
    have hBR : (B : ℝ) = la * ((s2.p0.1 : ℝ) - s3.p1.1) - lb * ((s3.p1.2 : ℝ) - s2.p0.2) := by rw [hB]; push_cast; ring
    have hSR : (S : ℝ) = (A : ℝ) + B := by rw [hS]; push_cast; ring
    have c1 : (la : ℝ) * (x - s3.p0.1) + lb * (y - s3.p0.2) = R := by
      rw [hx, hy, hRdef]
      exact pps_line (X1 := s3.p1.1) (Y1 := s3.p1.2) (by rw [hla]; push_cast; ring) (by rw [hlb]; push_cast; ring) hi hteR (by rw [hSR, hAR, hBR])
    have c2 : ∀ i : Fin 2, (len : ℝ) * ((x - ![(s1.p0.1 : ℝ), s2.p0.1] i) ^ 2 + (y - ![(s1.p0.2 : ℝ), s2.p0.2] i) ^ 2) = R ^ 2 := by
      intro i
      rw [hx, hy, hRdef, hlen]
      push_cast
      exact pps_point hi hddR hσσ hteR hAR hBR hSR hDD i
    have hRpos : 0 < R := by
      have hii : 0 < inv * inv := by
        have : inv ≠ 0 := by intro h; rw [h] at hi; simp at hi
        exact mul_self_pos.2 this
      have hpos := radius_pos hdR hSr hSR hσσ hDD
      rw [hRdef]; positivity
    have hlow : x + R / Real.sqrt len - x = R / Real.sqrt len := by ring
    refine ⟨⟨x, y, x + R / Real.sqrt len⟩, ?_, ?_, ?_, ?_, ?_, ?_, ?_⟩
    · unfold mpPps
      simp only [← hla, ← hlb, ← hvx, ← hvy, ← hlen, ← hteta, ← hd, ← hA, ← hB, ← hS, ← hdet]
      rw [if_neg hd0, divE_some hdR, C42_eval2 _ _ _ _ (by norm_num) hdet0, C42_eval2 _ _ _ _ (by norm_num) hdet0,
        C42_eval4 _ _ _ _ _ _ _ _ (by omega) (mul_nonneg hdet0 hlen0.le) (by norm_num) hdet0]
      simp only [Option.bind_eq_bind, Option.bind_some, ← hinv, sqrt_mul' hdet0, hσ, one_mul, ← hDdef]
      have ex : 1 / 2 * (((((s1.p0.1 + s2.p0.1) * d * d + teta * S * vx : Int)) : ℝ) * Real.sqrt ((1 : Int) : ℝ) + ((σ * vx : Int) : ℝ) * D) * (inv * inv) = x := by
        rw [hx, hvx]; push_cast; rw [Real.sqrt_one]; ring
      have ey : 1 / 2 * (((((s1.p0.2 + s2.p0.2) * d * d + teta * S * vy : Int)) : ℝ) * Real.sqrt ((1 : Int) : ℝ) + ((σ * vy : Int) : ℝ) * D) * (inv * inv) = y := by
        rw [hy, hvy]; push_cast; rw [Real.sqrt_one]; ring
      rw [divE_of (z := x + R / Real.sqrt len) hsl0.ne' (by
        rw [show (x + R / Real.sqrt len) * Real.sqrt len = x * Real.sqrt len + R by rw [add_mul, div_mul_cancel₀ _ hsl0.ne'], ← ex, hRdef]; push_cast; rw [Real.sqrt_one]; ring)]
      simp only [Option.bind_some, Option.pure_def, ex, ey]
    · dsimp only; rw [hlow]; positivity
    · dsimp only; rw [hlow]
      exact hP (c := (x, y)) hRpos.le (by simpa using c2 0)
    · dsimp only; rw [hlow]
      exact hP (c := (x, y)) hRpos.le (by simpa using c2 1)
    · dsimp only; rw [hlow]
      exact hR (c := (x, y)) c1
    · intro q hc
      refine ⟨fun h => absurd (hpar.1 h) hd0, fun _ => ?_⟩
      rw [hq c1 hc, pps_turn hi hddR (by rw [hlen]; push_cast; ring) hlenR.ne' hteR hx hy hRdef, hσ1]
      constructor
      · intro h; rw [if_pos h]; push_cast; rw [neg_one_mul, neg_neg]; positivity
      · intro h; rw [if_neg h]; push_cast; rw [one_mul, neg_div, neg_nonpos]; positivity
    · have hi2 : (d : ℝ) * d * (inv * inv) = 1 := by linear_combination ((d : ℝ) * inv + 1) * hi
      have ex : x = 1 / 2 * ((s1.p0.1 : ℝ) + s2.p0.1) + ((s2.p0.2 : ℝ) - s1.p0.2) * (1 / 2 * (teta * S + σ * D) * (inv * inv)) := by
        rw [hx]; linear_combination (1 / 2 * ((s1.p0.1 : ℝ) + s2.p0.1)) * hi2
      have ey : y = 1 / 2 * ((s1.p0.2 : ℝ) + s2.p0.2) + ((s1.p0.1 : ℝ) - s2.p0.1) * (1 / 2 * (teta * S + σ * D) * (inv * inv)) := by
        rw [hy]; linear_combination (1 / 2 * ((s1.p0.2 : ℝ) + s2.p0.2)) * hi2
      refine ⟨la, lb, teta, d, A, B, len, 1 / 2 * (teta * S + σ * D) * (inv * inv), R, hla, hlb, by rw [hteta, hvx, hvy], by rw [hd, hvx, hvy], hA, hB,
        hlen, hlen0, hA0, hB0, by rw [← hS]; exact hS0, hRpos, by rw [← ex, ← ey], c1, fun h => absurd h hd0, fun _ => ?_⟩
      have e4 : D = 2 * Real.sqrt (((teta * teta + d * d) * A * B : Int) : ℝ) := by
        rw [hDdef, hdet, show (teta * teta + d * d) * A * B * 4 = 2 ^ 2 * ((teta * teta + d * d) * A * B) by ring, sqrt_mul' (by norm_num)]
        rw [show Real.sqrt ((2 ^ 2 : Int) : ℝ) = 2 by push_cast; rw [show (4 : ℝ) = 2 ^ 2 by norm_num]; exact Real.sqrt_sq zero_le_two]
      have e5 : ((if idx = 2 then -1 else 1 : ℝ)) = σ := by rw [hσ1]; split_ifs <;> norm_num
      rw [← e4, e5, ← hSR]
      linear_combination ((teta : ℝ) * S + σ * D) * hi2

/-- C94, two points and a segment, in any of the three orders: the event is a circle through the two points that touches the line of the segment, on
the right of it. The two points have to be on that side, and of the two such circles the one is chosen that meets the sites clockwise. -/
theorem C94_pps (s1 s2 s3 : Site) (k1 : s1.isSegment = false) (k2 : s2.isSegment = false) (k3 : s3.isSegment = true)
    (hne : s1.p0 ≠ s2.p0) (r1 : OnRight s1.p0 s3.p0 s3.p1) (r2 : OnRight s2.p0 s3.p0 s3.p1)
    (hoff : turn (pt s3.p0) (pt s3.p1) (pt s1.p0) < 0 ∨ turn (pt s3.p0) (pt s3.p1) (pt s2.p0) < 0) :
    (∃ c, formCircle s1 s2 s3 = some c ∧ 0 < c.lower - c.x ∧ TouchesAll c.x c.y c.lower (shape s1) (shape s2) (shape s3) ∧
      ((Parallel (s1.p0, s2.p0) (s3.p0, s3.p1) → turn (pt s1.p0) (pt s2.p0) (pt s3.p0) ≤ 0) →
        Clockwise c.x c.y (shape s1) (shape s2) (shape s3))) ∧
    (∃ c, formCircle s1 s3 s2 = some c ∧ 0 < c.lower - c.x ∧ TouchesAll c.x c.y c.lower (shape s1) (shape s3) (shape s2) ∧
      ((Parallel (s1.p0, s2.p0) (s3.p0, s3.p1) → 0 ≤ turn (pt s1.p0) (pt s2.p0) (pt s3.p0)) →
        Clockwise c.x c.y (shape s1) (shape s3) (shape s2))) ∧
    (∃ c, formCircle s3 s1 s2 = some c ∧ 0 < c.lower - c.x ∧ TouchesAll c.x c.y c.lower (shape s3) (shape s1) (shape s2) ∧
      ((Parallel (s1.p0, s2.p0) (s3.p0, s3.p1) → turn (pt s1.p0) (pt s2.p0) (pt s3.p0) ≤ 0) →
        Clockwise c.x c.y (shape s3) (shape s1) (shape s2))) := by
  rw [shape_point k1, shape_point k2, shape_line k3]
  have rot : ∀ a b c : ℝ × ℝ, turn c a b = turn a b c := by intro a b c; unfold turn; ring
  have flip : ∀ a b c : ℝ × ℝ, turn a c b = -turn a b c := by intro a b c; unfold turn; ring
  refine ⟨?_, ?_, ?_⟩
  · obtain ⟨c, e, hr, t1, t2, t3, hc, -⟩ := pps_event s1 s2 s3 3 k3 hne r1 r2 hoff
    refine ⟨c, by simp [formCircle, k1, k2, k3, e], hr, ⟨t1, t2, t3⟩, fun hp q1 q2 q3 e1 e2 e3 => ?_⟩
    obtain ⟨g1, g2⟩ := hc q3 e3
    simp only [Contact] at e1 e2
    rw [e1, e2]
    by_cases h : Parallel (s1.p0, s2.p0) (s3.p0, s3.p1)
    · rw [g1 h]; exact hp h
    · exact (g2 h).2 (by norm_num)
  · obtain ⟨c, e, hr, t1, t2, t3, hc, -⟩ := pps_event s1 s2 s3 2 k3 hne r1 r2 hoff
    refine ⟨c, by simp [formCircle, k1, k2, k3, e], hr, ⟨t1, t3, t2⟩, fun hp q1 q2 q3 e1 e2 e3 => ?_⟩
    obtain ⟨g1, g2⟩ := hc q2 e2
    simp only [Contact] at e1 e3
    rw [e1, e3, flip, neg_nonpos]
    by_cases h : Parallel (s1.p0, s2.p0) (s3.p0, s3.p1)
    · rw [g1 h]; exact hp h
    · exact (g2 h).1 rfl
  · obtain ⟨c, e, hr, t1, t2, t3, hc, -⟩ := pps_event s1 s2 s3 1 k3 hne r1 r2 hoff
    refine ⟨c, by simp [formCircle, k1, k2, k3, e], hr, ⟨t3, t1, t2⟩, fun hp q1 q2 q3 e1 e2 e3 => ?_⟩
    obtain ⟨g1, g2⟩ := hc q1 e1
    simp only [Contact] at e2 e3
    rw [e2, e3, rot]
    by_cases h : Parallel (s1.p0, s2.p0) (s3.p0, s3.p1)
    · rw [g1 h]; exact hp h
    · exact (g2 h).2 (by norm_num)

/-- The points `(1, 1)` and `(5, 2)` are on the right of the segment from `(0, 0)` to `(0, 7)`. -/
example : OnRight (1, 1) (0, 0) (0, 7) ∧ OnRight (5, 2) (0, 0) (0, 7) ∧ turn (pt (0, 0)) (pt (0, 7)) (pt (1, 1)) < 0 ∧
    ¬ Parallel ((1, 1), (5, 2)) ((0, 0), (0, 7)) := by norm_num [OnRight, Parallel, turn, pt]

theorem right_unit {c : ℝ × ℝ} {s e : Int × Int} {u T : ℝ} (hu : 0 < u)
    (huu : u * u = ((e.1 : ℝ) - s.1) ^ 2 + ((e.2 : ℝ) - s.2) ^ 2) (ht : turn (pt s) (pt e) c = T * u) : rightDist c s e = -T := by
  have : away (pt s) (pt e) = u := away_eq hu.le (by unfold pt; dsimp only; linear_combination -huu)
  unfold rightDist
  rw [this, ht, ← neg_mul, mul_div_assoc, div_self hu.ne', mul_one]

theorem contact_unit {c q : ℝ × ℝ} {s e : Int × Int} {u T : ℝ} (h : Contact c q (.line s e)) (hse : s ≠ e) (hu : 0 < u)
    (huu : u * u = ((e.1 : ℝ) - s.1) ^ 2 + ((e.2 : ℝ) - s.2) ^ 2) (ht : turn (pt s) (pt e) c = T * u) :
    q = (c.1 + T * ((e.2 : ℝ) - s.2) / u, c.2 - T * ((e.1 : ℝ) - s.1) / u) := by
  obtain ⟨_, e1, e2⟩ := contact_line h hse
  have eL : ((pt e).1 - (pt s).1) ^ 2 + ((pt e).2 - (pt s).2) ^ 2 = u * u := by rw [huu]; rfl
  rw [eL, ht] at e1 e2
  have hc : ∀ z : ℝ, T * u * z / (u * u) = T * z / u := by
    intro z
    rw [show T * u * z = T * z * u by ring, mul_div_mul_right _ _ hu.ne']
  rw [hc] at e1 e2
  exact Prod.ext e1 e2

set_option maxHeartbeats 1000000 in
/-- A point and two segments: the event and the side of the point. -/
theorem pss_event (s1 s2 s3 : Site) (idx : Nat) (k2 : s2.isSegment = true) (k3 : s3.isSegment = true)
    (hw : ¬ SameWay (s2.p0, s2.p1) (s3.p0, s3.p1))
    (r2 : OnRight s1.p0 s2.p0 s2.p1) (r3 : OnRight s1.p0 s3.p0 s3.p1) :
    ∃ c, mpPss s1 s2 s3 idx = some c ∧ 0 ≤ c.lower - c.x ∧
      Touches (c.x, c.y) (c.lower - c.x) (.point s1.p0) ∧ Touches (c.x, c.y) (c.lower - c.x) (.line s2.p0 s2.p1) ∧
      Touches (c.x, c.y) (c.lower - c.x) (.line s3.p0 s3.p1) ∧
      (∀ q2 q3, Contact (c.x, c.y) q2 (.line s2.p0 s2.p1) → Contact (c.x, c.y) q3 (.line s3.p0 s3.p1) →
        (idx = 2 → 0 ≤ turn q2 q3 (pt s1.p0)) ∧ (idx ≠ 2 → turn q2 q3 (pt s1.p0) ≤ 0)) ∧
      ∃ (a0 b0 a1 b1 or B0 B1 B2 : Int), a0 = s2.p0.1 - s2.p1.1 ∧ b0 = s2.p0.2 - s2.p1.2 ∧ a1 = s3.p1.1 - s3.p0.1 ∧ b1 = s3.p1.2 - s3.p0.2 ∧
        or = a1 * b0 - a0 * b1 ∧ B0 = a0 * a0 + b0 * b0 ∧ B1 = a1 * a1 + b1 * b1 ∧ B2 = a0 * a1 + b0 * b1 ∧ 0 < B0 ∧ 0 < B1 ∧
        (or = 0 → ∃ dx dy : Int, dx = a0 * (s1.p0.2 - s2.p1.2) - b0 * (s1.p0.1 - s2.p1.1) ∧ dy = b0 * (s1.p0.1 - s3.p0.1) - a0 * (s1.p0.2 - s3.p0.2) ∧
          0 ≤ dx ∧ 0 ≤ dy ∧ c.lower = c.x + (dx + dy) / 2 / Real.sqrt B0 ∧
          c.x * (2 * (B0 : ℝ)) = (a0 : ℝ) * (2 * (if idx = 2 then 1 else -1)) * Real.sqrt ((dx * dy : Int) : ℝ) +
            (b0 * b0 * ((s2.p1.1 : ℝ) + s3.p0.1) - a0 * b0 * ((s2.p1.2 : ℝ) + s3.p0.2 - s1.p0.2 * 2) + a0 * a0 * ((s1.p0.1 : ℝ) * 2)) ∧
          c.y * (2 * (B0 : ℝ)) = (b0 : ℝ) * (2 * (if idx = 2 then 1 else -1)) * Real.sqrt ((dx * dy : Int) : ℝ) +
            (a0 * a0 * ((s2.p1.2 : ℝ) + s3.p0.2) - a0 * b0 * ((s2.p1.1 : ℝ) + s3.p0.1 - s1.p0.1 * 2) + b0 * b0 * ((s1.p0.2 : ℝ) * 2))) ∧
        (or ≠ 0 → ∃ (ix iy dx dy : Int) (T : ℝ), ix = a0 * (a1 * s3.p1.2 - b1 * s3.p1.1) + a1 * (b0 * s2.p0.1 - a0 * s2.p0.2) ∧
          iy = b0 * (a1 * s3.p1.2 - b1 * s3.p1.1) + b1 * (b0 * s2.p0.1 - a0 * s2.p0.2) ∧ dx = ix - or * s1.p0.1 ∧ dy = iy - or * s1.p0.2 ∧
          T ≤ 0 ∧ c.x * or = ix + T * (a1 * Real.sqrt B0 + a0 * Real.sqrt B1) ∧ c.y * or = iy + T * (b1 * Real.sqrt B0 + b0 * Real.sqrt B1) ∧
          c.lower = c.x - T ∧ 0 < Real.sqrt B0 * Real.sqrt B1 + B2 ∧
          T * (Real.sqrt B0 * Real.sqrt B1 + B2) ^ 2 = -((dx : ℝ) * (a1 * Real.sqrt B0 + a0 * Real.sqrt B1) + dy * (b1 * Real.sqrt B0 + b0 * Real.sqrt B1)) +
            or * (if idx = 2 then 1 else -1) * Real.sqrt (2 * (Real.sqrt B0 * Real.sqrt B1 + B2) *
              (b0 * (s2.p0.1 - s1.p0.1) - a0 * (s2.p0.2 - s1.p0.2) : Int) * (a1 * (s3.p1.2 - s1.p0.2) - b1 * (s3.p1.1 - s1.p0.1) : Int))) := by
  have n2 := seg_ne k2
  have n3 := seg_ne k3
  obtain ⟨a0, ha0⟩ : ∃ z : Int, z = s2.p0.1 - s2.p1.1 := ⟨_, rfl⟩
  obtain ⟨b0, hb0⟩ : ∃ z : Int, z = s2.p0.2 - s2.p1.2 := ⟨_, rfl⟩
  obtain ⟨a1, ha1⟩ : ∃ z : Int, z = s3.p1.1 - s3.p0.1 := ⟨_, rfl⟩
  obtain ⟨b1, hb1⟩ : ∃ z : Int, z = s3.p1.2 - s3.p0.2 := ⟨_, rfl⟩
  obtain ⟨or, hor⟩ : ∃ z : Int, z = a1 * b0 - a0 * b1 := ⟨_, rfl⟩
  obtain ⟨B0, hB0⟩ : ∃ z : Int, z = a0 * a0 + b0 * b0 := ⟨_, rfl⟩
  obtain ⟨B1, hB1⟩ : ∃ z : Int, z = a1 * a1 + b1 * b1 := ⟨_, rfl⟩
  obtain ⟨B2, hB2⟩ : ∃ z : Int, z = a0 * a1 + b0 * b1 := ⟨_, rfl⟩
  have pB0 : 0 < B0 := by have := len_pos n2; rw [hB0, ha0, hb0]; nlinarith
  have pB1 : 0 < B1 := by have := len_pos n3; rw [hB1, ha1, hb1]; nlinarith
  have ra0 : (a0 : ℝ) = (s2.p0.1 : ℝ) - s2.p1.1 := by rw [ha0]; push_cast; ring
  have rb0 : (b0 : ℝ) = (s2.p0.2 : ℝ) - s2.p1.2 := by rw [hb0]; push_cast; ring
  have ra1 : (a1 : ℝ) = (s3.p1.1 : ℝ) - s3.p0.1 := by rw [ha1]; push_cast; ring
  have rb1 : (b1 : ℝ) = (s3.p1.2 : ℝ) - s3.p0.2 := by rw [hb1]; push_cast; ring
  have pu1 : 0 < Real.sqrt (B0 : ℝ) := Real.sqrt_pos.2 (by exact_mod_cast pB0)
  have pu2 : 0 < Real.sqrt (B1 : ℝ) := Real.sqrt_pos.2 (by exact_mod_cast pB1)
  have hu1 : Real.sqrt (B0 : ℝ) * Real.sqrt B0 = B0 := sqrt_self pB0.le
  have hu2 : Real.sqrt (B1 : ℝ) * Real.sqrt B1 = B1 := sqrt_self pB1.le
  have hv1 : Real.sqrt (B0 : ℝ) * Real.sqrt B0 = ((s2.p1.1 : ℝ) - s2.p0.1) ^ 2 + ((s2.p1.2 : ℝ) - s2.p0.2) ^ 2 := by
    rw [hu1, hB0]; push_cast; rw [ra0, rb0]; ring
  have hv2 : Real.sqrt (B1 : ℝ) * Real.sqrt B1 = ((s3.p1.1 : ℝ) - s3.p0.1) ^ 2 + ((s3.p1.2 : ℝ) - s3.p0.2) ^ 2 := by
    rw [hu2, hB1]; push_cast; rw [ra1, rb1]; ring
  by_cases ho : or = 0
  · have ror : (a1 : ℝ) * b0 = a0 * b1 := by
      have : a1 * b0 = a0 * b1 := by omega
      exact_mod_cast this
    have rB0 : (B0 : ℝ) = a0 * a0 + b0 * b0 := by rw [hB0]; push_cast; ring
    have rB1 : (B1 : ℝ) = a1 * a1 + b1 * b1 := by rw [hB1]; push_cast; ring
    have rB2 : (B2 : ℝ) = a0 * a1 + b0 * b1 := by rw [hB2]; push_cast; ring
    have B0R : (0 : ℝ) < B0 := by exact_mod_cast pB0
    have B1R : (0 : ℝ) < B1 := by exact_mod_cast pB1
    have hsq : (B2 : ℝ) * B2 = B0 * B1 := by
      rw [rB0, rB1, rB2]; linear_combination (-(a1 : ℝ) * b0 + a0 * b1) * ror
    have hB2n : (0 : ℝ) ≤ B2 := by
      by_contra hc
      push Not at hc
      have hc : B2 < 0 := by exact_mod_cast hc
      apply hw
      unfold SameWay Parallel
      dsimp only
      rw [hB2, ha0, hb0, ha1, hb1] at hc
      rw [hor, ha0, hb0, ha1, hb1] at ho
      constructor <;> nlinarith
    have hB2u : Real.sqrt (B0 : ℝ) * Real.sqrt B1 = B2 := by
      refine (mul_self_inj (mul_pos pu1 pu2).le hB2n).1 ?_
      rw [hsq]; linear_combination (Real.sqrt (B1 : ℝ) * Real.sqrt B1) * hu1 + B0 * hu2
    have hB2p : (0 : ℝ) < B2 := by rw [← hB2u]; exact mul_pos pu1 pu2
    have hb : (b1 : ℝ) * B0 = b0 * B2 := by rw [rB0, rB2]; linear_combination (-(a0 : ℝ)) * ror
    have ha : (a1 : ℝ) * B0 = a0 * B2 := by rw [rB0, rB2]; linear_combination (b0 : ℝ) * ror
    obtain ⟨dx, hdx⟩ : ∃ z : Int, z = a0 * (s1.p0.2 - s2.p1.2) - b0 * (s1.p0.1 - s2.p1.1) := ⟨_, rfl⟩
    obtain ⟨dy, hdy⟩ : ∃ z : Int, z = b0 * (s1.p0.1 - s3.p0.1) - a0 * (s1.p0.2 - s3.p0.2) := ⟨_, rfl⟩
    obtain ⟨c0, hc0⟩ : ∃ z : Int, z = b0 * (s3.p0.1 - s2.p1.1) - a0 * (s3.p0.2 - s2.p1.2) := ⟨_, rfl⟩
    have rdx : (dx : ℝ) = a0 * ((s1.p0.2 : ℝ) - s2.p1.2) - b0 * ((s1.p0.1 : ℝ) - s2.p1.1) := by rw [hdx]; push_cast; ring
    have rdy : (dy : ℝ) = b0 * ((s1.p0.1 : ℝ) - s3.p0.1) - a0 * ((s1.p0.2 : ℝ) - s3.p0.2) := by rw [hdy]; push_cast; ring
    have pdx : 0 ≤ dx := by
      have e : turn (pt s2.p0) (pt s2.p1) (pt s1.p0) = -dx := by rw [rdx, ra0, rb0]; unfold turn pt; dsimp only; ring
      unfold OnRight at r2
      rw [e] at r2
      have : (0 : ℝ) ≤ dx := by linarith
      exact_mod_cast this
    have pdy : 0 ≤ dy := by
      have e : B0 * turn (pt s3.p0) (pt s3.p1) (pt s1.p0) = -(B2 * dy) := by
        rw [rdy]; unfold turn pt; dsimp only; rw [← ra1, ← rb1]
        linear_combination ((s1.p0.2 : ℝ) - s3.p0.2) * ha - ((s1.p0.1 : ℝ) - s3.p0.1) * hb
      unfold OnRight at r3
      have h := mul_nonpos_of_nonneg_of_nonpos B0R.le r3
      rw [e] at h
      have : (0 : ℝ) ≤ dy := (mul_nonneg_iff_of_pos_left hB2p).1 (by linarith)
      exact_mod_cast this
    have pQ : 0 ≤ dx * dy := mul_nonneg pdx pdy
    have hQ : Real.sqrt ((dx * dy : Int) : ℝ) * Real.sqrt ((dx * dy : Int) : ℝ) = dx * dy := by rw [sqrt_self pQ]; push_cast; ring
    obtain ⟨s, hs2, hsi⟩ : ∃ z : Int, (if idx = 2 then (2 : Int) else -2) = 2 * z ∧ z = if idx = 2 then 1 else -1 :=
      ⟨_, by split_ifs <;> norm_num, rfl⟩
    have hss : (s : ℝ) * s = 1 := by rw [hsi]; split_ifs <;> norm_num
    obtain ⟨Q, hQd⟩ : ∃ z : ℝ, z = Real.sqrt ((dx * dy : Int) : ℝ) := ⟨_, rfl⟩
    have Q0 : 0 ≤ Q := by rw [hQd]; exact Real.sqrt_nonneg _
    obtain ⟨W, hW⟩ : ∃ z : ℝ, z = ((dx : ℝ) + dy) / 2 := ⟨_, rfl⟩
    have W0 : 0 ≤ W := by
      have h1 : (0 : ℝ) ≤ dx := by exact_mod_cast pdx
      have h2 : (0 : ℝ) ≤ dy := by exact_mod_cast pdy
      rw [hW]; linarith
    have hcW : (((if c0 < 0 then -c0 else c0 : Int)) : ℝ) = 2 * W := by
      have e : c0 = -(dx + dy) := by rw [hc0, hdx, hdy]; ring
      have : (if c0 < 0 then -c0 else c0) = dx + dy := by split_ifs <;> omega
      rw [this, hW]; push_cast; ring
    obtain ⟨x, hx⟩ : ∃ z : ℝ, z = ((a0 : ℝ) * (2 * s) * Q + (b0 * b0 * ((s2.p1.1 : ℝ) + s3.p0.1) - a0 * b0 * ((s2.p1.2 : ℝ) + s3.p0.2 - s1.p0.2 * 2) +
      a0 * a0 * ((s1.p0.1 : ℝ) * 2))) / (2 * B0) := ⟨_, rfl⟩
    obtain ⟨y, hy⟩ : ∃ z : ℝ, z = ((b0 : ℝ) * (2 * s) * Q + (a0 * a0 * ((s2.p1.2 : ℝ) + s3.p0.2) - a0 * b0 * ((s2.p1.1 : ℝ) + s3.p0.1 - s1.p0.1 * 2) +
      b0 * b0 * ((s1.p0.2 : ℝ) * 2))) / (2 * B0) := ⟨_, rfl⟩
    obtain ⟨l1, l2, l3, l4⟩ := par_core rB0 B0R.ne' rdx rdy (by rw [hQd]; exact hQ) hss hW hx hy
    obtain ⟨T, hT⟩ : ∃ z : ℝ, z = -(W / Real.sqrt B0) := ⟨_, rfl⟩
    have hTu : T * Real.sqrt B0 = -W := by rw [hT, neg_mul, div_mul_cancel₀ _ pu1.ne']
    have t1 : turn (pt s2.p0) (pt s2.p1) (x, y) = T * Real.sqrt B0 := by
      rw [hTu, ← l1, ra0, rb0]; unfold turn pt; dsimp only; ring
    have t2 : turn (pt s3.p0) (pt s3.p1) (x, y) = T * Real.sqrt B1 := by
      apply mul_left_cancel₀ B0R.ne'
      unfold turn pt; dsimp only; rw [← ra1, ← rb1]
      linear_combination (y - s3.p0.2) * ha - (x - s3.p0.1) * hb + (B2 : ℝ) * l2 - B2 * hTu + T * Real.sqrt B1 * hu1 - T * Real.sqrt B0 * hB2u
    have h2B : (2 : ℝ) * ((B0 : Int) : ℝ) ≠ 0 := mul_ne_zero two_ne_zero B0R.ne'
    have hxB : x * (2 * (B0 : ℝ)) = (a0 : ℝ) * (2 * s) * Q + (b0 * b0 * ((s2.p1.1 : ℝ) + s3.p0.1) - a0 * b0 * ((s2.p1.2 : ℝ) + s3.p0.2 - s1.p0.2 * 2) +
      a0 * a0 * ((s1.p0.1 : ℝ) * 2)) := by rw [hx, div_mul_cancel₀ _ h2B]
    have hyB : y * (2 * (B0 : ℝ)) = (b0 : ℝ) * (2 * s) * Q + (a0 * a0 * ((s2.p1.2 : ℝ) + s3.p0.2) - a0 * b0 * ((s2.p1.1 : ℝ) + s3.p0.1 - s1.p0.1 * 2) +
      b0 * b0 * ((s1.p0.2 : ℝ) * 2)) := by rw [hy, div_mul_cancel₀ _ h2B]
    have hlow : x - T - x = -T := by ring
    have T0 : 0 ≤ -T := by rw [hT, neg_neg]; positivity
    refine ⟨⟨x, y, x - T⟩, ?_, ?_, ?_, ?_, ?_, ?_, ?_⟩
    · unfold mpPss
      simp only [← ha0, ← hb0, ← ha1, ← hb1, ← hor, ← hc0, ← hdx, ← hdy]
      rw [if_pos ho]
      simp only [← hB0, hs2]
      rw [C42_eval2 _ _ _ _ pQ (by norm_num)]
      simp only [Option.bind_eq_bind, Option.bind_some, C42_eval2 _ _ _ _ pQ (by norm_num : (0 : Int) ≤ 1),
        C42_eval3 _ _ _ _ _ _ pQ (by norm_num : (0 : Int) ≤ 1) pB0.le, ← hQd, hcW]
      rw [divE_of (z := y) h2B (by rw [hyB]; push_cast; rw [Real.sqrt_one]; ring),
        divE_of (z := x) h2B (by rw [hxB]; push_cast; rw [Real.sqrt_one]; ring),
        divE_of (z := x - T) h2B (by
          have e : T * (2 * (B0 : ℝ)) = -(2 * W) * Real.sqrt B0 := by linear_combination (2 * Real.sqrt B0) * hTu - 2 * T * hu1
          rw [sub_mul, hxB, e]; push_cast; rw [Real.sqrt_one]; ring)]
      rfl
    · dsimp only; rw [hlow]; exact T0
    · dsimp only; rw [hlow]
      refine away_eq T0 ?_
      apply mul_left_cancel₀ B0R.ne'
      have e : (B0 : ℝ) * (-T) ^ 2 = W ^ 2 := by linear_combination (T * Real.sqrt B0 - W) * hTu - T ^ 2 * hu1
      rw [e]; exact l3
    · dsimp only; rw [hlow]; exact right_unit pu1 hv1 t1
    · dsimp only; rw [hlow]; exact right_unit pu2 hv2 t2
    · intro q2 q3 h2 h3
      have e1 : ∀ z : ℝ, T * z / Real.sqrt B0 = -(W * z / B0) := by
        intro z
        rw [div_eq_iff pu1.ne', ← neg_div, div_mul_eq_mul_div, eq_div_iff B0R.ne']
        linear_combination (z * Real.sqrt B0) * hTu - T * z * hu1
      have e2 : ∀ z w : ℝ, z * B0 = w * B2 → T * z / Real.sqrt B1 = -(W * w / B0) := by
        intro z w h
        rw [div_eq_iff pu2.ne', ← neg_div, div_mul_eq_mul_div, eq_div_iff B0R.ne']
        linear_combination T * h + (w * Real.sqrt B1) * hTu - T * w * hB2u
      rw [contact_unit h2 n2 pu1 hv1 t1, contact_unit h3 n3 pu2 hv2 t2, ← ra1, ← rb1, e1, e1, e2 _ _ ha, e2 _ _ hb]
      have f1 : ∀ z w : ℝ, z = -w → -(W * z / B0) = W * w / B0 := by intro z w h; rw [h]; ring
      rw [f1 _ (b0 : ℝ) (by rw [rb0]; ring), f1 _ (a0 : ℝ) (by rw [ra0]; ring)]
      have f2 : ∀ v w : ℝ, v + -w = v - w := fun v w => by ring
      have f3 : ∀ v w : ℝ, v - -w = v + w := fun v w => by ring
      dsimp only
      rw [f2, f3]
      have hpt : pt s1.p0 = ((s1.p0.1 : ℝ), (s1.p0.2 : ℝ)) := rfl
      rw [hpt, l4, hsi]
      constructor
      · intro h; rw [if_pos h]; push_cast; positivity
      · intro h; rw [if_neg h]; push_cast
        have : 0 ≤ 2 * W * Q / B0 := by positivity
        have e : 2 * W * -1 * Q / (B0 : ℝ) = -(2 * W * Q / B0) := by ring
        rw [e]; linarith
    · refine ⟨a0, b0, a1, b1, or, B0, B1, B2, ha0, hb0, ha1, hb1, hor, hB0, hB1, hB2, pB0, pB1, fun _ => ⟨dx, dy, hdx, hdy, pdx, pdy, ?_, ?_, ?_⟩,
        fun h => absurd ho h⟩
      · dsimp only; rw [hT, ← hW, sub_neg_eq_add]
      · have e5 : ((if idx = 2 then 1 else -1 : ℝ)) = s := by rw [hsi]; split_ifs <;> norm_num
        dsimp only; rw [e5, ← hQd]; exact hxB
      · have e5 : ((if idx = 2 then 1 else -1 : ℝ)) = s := by rw [hsi]; split_ifs <;> norm_num
        dsimp only; rw [e5, ← hQd]; exact hyB
  · have q0 : 0 < Real.sqrt (B0 : ℝ) * Real.sqrt B1 + B2 := by
      have ror : (or : ℝ) = a1 * b0 - a0 * b1 := by rw [hor]; push_cast; ring
      have o2 : (0 : ℝ) < (or : ℝ) ^ 2 := by
        have : (or : ℝ) ≠ 0 := by exact_mod_cast ho
        positivity
      have e : (Real.sqrt (B0 : ℝ) * Real.sqrt B1) ^ 2 - (B2 : ℝ) ^ 2 = (or : ℝ) ^ 2 := by
        rw [ror, hB2]; push_cast
        have h1 : (B0 : ℝ) = a0 * a0 + b0 * b0 := by rw [hB0]; push_cast; ring
        have h2 : (B1 : ℝ) = a1 * a1 + b1 * b1 := by rw [hB1]; push_cast; ring
        linear_combination (Real.sqrt (B1 : ℝ) * Real.sqrt B1) * hu1 + B0 * hu2 + B0 * h2 + (a1 * a1 + b1 * b1 : ℝ) * h1
      have := (abs_lt_of_sq_lt_sq' (by linarith : (B2 : ℝ) ^ 2 < (Real.sqrt (B0 : ℝ) * Real.sqrt B1) ^ 2) (mul_pos pu1 pu2).le).1
      linarith
    obtain ⟨c0, hc0⟩ : ∃ z : Int, z = b0 * s2.p0.1 - a0 * s2.p0.2 := ⟨_, rfl⟩
    obtain ⟨c1, hc1⟩ : ∃ z : Int, z = a1 * s3.p1.2 - b1 * s3.p1.1 := ⟨_, rfl⟩
    obtain ⟨ix, hix⟩ : ∃ z : Int, z = a0 * c1 + a1 * c0 := ⟨_, rfl⟩
    obtain ⟨iy, hiy⟩ : ∃ z : Int, z = b0 * c1 + b1 * c0 := ⟨_, rfl⟩
    obtain ⟨dx, hdx⟩ : ∃ z : Int, z = ix - or * s1.p0.1 := ⟨_, rfl⟩
    obtain ⟨dy, hdy⟩ : ∃ z : Int, z = iy - or * s1.p0.2 := ⟨_, rfl⟩
    have oR : (or : ℝ) ≠ 0 := by exact_mod_cast ho
    have ror : (or : ℝ) = a1 * b0 - a0 * b1 := by rw [hor]; push_cast; ring
    have on1 : (a0 : ℝ) * iy - b0 * ix = or * (a0 * s2.p0.2 - b0 * s2.p0.1) := by rw [ror, hix, hiy, hc0, hc1]; push_cast; ring
    have on2 : (a1 : ℝ) * iy - b1 * ix = or * (a1 * s3.p1.2 - b1 * s3.p1.1) := by rw [ror, hix, hiy, hc0, hc1]; push_cast; ring
    have rdx : (dx : ℝ) = ix - or * s1.p0.1 := by rw [hdx]; push_cast; ring
    have rdy : (dy : ℝ) = iy - or * s1.p0.2 := by rw [hdy]; push_cast; ring
    have f1 : (a0 : ℝ) * dy - b0 * dx = or * turn (pt s2.p0) (pt s2.p1) (pt s1.p0) := by
      rw [rdx, rdy]; unfold turn pt; dsimp only
      linear_combination on1 + (or : ℝ) * ((s1.p0.2 : ℝ) - s2.p0.2) * -ra0 - (or : ℝ) * ((s1.p0.1 : ℝ) - s2.p0.1) * -rb0
    have f2 : (a1 : ℝ) * dy - b1 * dx = or * -turn (pt s3.p0) (pt s3.p1) (pt s1.p0) := by
      rw [rdx, rdy]; unfold turn pt; dsimp only
      rw [ra1, rb1] at on2 ⊢
      linear_combination on2
    have g1 : (or : ℝ) * (a0 * dy - b0 * dx) ≤ 0 := by
      rw [f1, ← mul_assoc]; exact mul_nonpos_of_nonneg_of_nonpos (mul_self_nonneg _) r2
    have g2 : 0 ≤ (or : ℝ) * (a1 * dy - b1 * dx) := by
      rw [f2, ← mul_assoc]; exact mul_nonneg (mul_self_nonneg _) (neg_nonneg.2 r3)
    have hlines : ∀ {x y m : ℝ}, x * or = ix + m * (a1 * Real.sqrt B0 + a0 * Real.sqrt B1) → y * or = iy + m * (b1 * Real.sqrt B0 + b0 * Real.sqrt B1) →
        turn (pt s2.p0) (pt s2.p1) (x, y) = m * Real.sqrt B0 ∧ turn (pt s3.p0) (pt s3.p1) (x, y) = m * Real.sqrt B1 := by
      intro x y m hx hy
      constructor
      · apply mul_left_cancel₀ oR
        have e : turn (pt s2.p0) (pt s2.p1) (x, y) = -(a0 * (y - s2.p0.2) - b0 * (x - s2.p0.1)) := by
          rw [ra0, rb0]; unfold turn pt; dsimp only; ring
        rw [e]
        linear_combination (-(a0 : ℝ)) * hy + b0 * hx - on1 - (m * Real.sqrt B0) * ror
      · apply mul_left_cancel₀ oR
        have e : turn (pt s3.p0) (pt s3.p1) (x, y) = a1 * (y - s3.p1.2) - b1 * (x - s3.p1.1) := by
          rw [ra1, rb1]; unfold turn pt; dsimp only; ring
        rw [e]
        linear_combination (a1 : ℝ) * hy - b1 * hx + on2 - (m * Real.sqrt B1) * ror
    by_cases hz : dx = 0 ∧ dy = 0
    · have ex : (ix : ℝ) = s1.p0.1 * or := by have := hz.1 ▸ rdx; push_cast at this; linarith
      have ey : (iy : ℝ) = s1.p0.2 * or := by have := hz.2 ▸ rdy; push_cast at this; linarith
      obtain ⟨t1, t2⟩ := hlines (x := s1.p0.1) (y := s1.p0.2) (m := 0) (by rw [ex]; ring) (by rw [ey]; ring)
      refine ⟨⟨s1.p0.1, s1.p0.2, s1.p0.1⟩, ?_, ?_, ?_, ?_, ?_, ?_, ?_⟩
      · unfold mpPss
        simp only [← ha0, ← hb0, ← ha1, ← hb1, ← hor, ← hc0, ← hc1, ← hix, ← hiy, ← hdx, ← hdy]
        rw [if_neg ho, if_pos hz, divE_of oR ex, divE_of oR ey]
        rfl
      · simp
      · dsimp only; rw [sub_self]; exact away_eq le_rfl (by unfold pt; ring)
      · dsimp only; rw [sub_self, ← neg_zero]; exact right_unit pu1 hv1 t1
      · dsimp only; rw [sub_self, ← neg_zero]; exact right_unit pu2 hv2 t2
      · intro q2 q3 h2 h3
        rw [contact_unit h2 n2 pu1 hv1 t1, contact_unit h3 n3 pu2 hv2 t2]
        simp [turn]
      · have i1 : ix = a0 * (a1 * s3.p1.2 - b1 * s3.p1.1) + a1 * (b0 * s2.p0.1 - a0 * s2.p0.2) := by rw [hix, hc0, hc1]
        have i2 : iy = b0 * (a1 * s3.p1.2 - b1 * s3.p1.1) + b1 * (b0 * s2.p0.1 - a0 * s2.p0.2) := by rw [hiy, hc0, hc1]
        refine ⟨a0, b0, a1, b1, or, B0, B1, B2, ha0, hb0, ha1, hb1, hor, hB0, hB1, hB2, pB0, pB1, fun h => absurd h ho, fun _ => ⟨ix, iy, dx, dy, 0, i1, i2,
          hdx, hdy, le_rfl, by dsimp only; rw [ex]; ring, by dsimp only; rw [ey]; ring, by simp, q0, ?_⟩⟩
        have z : (b0 * (s2.p0.1 - s1.p0.1) - a0 * (s2.p0.2 - s1.p0.2) : Int) = 0 := by
          have : (or : ℝ) * ((b0 * (s2.p0.1 - s1.p0.1) - a0 * (s2.p0.2 - s1.p0.2) : Int) : ℝ) = 0 := by
            push_cast
            linear_combination on1 - (a0 : ℝ) * ey + b0 * ex
          have := (mul_eq_zero.1 this).resolve_left oR
          exact_mod_cast this
        rw [z, hz.1, hz.2]
        simp
    · obtain ⟨B3, hB3⟩ : ∃ z : Int, z = (a0 * dy - b0 * dx) * (a1 * dy - b1 * dx) * -2 := ⟨_, rfl⟩
      have pB3 : 0 ≤ B3 := by
        have : (0 : ℝ) ≤ B3 := by
          rw [hB3]; push_cast
          have h := mul_nonneg (neg_nonneg.2 g1) g2
          have o2 : 0 < (or : ℝ) * or := mul_self_pos.2 oR
          have e : -((or : ℝ) * (a0 * dy - b0 * dx)) * (or * (a1 * dy - b1 * dx)) =
            or * or * -((a0 * dy - b0 * dx) * (a1 * dy - b1 * dx)) := by ring
          rw [e] at h
          have := (mul_nonneg_iff_of_pos_left o2).1 h
          linarith
        exact_mod_cast this
      obtain ⟨X, hX⟩ : ∃ z : ℝ, z = Real.sqrt B3 * Real.sqrt (Real.sqrt B0 * Real.sqrt B1 + B2) := ⟨_, rfl⟩
      have X0 : 0 ≤ X := by rw [hX]; positivity
      obtain ⟨s, hs⟩ : ∃ z : Int, z = (if idx = 2 then 1 else -1) * (if or < 0 then 1 else -1) := ⟨_, rfl⟩
      obtain ⟨K, hK⟩ : ∃ z : ℝ, z = ((a1 : ℝ) * -dx + b1 * -dy) * Real.sqrt B0 + (a0 * -dx + b0 * -dy) * Real.sqrt B1 + s * X := ⟨_, rfl⟩
      have hC : Cross (a0 : ℝ) b0 a1 b1 (Real.sqrt B0) (Real.sqrt B1) dx dy X s K or :=
        { hu1 := by rw [hu1, hB0]; push_cast; ring
          hu2 := by rw [hu2, hB1]; push_cast; ring
          p1 := pu1, p2 := pu2, hor := ror, or0 := oR
          hX := by
            have e3 := sqrt_self pB3
            have e4 := Real.mul_self_sqrt q0.le
            have : X * X = (Real.sqrt B3 * Real.sqrt B3) * (Real.sqrt (Real.sqrt B0 * Real.sqrt B1 + B2) * Real.sqrt (Real.sqrt B0 * Real.sqrt B1 + B2)) := by
              rw [hX]; ring
            rw [this, e3, e4, hB3, hB2]; push_cast; ring
          hs := by rw [hs]; split_ifs <;> norm_num
          hK := hK, r2 := g2, r1 := g1
          hne := by rintro ⟨h1, h2⟩; exact hz ⟨by exact_mod_cast h1, by exact_mod_cast h2⟩ }
      have hKn := hC.K_neg
      have hdp := hC.d_pos
      have hKo : K * or ≠ 0 := mul_ne_zero hKn.ne oR
      obtain ⟨x, hx⟩ : ∃ z : ℝ, z = ((a1 * Real.sqrt B0 + a0 * Real.sqrt B1) * ((dx : ℝ) * dx + dy * dy) + ix * K) / (K * or) := ⟨_, rfl⟩
      obtain ⟨y, hy⟩ : ∃ z : ℝ, z = ((b1 * Real.sqrt B0 + b0 * Real.sqrt B1) * ((dx : ℝ) * dx + dy * dy) + iy * K) / (K * or) := ⟨_, rfl⟩
      obtain ⟨T, hT⟩ : ∃ z : ℝ, z = ((dx : ℝ) * dx + dy * dy) / K := ⟨_, rfl⟩
      have hTK : T * K = (dx : ℝ) * dx + dy * dy := by rw [hT, div_mul_cancel₀ _ hKn.ne]
      have hxK : x * (K * or) = (a1 * Real.sqrt B0 + a0 * Real.sqrt B1) * ((dx : ℝ) * dx + dy * dy) + ix * K := by rw [hx, div_mul_cancel₀ _ hKo]
      have hyK : y * (K * or) = (b1 * Real.sqrt B0 + b0 * Real.sqrt B1) * ((dx : ℝ) * dx + dy * dy) + iy * K := by rw [hy, div_mul_cancel₀ _ hKo]
      have hTn : T < 0 := by rw [hT]; exact div_neg_of_pos_of_neg hdp hKn
      obtain ⟨t1, t2⟩ := hlines (x := x) (y := y) (m := T)
        (by apply mul_left_cancel₀ hKn.ne; linear_combination hxK - (a1 * Real.sqrt B0 + a0 * Real.sqrt B1) * hTK)
        (by apply mul_left_cancel₀ hKn.ne; linear_combination hyK - (b1 * Real.sqrt B0 + b0 * Real.sqrt B1) * hTK)
      have tp := hC.point (px := s1.p0.1) (py := s1.p0.2) rdx rdy
      have tt := hC.turn_eq (px := s1.p0.1) (py := s1.p0.2) rdx rdy
      dsimp only at tt
      rw [← hx, ← hy, ← hT] at tt
      rw [← hx, ← hy, neg_div, ← hT] at tp
      have hlow : x - T - x = -T := by ring
      refine ⟨⟨x, y, x - T⟩, ?_, ?_, ?_, ?_, ?_, ?_, ?_⟩
      · unfold mpPss
        simp only [← ha0, ← hb0, ← ha1, ← hb1, ← hor, ← hc0, ← hc1, ← hix, ← hiy, ← hdx, ← hdy]
        rw [if_neg ho, if_neg hz]
        simp only [← hB0, ← hB1, ← hB2, ← hB3, ← hs]
        rw [pss4_eq _ _ _ _ _ _ _ _ pB0.le pB1.le pB3 q0.le]
        simp only [Option.bind_eq_bind, Option.bind_some, pss4_eq _ _ _ _ _ _ _ _ pB0.le pB1.le pB3 q0.le, ← hX]
        have eK : ((a1 * -dx + b1 * -dy : Int) : ℝ) * Real.sqrt B0 + ((a0 * -dx + b0 * -dy : Int) : ℝ) * Real.sqrt B1 + ((0 : Int) : ℝ) + (s : ℝ) * X = K := by
          rw [hK]; push_cast; ring
        rw [eK, if_pos hKn]
        rw [divE_of (z := y) hKo (by rw [hyK, hK]; push_cast; ring), divE_of (z := x) hKo (by rw [hxK, hK]; push_cast; ring),
          divE_of (z := x - T) hKo (by rw [sub_mul, hxK, ← mul_assoc T, hTK, hK]; push_cast; ring)]
        rfl
      · dsimp only; rw [hlow]; linarith
      · dsimp only; rw [hlow]; exact away_eq (by linarith) tp
      · dsimp only; rw [hlow]; exact right_unit pu1 hv1 t1
      · dsimp only; rw [hlow]; exact right_unit pu2 hv2 t2
      · intro q2 q3 h2 h3
        rw [contact_unit h2 n2 pu1 hv1 t1, contact_unit h3 n3 pu2 hv2 t2]
        have e1 : (s2.p1.2 : ℝ) - s2.p0.2 = -b0 := by rw [rb0]; ring
        have e2 : (s2.p1.1 : ℝ) - s2.p0.1 = -a0 := by rw [ra0]; ring
        rw [e1, e2, ← ra1, ← rb1]
        have hpt : pt s1.p0 = ((s1.p0.1 : ℝ), (s1.p0.2 : ℝ)) := rfl
        rw [hpt, tt]
        have hTu : T / (Real.sqrt B0 * Real.sqrt B1) ≤ 0 := div_nonpos_of_nonpos_of_nonneg hTn.le (mul_pos pu1 pu2).le
        have hso : (idx = 2 → (s : ℝ) * X / or ≤ 0) ∧ (idx ≠ 2 → 0 ≤ (s : ℝ) * X / or) := by
          constructor
          · intro hi
            by_cases hn : or < 0
            · have hnr : (or : ℝ) < 0 := by exact_mod_cast hn
              rw [hs, if_pos hi, if_pos hn]
              exact div_nonpos_of_nonneg_of_nonpos (by push_cast; linarith) hnr.le
            · have hnr : (0 : ℝ) ≤ or := by exact_mod_cast not_lt.1 hn
              rw [hs, if_pos hi, if_neg hn]
              exact div_nonpos_of_nonpos_of_nonneg (by push_cast; linarith) hnr
          · intro hi
            by_cases hn : or < 0
            · have hnr : (or : ℝ) < 0 := by exact_mod_cast hn
              rw [hs, if_neg hi, if_pos hn]
              exact div_nonneg_of_nonpos (by push_cast; linarith) hnr.le
            · have hnr : (0 : ℝ) ≤ or := by exact_mod_cast not_lt.1 hn
              rw [hs, if_neg hi, if_neg hn]
              exact div_nonneg (by push_cast; linarith) hnr
        exact ⟨fun hi => mul_nonneg_of_nonpos_of_nonpos hTu (hso.1 hi), fun hi => mul_nonpos_of_nonpos_of_nonneg hTu (hso.2 hi)⟩
      · have i1 : ix = a0 * (a1 * s3.p1.2 - b1 * s3.p1.1) + a1 * (b0 * s2.p0.1 - a0 * s2.p0.2) := by rw [hix, hc0, hc1]
        have i2 : iy = b0 * (a1 * s3.p1.2 - b1 * s3.p1.1) + b1 * (b0 * s2.p0.1 - a0 * s2.p0.2) := by rw [hiy, hc0, hc1]
        refine ⟨a0, b0, a1, b1, or, B0, B1, B2, ha0, hb0, ha1, hb1, hor, hB0, hB1, hB2, pB0, pB1, fun h => absurd h ho, fun _ => ⟨ix, iy, dx, dy, T, i1, i2,
          hdx, hdy, hTn.le, ?_, ?_, rfl, q0, ?_⟩⟩
        · apply mul_left_cancel₀ hKn.ne; linear_combination hxK - (a1 * Real.sqrt B0 + a0 * Real.sqrt B1) * hTK
        · apply mul_left_cancel₀ hKn.ne; linear_combination hyK - (b1 * Real.sqrt B0 + b0 * Real.sqrt B1) * hTK
        · have hT2 : T * (Real.sqrt B0 * Real.sqrt B1 + B2) ^ 2 =
              -((dx : ℝ) * (a1 * Real.sqrt B0 + a0 * Real.sqrt B1) + dy * (b1 * Real.sqrt B0 + b0 * Real.sqrt B1)) - s * X := by
            apply mul_left_cancel₀ hKn.ne
            have hq := hC.quad
            have rB2 : (B2 : ℝ) = a0 * a1 + b0 * b1 := by rw [hB2]; push_cast; ring
            have hK' : K + ((dx : ℝ) * (a1 * Real.sqrt B0 + a0 * Real.sqrt B1) + dy * (b1 * Real.sqrt B0 + b0 * Real.sqrt B1)) = s * X := by rw [hK]; ring
            rw [rB2]
            linear_combination hq + ((Real.sqrt B0 * Real.sqrt B1 + (a0 * a1 + b0 * b1 : ℝ)) ^ 2) * hTK - K * hK'
          rw [hT2]
          have g3 : ((b0 * (s2.p0.1 - s1.p0.1) - a0 * (s2.p0.2 - s1.p0.2) : Int) : ℝ) * or = -((a0 : ℝ) * dy - b0 * dx) := by
            rw [f1]; push_cast; rw [ra0, rb0]; unfold turn pt; dsimp only; ring
          have g4 : ((a1 * (s3.p1.2 - s1.p0.2) - b1 * (s3.p1.1 - s1.p0.1) : Int) : ℝ) * or = (a1 : ℝ) * dy - b1 * dx := by
            rw [f2]; push_cast; rw [ra1, rb1]; unfold turn pt; dsimp only; ring
          generalize ((b0 * (s2.p0.1 - s1.p0.1) - a0 * (s2.p0.2 - s1.p0.2) : Int) : ℝ) = m1 at g3
          generalize ((a1 * (s3.p1.2 - s1.p0.2) - b1 * (s3.p1.1 - s1.p0.1) : Int) : ℝ) = m2 at g4
          have hX2 : X = |(or : ℝ)| * Real.sqrt (2 * (Real.sqrt B0 * Real.sqrt B1 + B2) * m1 * m2) := by
            have e : (B3 : ℝ) = (or : ℝ) ^ 2 * (2 * (m1 * m2)) := by
              rw [hB3]; push_cast
              linear_combination (-2 * (or : ℝ) * m2) * g3 + 2 * ((a0 : ℝ) * dy - b0 * dx) * g4
            have e2 : (0 : ℝ) ≤ B3 := by exact_mod_cast pB3
            rw [hX, ← Real.sqrt_mul e2, e, ← Real.sqrt_sq_eq_abs, ← Real.sqrt_mul (sq_nonneg _)]
            congr 1; ring
          rw [hX2, hs]
          by_cases hn : or < 0
          · have hnr : (or : ℝ) < 0 := by exact_mod_cast hn
            rw [if_pos hn, abs_of_neg hnr]; push_cast; ring
          · have hnr : (0 : ℝ) ≤ or := by exact_mod_cast not_lt.1 hn
            rw [if_neg hn, abs_of_nonneg hnr]; push_cast; ring

/-- C94, a point and two segments, in any of the three orders: if the segments do not run the same way and the point is on the right of both, the
event is a circle through the point that touches the lines of the segments on the right of them, met clockwise. (If the point is where the lines
cross, the circle is that point.) -/
theorem C94_pss (s1 s2 s3 : Site) (k1 : s1.isSegment = false) (k2 : s2.isSegment = true) (k3 : s3.isSegment = true)
    (hw : ¬ SameWay (s2.p0, s2.p1) (s3.p0, s3.p1)) (r2 : OnRight s1.p0 s2.p0 s2.p1) (r3 : OnRight s1.p0 s3.p0 s3.p1) :
    (∃ c, formCircle s1 s2 s3 = some c ∧ 0 ≤ c.lower - c.x ∧ TouchesAll c.x c.y c.lower (shape s1) (shape s2) (shape s3) ∧
      Clockwise c.x c.y (shape s1) (shape s2) (shape s3)) ∧
    (∃ c, formCircle s2 s1 s3 = some c ∧ 0 ≤ c.lower - c.x ∧ TouchesAll c.x c.y c.lower (shape s2) (shape s1) (shape s3) ∧
      Clockwise c.x c.y (shape s2) (shape s1) (shape s3)) ∧
    (∃ c, formCircle s2 s3 s1 = some c ∧ 0 ≤ c.lower - c.x ∧ TouchesAll c.x c.y c.lower (shape s2) (shape s3) (shape s1) ∧
      Clockwise c.x c.y (shape s2) (shape s3) (shape s1)) := by
  rw [shape_point k1, shape_line k2, shape_line k3]
  have rot : ∀ a b c : ℝ × ℝ, turn c a b = turn a b c := by intro a b c; unfold turn; ring
  have flip : ∀ a b c : ℝ × ℝ, turn a c b = -turn a b c := by intro a b c; unfold turn; ring
  refine ⟨?_, ?_, ?_⟩
  · obtain ⟨c, e, hr, t1, t2, t3, hc, -⟩ := pss_event s1 s2 s3 1 k2 k3 hw r2 r3
    refine ⟨c, by simp [formCircle, k1, k2, k3, e], hr, ⟨t1, t2, t3⟩, fun q1 q2 q3 e1 e2 e3 => ?_⟩
    simp only [Contact] at e1
    rw [e1, rot]
    exact (hc q2 q3 e2 e3).2 (by norm_num)
  · obtain ⟨c, e, hr, t1, t2, t3, hc, -⟩ := pss_event s1 s2 s3 2 k2 k3 hw r2 r3
    refine ⟨c, by simp [formCircle, k1, k2, k3, e], hr, ⟨t2, t1, t3⟩, fun q1 q2 q3 e1 e2 e3 => ?_⟩
    simp only [Contact] at e2
    rw [e2, flip, neg_nonpos]
    exact (hc q1 q3 e1 e3).1 rfl
  · obtain ⟨c, e, hr, t1, t2, t3, hc, -⟩ := pss_event s1 s2 s3 3 k2 k3 hw r2 r3
    refine ⟨c, by simp [formCircle, k1, k2, k3, e], hr, ⟨t2, t3, t1⟩, fun q1 q2 q3 e1 e2 e3 => ?_⟩
    simp only [Contact] at e3
    rw [e3]
    exact (hc q1 q2 e1 e2).2 (by norm_num)

/-- The point `(3, -2)` is on the right of the segments from `(0, 0)` to `(0, 7)` and from `(0, 0)` to `(5, 1)`, and of those from `(0, 0)` to
`(0, 7)` and from `(9, 7)` to `(9, 1)`, which are parallel. -/
example : ¬ SameWay ((0, 0), (0, 7)) ((0, 0), (5, 1)) ∧ OnRight (3, -2) (0, 0) (0, 7) ∧ OnRight (3, -2) (0, 0) (5, 1) ∧
    ¬ SameWay ((0, 0), (0, 7)) ((9, 7), (9, 1)) ∧ Parallel ((0, 0), (0, 7)) ((9, 7), (9, 1)) ∧ OnRight (3, -2) (9, 7) (9, 1) := by
  norm_num [OnRight, SameWay, Parallel, turn, pt]

theorem unit_ne {a b : (Int × Int) × (Int × Int)} {l m : ℝ} (hl : 0 < l) (hm : 0 < m)
    (hll : l * l = ((a.2.1 : ℝ) - a.1.1) ^ 2 + ((a.2.2 : ℝ) - a.1.2) ^ 2) (h : ¬ SameWay a b) :
    ¬ (((a.2.1 : ℝ) - a.1.1) / l = ((b.2.1 : ℝ) - b.1.1) / m ∧ ((a.2.2 : ℝ) - a.1.2) / l = ((b.2.2 : ℝ) - b.1.2) / m) := by
  rintro ⟨h1, h2⟩
  rw [div_eq_div_iff hl.ne' hm.ne'] at h1 h2
  apply h
  constructor
  · have : (((a.2.1 - a.1.1) * (b.2.2 - b.1.2) - (a.2.2 - a.1.2) * (b.2.1 - b.1.1) : Int) : ℝ) = 0 := by
      apply mul_left_cancel₀ hl.ne'
      push_cast
      linear_combination ((a.2.2 : ℝ) - a.1.2) * h1 - ((a.2.1 : ℝ) - a.1.1) * h2
    exact_mod_cast this
  · have : (0 : ℝ) < (((a.2.1 - a.1.1) * (b.2.1 - b.1.1) + (a.2.2 - a.1.2) * (b.2.2 - b.1.2) : Int) : ℝ) := by
      have e : l * (((a.2.1 - a.1.1) * (b.2.1 - b.1.1) + (a.2.2 - a.1.2) * (b.2.2 - b.1.2) : Int) : ℝ) = l * (l * m) := by
        push_cast
        linear_combination (-((a.2.1 : ℝ) - a.1.1)) * h1 - ((a.2.2 : ℝ) - a.1.2) * h2 - m * hll
      rw [mul_left_cancel₀ hl.ne' e]; positivity
    exact_mod_cast this

/-- C94, three segments no two of which run the same way: the event is the one circle that has the same distance, with sign, from the three lines. -/
theorem C94_sss (s1 s2 s3 : Site) (k1 : s1.isSegment = true) (k2 : s2.isSegment = true) (k3 : s3.isSegment = true)
    (h12 : ¬ SameWay (s1.p0, s1.p1) (s2.p0, s2.p1)) (h13 : ¬ SameWay (s1.p0, s1.p1) (s3.p0, s3.p1))
    (h23 : ¬ SameWay (s2.p0, s2.p1) (s3.p0, s3.p1)) :
    ∃ c, formCircle s1 s2 s3 = some c ∧ ∀ x y lower, TouchesAll x y lower (shape s1) (shape s2) (shape s3) ↔ x = c.x ∧ y = c.y ∧ lower = c.lower := by
  rw [shape_line k1, shape_line k2, shape_line k3]
  have n1 := seg_ne k1
  have n2 := seg_ne k2
  have n3 := seg_ne k3
  obtain ⟨a0, ha0⟩ : ∃ z : Int, z = s1.p1.1 - s1.p0.1 := ⟨_, rfl⟩
  obtain ⟨a1, ha1⟩ : ∃ z : Int, z = s2.p1.1 - s2.p0.1 := ⟨_, rfl⟩
  obtain ⟨a2, ha2⟩ : ∃ z : Int, z = s3.p1.1 - s3.p0.1 := ⟨_, rfl⟩
  obtain ⟨b0, hb0⟩ : ∃ z : Int, z = s1.p1.2 - s1.p0.2 := ⟨_, rfl⟩
  obtain ⟨b1, hb1⟩ : ∃ z : Int, z = s2.p1.2 - s2.p0.2 := ⟨_, rfl⟩
  obtain ⟨b2, hb2⟩ : ∃ z : Int, z = s3.p1.2 - s3.p0.2 := ⟨_, rfl⟩
  obtain ⟨c0, hc0⟩ : ∃ z : Int, z = s1.p0.1 * s1.p1.2 - s1.p0.2 * s1.p1.1 := ⟨_, rfl⟩
  obtain ⟨c1, hc1⟩ : ∃ z : Int, z = s2.p0.1 * s2.p1.2 - s2.p0.2 * s2.p1.1 := ⟨_, rfl⟩
  obtain ⟨c2, hc2⟩ : ∃ z : Int, z = s3.p0.1 * s3.p1.2 - s3.p0.2 * s3.p1.1 := ⟨_, rfl⟩
  obtain ⟨B0, hB0⟩ : ∃ z : Int, z = a0 * a0 + b0 * b0 := ⟨_, rfl⟩
  obtain ⟨B1, hB1⟩ : ∃ z : Int, z = a1 * a1 + b1 * b1 := ⟨_, rfl⟩
  obtain ⟨B2, hB2⟩ : ∃ z : Int, z = a2 * a2 + b2 * b2 := ⟨_, rfl⟩
  have pB0 : 0 < B0 := by have := len_pos n1; rw [hB0, ha0, hb0]; linarith
  have pB1 : 0 < B1 := by have := len_pos n2; rw [hB1, ha1, hb1]; linarith
  have pB2 : 0 < B2 := by have := len_pos n3; rw [hB2, ha2, hb2]; linarith
  have p0 : 0 < Real.sqrt (B0 : ℝ) := Real.sqrt_pos.2 (by exact_mod_cast pB0)
  have p1 : 0 < Real.sqrt (B1 : ℝ) := Real.sqrt_pos.2 (by exact_mod_cast pB1)
  have p2 : 0 < Real.sqrt (B2 : ℝ) := Real.sqrt_pos.2 (by exact_mod_cast pB2)
  have ra0 : (a0 : ℝ) = (s1.p1.1 : ℝ) - s1.p0.1 := by rw [ha0]; push_cast; ring
  have ra1 : (a1 : ℝ) = (s2.p1.1 : ℝ) - s2.p0.1 := by rw [ha1]; push_cast; ring
  have ra2 : (a2 : ℝ) = (s3.p1.1 : ℝ) - s3.p0.1 := by rw [ha2]; push_cast; ring
  have rb0 : (b0 : ℝ) = (s1.p1.2 : ℝ) - s1.p0.2 := by rw [hb0]; push_cast; ring
  have rb1 : (b1 : ℝ) = (s2.p1.2 : ℝ) - s2.p0.2 := by rw [hb1]; push_cast; ring
  have rb2 : (b2 : ℝ) = (s3.p1.2 : ℝ) - s3.p0.2 := by rw [hb2]; push_cast; ring
  have u0 : Real.sqrt (B0 : ℝ) * Real.sqrt B0 = a0 * a0 + b0 * b0 := by rw [sqrt_self pB0.le, hB0]; push_cast; ring
  have u1 : Real.sqrt (B1 : ℝ) * Real.sqrt B1 = a1 * a1 + b1 * b1 := by rw [sqrt_self pB1.le, hB1]; push_cast; ring
  have u2 : Real.sqrt (B2 : ℝ) * Real.sqrt B2 = a2 * a2 + b2 * b2 := by rw [sqrt_self pB2.le, hB2]; push_cast; ring
  obtain ⟨l0, hl0⟩ : ∃ z : ℝ, z = Real.sqrt B0 := ⟨_, rfl⟩
  obtain ⟨l1, hl1⟩ : ∃ z : ℝ, z = Real.sqrt B1 := ⟨_, rfl⟩
  obtain ⟨l2, hl2⟩ : ∃ z : ℝ, z = Real.sqrt B2 := ⟨_, rfl⟩
  rw [← hl0] at p0 u0
  rw [← hl1] at p1 u1
  rw [← hl2] at p2 u2
  obtain ⟨den, hden⟩ : ∃ z : ℝ, z = ((a1 : ℝ) * b2 - a2 * b1) * l0 + ((a2 : ℝ) * b0 - a0 * b2) * l1 + ((a0 : ℝ) * b1 - a1 * b0) * l2 := ⟨_, rfl⟩
  have unit : ∀ {a b l : ℝ}, 0 < l → l * l = a * a + b * b → a / l * (a / l) + b / l * (b / l) = 1 := by
    intro a b l hl h
    rw [div_mul_div_comm, div_mul_div_comm, ← add_div, ← h, div_self (mul_pos hl hl).ne']
  have d0 : den ≠ 0 := by
    intro hz
    refine three_units (unit p0 u0) (unit p1 u1) (unit p2 u2) ?_ ?_ ?_ ?_
    · rw [ra0, rb0, ra1, rb1]
      exact unit_ne (a := (s1.p0, s1.p1)) (b := (s2.p0, s2.p1)) p0 p1 (by rw [u0, ra0, rb0]; ring) h12
    · rw [ra0, rb0, ra2, rb2]
      exact unit_ne (a := (s1.p0, s1.p1)) (b := (s3.p0, s3.p1)) p0 p2 (by rw [u0, ra0, rb0]; ring) h13
    · rw [ra1, rb1, ra2, rb2]
      exact unit_ne (a := (s2.p0, s2.p1)) (b := (s3.p0, s3.p1)) p1 p2 (by rw [u1, ra1, rb1]; ring) h23
    · obtain ⟨i0, hi0⟩ : ∃ i, l0 * i = 1 := ⟨l0⁻¹, mul_inv_cancel₀ p0.ne'⟩
      obtain ⟨i1, hi1⟩ : ∃ i, l1 * i = 1 := ⟨l1⁻¹, mul_inv_cancel₀ p1.ne'⟩
      obtain ⟨i2, hi2⟩ : ∃ i, l2 * i = 1 := ⟨l2⁻¹, mul_inv_cancel₀ p2.ne'⟩
      have e0 : ∀ z, z / l0 = z * i0 := fun z => by rw [div_eq_iff p0.ne']; linear_combination -z * hi0
      have e1 : ∀ z, z / l1 = z * i1 := fun z => by rw [div_eq_iff p1.ne']; linear_combination -z * hi1
      have e2 : ∀ z, z / l2 = z * i2 := fun z => by rw [div_eq_iff p2.ne']; linear_combination -z * hi2
      rw [e0, e0, e1, e1, e2, e2]
      rw [hden] at hz
      linear_combination (i0 * i1 * i2) * hz - ((a1 : ℝ) * b2 - a2 * b1) * i1 * i2 * hi0 - ((a2 : ℝ) * b0 - a0 * b2) * i0 * i2 * hi1 -
        ((a0 : ℝ) * b1 - a1 * b0) * i0 * i1 * hi2
  obtain ⟨nx, hnx⟩ : ∃ z : ℝ, z = ((a1 : ℝ) * c2 - a2 * c1) * l0 + ((a2 : ℝ) * c0 - a0 * c2) * l1 + ((a0 : ℝ) * c1 - a1 * c0) * l2 := ⟨_, rfl⟩
  obtain ⟨ny, hny⟩ : ∃ z : ℝ, z = ((b1 : ℝ) * c2 - b2 * c1) * l0 + ((b2 : ℝ) * c0 - b0 * c2) * l1 + ((b0 : ℝ) * c1 - b1 * c0) * l2 := ⟨_, rfl⟩
  obtain ⟨nr, hnr⟩ : ∃ z : ℝ, z = 0 + ((a1 : ℝ) * c2 - a2 * c1) * b0 + ((a2 : ℝ) * c0 - a0 * c2) * b1 + ((a0 : ℝ) * c1 - a1 * c0) * b2 := ⟨_, rfl⟩
  have core := sss_core (c0 := (c0 : ℝ)) (c1 := c1) (c2 := c2) hden d0
  rw [← hnx, ← hny, ← hnr] at core
  have line : ∀ {x y r l : ℝ} {s e : Int × Int} {a b c B : Int}, l = Real.sqrt B → 0 < l → B = a * a + b * b → a = e.1 - s.1 → b = e.2 - s.2 →
      c = s.1 * e.2 - s.2 * e.1 → (rightDist (x, y) s e = r ↔ (b : ℝ) * x - a * y - c = r * l) := by
    intro x y r l s e a b c B hl hp hB ha hb hc
    have hne : away (pt s) (pt e) = l := by rw [away_sq, hl, hB, ha, hb]; congr 2; ring
    unfold rightDist
    rw [hne, div_eq_iff hp.ne']
    have : -turn (pt s) (pt e) (x, y) = (b : ℝ) * x - a * y - c := by
      rw [ha, hb, hc]; unfold turn pt; push_cast; ring
    rw [this]
  refine ⟨⟨nx / den, ny / den, nx / den + nr / den⟩, ?_, ?_⟩
  · unfold formCircle
    simp only [k1, k2, k3, Bool.not_true, Bool.false_eq_true, if_false]
    unfold mpSss
    simp only [← ha0, ← hb0, ← ha1, ← hb1, ← ha2, ← hb2, ← hc0, ← hc1, ← hc2, ← hB0, ← hB1, ← hB2]
    rw [C42_eval3 _ _ _ _ _ _ pB0.le pB1.le pB2.le]
    simp only [Option.bind_eq_bind, Option.bind_some, C42_eval3 _ _ _ _ _ _ pB0.le pB1.le pB2.le, C42_eval4 _ _ _ _ _ _ _ _ pB0.le pB1.le pB2.le
      (by norm_num : (0 : Int) ≤ 1), ← hl0, ← hl1, ← hl2]
    have eden : ((a1 * b2 - a2 * b1 : Int) : ℝ) * l0 + ((a2 * b0 - a0 * b2 : Int) : ℝ) * l1 + ((a0 * b1 - a1 * b0 : Int) : ℝ) * l2 = den := by
      rw [hden]; push_cast; ring
    rw [eden, divE_of (z := ny / den) d0 (by rw [div_mul_cancel₀ _ d0, hny]; push_cast; ring),
      divE_of (z := nx / den) d0 (by rw [div_mul_cancel₀ _ d0, hnx]; push_cast; ring),
      divE_of (z := nx / den + nr / den) d0 (by
        rw [add_mul, div_mul_cancel₀ _ d0, div_mul_cancel₀ _ d0, hnx, hnr]; push_cast; rw [Real.sqrt_one]; ring)]
    rfl
  · intro x y lower
    unfold TouchesAll Touches
    dsimp only
    rw [line hl0 p0 hB0 ha0 hb0 hc0, line hl1 p1 hB1 ha1 hb1 hc1, line hl2 p2 hB2 ha2 hb2 hc2]
    constructor
    · rintro ⟨e0, e1, e2⟩
      have hx : x = nx / den := by
        rw [eq_div_iff d0, hnx, hden]
        linear_combination ((a2 : ℝ) * l1 - a1 * l2) * e0 + ((a0 : ℝ) * l2 - a2 * l0) * e1 + ((a1 : ℝ) * l0 - a0 * l1) * e2
      have hy : y = ny / den := by
        rw [eq_div_iff d0, hny, hden]
        linear_combination ((b2 : ℝ) * l1 - b1 * l2) * e0 + ((b0 : ℝ) * l2 - b2 * l0) * e1 + ((b1 : ℝ) * l0 - b0 * l1) * e2
      have hr : lower - x = nr / den := by
        rw [eq_div_iff d0, hnr, hden]
        linear_combination -((a1 : ℝ) * b2 - a2 * b1) * e0 - ((a2 : ℝ) * b0 - a0 * b2) * e1 - ((a0 : ℝ) * b1 - a1 * b0) * e2
      exact ⟨hx, hy, by rw [← hx]; linarith⟩
    · rintro ⟨hx, hy, hr⟩
      rw [hr, hx, hy, add_sub_cancel_left]
      exact ⟨by simpa using core 0, by simpa using core 1, by simpa using core 2⟩

/-- The sides of a triangle, gone round clockwise. -/
example : ¬ SameWay ((0, 0), (0, 3)) ((0, 3), (4, 0)) ∧ ¬ SameWay ((0, 0), (0, 3)) ((4, 0), (0, 0)) ∧ ¬ SameWay ((0, 3), (4, 0)) ((4, 0), (0, 0)) := by
  norm_num [SameWay, Parallel]

/-- Its event is the circle about `(1, 1)` with radius one. -/
example : formCircle ⟨(0, 0), (0, 3), 0, 0, 0⟩ ⟨(0, 3), (4, 0), 0, 0, 0⟩ ⟨(4, 0), (0, 0), 0, 0, 0⟩ = some ⟨1, 1, 2⟩ := by
  obtain ⟨c, e, h⟩ := C94_sss ⟨(0, 0), (0, 3), 0, 0, 0⟩ ⟨(0, 3), (4, 0), 0, 0, 0⟩ ⟨(4, 0), (0, 0), 0, 0, 0⟩ rfl rfl rfl
    (by norm_num [SameWay, Parallel]) (by norm_num [SameWay, Parallel]) (by norm_num [SameWay, Parallel])
  have s3 : Real.sqrt 9 = 3 := by rw [show (9 : ℝ) = 3 ^ 2 by norm_num]; exact Real.sqrt_sq (by norm_num)
  have s4 : Real.sqrt 16 = 4 := by rw [show (16 : ℝ) = 4 ^ 2 by norm_num]; exact Real.sqrt_sq (by norm_num)
  have s5' : Real.sqrt 25 = 5 := by rw [show (25 : ℝ) = 5 ^ 2 by norm_num]; exact Real.sqrt_sq (by norm_num)
  obtain ⟨h1, h2, h3⟩ := (h 1 1 2).1 (by
    refine ⟨?_, ?_, ?_⟩ <;> norm_num [shape, Site.isSegment, Touches, rightDist, turn, pt, away, s3, s4, s5'])
  rw [e, Option.some_inj]
  cases c
  simp_all

end Verif.Properties.VoronoiCircle
