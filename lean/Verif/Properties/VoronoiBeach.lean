import Verif.Model.VoronoiBeach
import Verif.Proofs.Beach
import Verif.Properties.VoronoiCircle
import Verif.Properties.VoronoiSites
/-!
# C96: the order of the beach line
-/
namespace Verif.Properties.VoronoiBeach
open Verif.Voronoi Verif.Spec Verif.Spec.Circle Verif.Spec.Beach Verif.BeachProofs Verif.Robust Verif.Machine Verif.Segment
open Verif.Properties.VoronoiCircle Verif.Properties.VoronoiSites

theorem pointArc_eq {s : Site} {p : Int × Int} (h : s.p0.1 < p.1) : pointArc s p = some (tP s.p0.1 s.p0.2 p.1 p.2) := by
  have : (s.p0.1 : ℝ) < p.1 := by exact_mod_cast h
  unfold pointArc tP
  simp only
  rw [divE, if_neg (by linarith)]

theorem segmentArc_eq {s : Site} {p : Int × Int} (h0 : P32 s.p0) (h1 : P32 s.p1) (h2 : P32 p)
    (hL : 0 < away (pt s.p0) (pt s.p1) + ((s.p1.2 : ℝ) - s.p0.2)) (hne : s.p0 ≠ s.p1) :
    segmentArc s p = some (tS s.p0.1 s.p0.2 ((s.p1.1 : ℝ) - s.p0.1) ((s.p1.2 : ℝ) - s.p0.2) (away (pt s.p0) (pt s.p1)) p.1 p.2) := by
  obtain ⟨q0, q1⟩ := away_pos hne
  unfold segmentArc tS
  by_cases hv : s.isVertical = true
  · rw [if_pos hv, Option.some_inj, eq_div_iff hL.ne']
    have e : (s.p1.1 : ℝ) = s.p0.1 := by have : s.p0.1 = s.p1.1 := by simpa [Site.isVertical] using hv
                                         exact_mod_cast this.symm
    rw [e, sub_self, zero_mul, zero_add] at q1
    rw [e, sub_self, zero_mul]
    have hb : away (pt s.p0) (pt s.p1) = (s.p1.2 : ℝ) - s.p0.2 := by nlinarith
    rw [hb]; ring
  · rw [if_neg hv]
    have ha : (s.p1.1 : ℝ) - s.p0.1 ≠ 0 := by
      intro h; apply hv
      have : s.p1.1 = s.p0.1 := by exact_mod_cast sub_eq_zero.1 h
      simp [Site.isVertical, this]
    have hk : Real.sqrt (((s.p1.1 : ℝ) - s.p0.1) * (s.p1.1 - s.p0.1) + ((s.p1.2 : ℝ) - s.p0.2) * (s.p1.2 - s.p0.2)) = away (pt s.p0) (pt s.p1) := by
      rw [← q1]; exact Real.sqrt_mul_self q0.le
    simp only [hk, C38_value_exact _ _ _ h0 h1 h2, Option.bind_eq_bind, Option.bind_some]
    have fin : (1 / (away (pt s.p0) (pt s.p1) + ((s.p1.2 : ℝ) - s.p0.2))) * (cross s.p0 s.p1 s.p0 p : Int) =
        (((s.p1.1 : ℝ) - s.p0.1) * (p.2 - s.p0.2) - ((s.p1.2 : ℝ) - s.p0.2) * (p.1 - s.p0.1)) / (away (pt s.p0) (pt s.p1) + ((s.p1.2 : ℝ) - s.p0.2)) := by
      unfold cross; push_cast; ring
    by_cases hb : s.p1.2 - s.p0.2 < 0
    · rw [if_neg (not_not.2 hb), divE, if_neg (mul_ne_zero ha ha)]
      simp only [Option.bind_some, Option.pure_def, Option.some_inj]
      rw [← fin]
      congr 1
      rw [div_eq_div_iff (mul_ne_zero ha ha) hL.ne']
      linear_combination q1
    · rw [if_pos hb, divE, if_neg (by linarith)]
      simp only [Option.bind_some, Option.pure_def, Option.some_inj]
      rw [← fin, add_comm ((s.p1.2 : ℝ) - s.p0.2)]

/-- The inverse flag tells whether the segment is directed from its greater to its lesser end. -/
def Directed (s : Site) : Prop := s.isInverse = pointLess s.p1 s.p0

/-- The height of the new point over the height at which the arc of the point `l` is farthest in front of the segment `r`, times a positive number. -/
noncomputable def over (l r : Site) (p : Int × Int) : ℝ :=
  ((p.2 : ℝ) - l.p0.2) * (away (pt r.p0) (pt r.p1) + ((r.p1.2 : ℝ) - r.p0.2)) + ((r.p1.1 : ℝ) - r.p0.1) * (p.1 - l.p0.1)

/-- Within the coordinate range the orientation test of the fast path is exact where it matters. -/
theorem left_exact {l r : Site} {p : Int × Int} (h0 : P32 l.p0) (h1 : P32 r.p0) (h2 : P32 r.p1) (h3 : P32 p) (hx : l.p0.1 < p.1)
    (hr : cross r.p0 r.p1 r.p0 p < 0) :
    ∃ v, evalDifs (r.p1.1 - r.p0.1) (r.p1.2 - r.p0.2) (p.1 - l.p0.1) (p.2 - l.p0.2) = some v ∧
      (v = LEFT ↔ 0 < (r.p1.1 - r.p0.1) * (p.2 - l.p0.2) - (r.p1.2 - r.p0.2) * (p.1 - l.p0.1)) := by
  simp only [P32, I32] at h0 h1 h2 h3
  unfold evalDifs
  rw [robustCross_eq (by rw [abs_lt]; omega) (by rw [abs_lt]; omega) (by rw [abs_lt]; omega) (by rw [abs_lt]; omega)]
  refine ⟨_, rfl, ?_⟩
  obtain ⟨v, hv⟩ : ∃ v, v = (r.p1.1 - r.p0.1) * (p.2 - l.p0.2) - (r.p1.2 - r.p0.2) * (p.1 - l.p0.1) := ⟨_, rfl⟩
  rw [← hv]
  have hbound : 0 < v → v < 2 ^ 64 := by
    intro hp
    unfold cross at hr
    generalize r.p0.1 = x0 at *
    generalize r.p0.2 = y0 at *
    generalize r.p1.1 = x1 at *
    generalize r.p1.2 = y1 at *
    generalize p.1 = px at *
    generalize p.2 = py at *
    generalize l.p0.1 = lx at *
    generalize l.p0.2 = ly at *
    rcases le_or_gt 0 (x1 - x0) with ha | ha <;> rcases le_or_gt 0 (y1 - y0) with hb | hb
    · have : (x1 - x0) * (py - ly) ≤ (2 ^ 32 - 1) * (2 ^ 32 - 1) := by
        by_cases hd : 0 ≤ py - ly
        · exact mul_le_mul (by omega) (by omega) hd (by norm_num)
        · have := mul_nonneg ha (by omega : 0 ≤ -(py - ly)); nlinarith
      have := mul_nonneg hb (by omega : 0 ≤ px - lx)
      rw [hv]; omega
    · have e1 : v < (x1 - x0) * (y0 - ly) + (y0 - y1) * (x0 - lx) := by rw [hv]; nlinarith
      have e2 : (x1 - x0) * (y0 - ly) ≤ (x1 - x0) * (y0 + 2 ^ 31) := mul_le_mul_of_nonneg_left (by omega) ha
      have e3 : (y0 - y1) * (x0 - lx) ≤ (y0 - y1) * (x0 + 2 ^ 31) := mul_le_mul_of_nonneg_left (by omega) (by omega)
      have e4 : (y0 - y1) * (x0 + 2 ^ 31) ≤ (y0 + 2 ^ 31) * (x0 + 2 ^ 31) := mul_le_mul_of_nonneg_right (by omega) (by omega)
      have e5 : (y0 + 2 ^ 31) * (x1 + 2 ^ 31) ≤ (2 ^ 32 - 1) * (2 ^ 32 - 1) := mul_le_mul (by omega) (by omega) (by omega) (by norm_num)
      nlinarith
    · have : (x0 - x1) * (ly - py) ≤ (2 ^ 32 - 1) * (2 ^ 32 - 1) := by
        by_cases hd : 0 ≤ ly - py
        · exact mul_le_mul (by omega) (by omega) hd (by norm_num)
        · have := mul_nonneg (by omega : 0 ≤ x0 - x1) (by omega : 0 ≤ -(ly - py)); nlinarith
      have := mul_nonneg hb (by omega : 0 ≤ px - lx)
      rw [hv]; nlinarith
    · have e1 : v < (y0 - y1) * (x0 - lx) + (x0 - x1) * (ly - y0) := by rw [hv]; nlinarith
      have e2 : (y0 - y1) * (x0 - lx) ≤ (y0 - y1) * (x0 + 2 ^ 31) := mul_le_mul_of_nonneg_left (by omega) (by omega)
      have e3 : (x0 - x1) * (ly - y0) ≤ (x0 - x1) * (2 ^ 31 - 1 - y0) := mul_le_mul_of_nonneg_left (by omega) (by omega)
      have e4 : (x0 - x1) * (2 ^ 31 - 1 - y0) ≤ (x0 + 2 ^ 31) * (2 ^ 31 - 1 - y0) := mul_le_mul_of_nonneg_right (by omega) (by omega)
      have e5 : (x0 + 2 ^ 31) * (2 ^ 31 - 1 - y1) ≤ (2 ^ 32 - 1) * (2 ^ 32 - 1) := mul_le_mul (by omega) (by omega) (by omega) (by norm_num)
      nlinarith
  rcases lt_trichotomy v 0 with h | h | h
  · rw [Int.sign_eq_neg_one_of_neg h]
    have hu : 0 ≤ u64 |v| := Int.emod_nonneg _ (by norm_num)
    unfold evalSign
    split_ifs with g1 g2
    · exact iff_of_false (by decide) (by omega)
    · exact iff_of_false (by decide) (by omega)
    · omega
  · simp [h, evalSign]
  · rw [abs_of_pos h, u64_id h.le (hbound h), Int.sign_eq_one_of_pos h, one_mul]
    unfold evalSign
    rw [if_neg h.ne', if_neg h.not_gt]
    simp [h]

theorem fast_spec {l r : Site} {p : Int × Int} (h0 : P32 l.p0) (h1 : P32 r.p0) (h2 : P32 r.p1) (h3 : P32 p) (hx : l.p0.1 < p.1)
    (hne : r.p0 ≠ r.p1) (hd : Directed r) (rev : Bool) :
    ∃ f, fastPS l r p rev = some f ∧
      (0 ≤ cross r.p0 r.p1 r.p0 p → f = if pointLess r.p1 r.p0 then .more else .less) ∧
      (cross r.p0 r.p1 r.p0 p < 0 → 0 < away (pt r.p0) (pt r.p1) + ((r.p1.2 : ℝ) - r.p0.2) →
        (rev = false → (over l r p < 0 → f = .more) ∧ (0 ≤ over l r p → f = .undefined)) ∧
        (rev = true → (0 < over l r p → f = .less) ∧ (over l r p ≤ 0 → f = .undefined))) := by
  obtain ⟨q0, q1⟩ := away_pos hne
  unfold fastPS
  rw [evalPts_eq h1 h2 h3]
  simp only [Option.bind_eq_bind, Option.bind_some]
  by_cases hc : cross r.p0 r.p1 r.p0 p < 0
  · rw [Int.sign_eq_neg_one_of_neg hc]
    simp only [ne_eq, not_true_eq_false, if_false]
    by_cases hv : r.isVertical = true
    · rw [if_pos hv]
      have e : (r.p1.1 : ℝ) = r.p0.1 := by
        have : r.p0.1 = r.p1.1 := by simpa [Site.isVertical] using hv
        exact_mod_cast this.symm
      have ho : over l r p = ((p.2 : ℝ) - l.p0.2) * (away (pt r.p0) (pt r.p1) + ((r.p1.2 : ℝ) - r.p0.2)) := by unfold over; rw [e]; ring
      have s1 : 0 < away (pt r.p0) (pt r.p1) + ((r.p1.2 : ℝ) - r.p0.2) → (over l r p < 0 ↔ p.2 < l.p0.2) ∧ (0 < over l r p ↔ l.p0.2 < p.2) := by
        intro hL
        rw [ho, show ∀ x : ℝ, x * (away (pt r.p0) (pt r.p1) + ((r.p1.2 : ℝ) - r.p0.2)) < 0 ↔ x < 0 from fun x =>
          ⟨fun h => by by_contra hc; push Not at hc; exact absurd (mul_nonneg hc hL.le) (not_le.2 h), fun h => mul_neg_of_neg_of_pos h hL⟩,
          mul_pos_iff_of_pos_right hL, sub_neg, sub_pos]
        norm_cast
      refine ⟨if p.2 < l.p0.2 ∧ rev = false then .more else if p.2 > l.p0.2 ∧ rev = true then .less else .undefined, ?_,
        fun h => absurd h (not_le.2 hc), fun _ hL => ?_⟩
      · split_ifs <;> rfl
      · obtain ⟨g1, g2⟩ := s1 hL
        refine ⟨fun hrev => ⟨fun hE => ?_, fun hE => ?_⟩, fun hrev => ⟨fun hE => ?_, fun hE => ?_⟩⟩
        · rw [if_pos ⟨g1.1 hE, hrev⟩]
        · rw [if_neg (fun h => absurd (g1.2 h.1) (not_lt.2 hE)), if_neg (by simp [hrev])]
        · rw [if_neg (by simp [hrev]), if_pos ⟨g2.1 hE, hrev⟩]
        · rw [if_neg (by simp [hrev]), if_neg (fun h => absurd (g2.2 h.1) (not_lt.2 hE))]
    · rw [if_neg hv]
      obtain ⟨v, hv1, hv2⟩ := left_exact h0 h1 h2 h3 hx hc
      rw [hv1]
      simp only [Option.bind_some]
      have ha0 : r.p1.1 ≠ r.p0.1 := by intro h; apply hv; simp [Site.isVertical, h]
      obtain ⟨len, hlen⟩ : ∃ z, z = away (pt r.p0) (pt r.p1) := ⟨_, rfl⟩
      have hE : over l r p = ((p.2 - l.p0.2 : Int) : ℝ) * (len + (r.p1.2 - r.p0.2 : Int)) + (r.p1.1 - r.p0.1 : Int) * (p.1 - l.p0.1 : Int) := by
        unfold over; rw [hlen]; push_cast; ring
      have q1' : len * len = (r.p1.1 - r.p0.1 : Int) * (r.p1.1 - r.p0.1 : Int) + (r.p1.2 - r.p0.2 : Int) * (r.p1.2 - r.p0.2 : Int) := by
        rw [hlen, q1]; push_cast; ring
      have hless : pointLess r.p1 r.p0 = decide (r.p1.1 - r.p0.1 < 0) := by
        unfold pointLess; rw [if_neg ha0, decide_eq_decide]; omega
      rw [← hlen] at q0 ⊢
      rw [hE, hd, hless, show (r.p1.2 : ℝ) - r.p0.2 = ((r.p1.2 - r.p0.2 : Int) : ℝ) by push_cast; ring]
      have ha : r.p1.1 - r.p0.1 ≠ 0 := by omega
      have hdx : 0 < p.1 - l.p0.1 := by omega
      clear hE hlen hv q1 hless ha0
      generalize r.p1.1 - r.p0.1 = a at *
      generalize r.p1.2 - r.p0.2 = b at *
      generalize p.1 - l.p0.1 = dx at *
      generalize p.2 - l.p0.2 = dy at *
      have hdxr : (0 : ℝ) < dx := by exact_mod_cast hdx
      by_cases hl : v = LEFT
      · rw [if_pos hl]
        have hV : (0 : ℝ) < a * dy - b * dx := by exact_mod_cast hv2.1 hl
        have key : 0 < len + (b : ℝ) → 0 < (a : ℝ) * (dy * (len + b) + a * dx) := by
          intro hL
          have e : (a : ℝ) * (dy * (len + b) + a * dx) = (a * dy - b * dx) * (len + b) + dx * len * (len + b) := by linear_combination (-(dx : ℝ)) * q1'
          rw [e]
          have := mul_pos hV hL
          have := mul_pos (mul_pos hdxr q0) hL
          linarith
        by_cases hneg : a < 0
        · have har : (a : ℝ) < 0 := by exact_mod_cast hneg
          refine ⟨if rev then .undefined else .more, by simp [hneg], fun h => absurd h (not_le.2 hc), fun _ hL => ?_⟩
          have hE : (dy : ℝ) * (len + b) + a * dx < 0 := by
            by_contra hcc; push Not at hcc
            have := key hL
            nlinarith
          exact ⟨fun hrev => ⟨fun _ => by simp [hrev], fun h => absurd hE (not_lt.2 h)⟩, fun hrev => ⟨fun h => absurd hE (not_lt.2 h.le), fun _ => by simp [hrev]⟩⟩
        · have har : (0 : ℝ) < a := by exact_mod_cast (by omega : 0 < a)
          refine ⟨if rev then .less else .undefined, by simp [hneg], fun h => absurd h (not_le.2 hc), fun _ hL => ?_⟩
          have hE : 0 < (dy : ℝ) * (len + b) + a * dx := by
            by_contra hcc; push Not at hcc
            have := key hL
            nlinarith
          exact ⟨fun hrev => ⟨fun h => absurd hE (not_lt.2 h.le), fun _ => by simp [hrev]⟩, fun hrev => ⟨fun _ => by simp [hrev], fun h => absurd hE (not_lt.2 h)⟩⟩
      · rw [if_neg hl]
        have hV : (a : ℝ) * dy - b * dx ≤ 0 := by
          have := mt hv2.2 hl
          exact_mod_cast not_lt.1 this
        refine ⟨_, rfl, fun h => absurd h (not_le.2 hc), fun _ hL => ?_⟩
        have ff := fast_form (a := (a : ℝ)) (b := b) (len := len) (dx := dx) (dy := dy) q1'
        have hneg : (a : ℝ) * dy - b * dx - len * dx < 0 := by have := mul_pos q0 hdxr; linarith
        obtain ⟨Q, hQ⟩ : ∃ Q : ℝ, Q = (a : ℝ) * (dy + dx) * (dy - dx) - 2 * b * dx * dy := ⟨_, rfl⟩
        rw [← hQ] at ff
        have k1 : a * (dy + dx) * (dy - dx) > 2 * b * dx * dy ↔ 0 < Q := by
          rw [hQ, sub_pos, gt_iff_lt]; exact_mod_cast Iff.rfl
        have k2 : a * (dy + dx) * (dy - dx) = 2 * b * dx * dy ↔ Q = 0 := by
          rw [hQ, sub_eq_zero]; exact_mod_cast Iff.rfl
        obtain ⟨En, hEn⟩ : ∃ z : ℝ, z = (dy : ℝ) * (len + b) + a * dx := ⟨_, rfl⟩
        rw [← hEn] at ff ⊢
        have m1 : En < 0 → 0 < Q := by intro h; by_contra hcc; push Not at hcc; nlinarith [mul_pos_of_neg_of_neg hneg h]
        have m2 : 0 < En → Q < 0 := by intro h; by_contra hcc; push Not at hcc; nlinarith [mul_neg_of_neg_of_pos hneg h]
        have m3 : En = 0 → Q = 0 := by intro h; rw [h, mul_zero] at ff; exact (mul_eq_zero.1 ff).resolve_left hL.ne'
        refine ⟨fun hrev => ⟨fun h => ?_, fun h => ?_⟩, fun hrev => ⟨fun h => ?_, fun h => ?_⟩⟩
        · have := m1 h
          rw [if_pos (fun g => this.ne' (k2.1 g))]
          simp [hrev, k1.2 this]
        · rcases h.lt_or_eq with h | h
          · have := m2 h
            rw [if_pos (fun g => this.ne (k2.1 g))]
            simp [hrev, not_lt.1 (mt k1.1 this.not_gt)]
          · rw [if_neg (not_not.2 (k2.2 (m3 h.symm)))]
        · have := m2 h
          rw [if_pos (fun g => this.ne (k2.1 g))]
          simp [hrev, not_lt.1 (mt k1.1 this.not_gt)]
        · rcases h.lt_or_eq with h | h
          · have := m1 h
            rw [if_pos (fun g => this.ne' (k2.1 g))]
            simp [hrev, k1.2 this]
          · rw [if_neg (not_not.2 (k2.2 (m3 h)))]
  · rw [if_pos (by
      intro h
      rcases lt_trichotomy (cross r.p0 r.p1 r.p0 p) 0 with h' | h' | h'
      · exact hc h'
      · rw [h'] at h; exact absurd h (by decide)
      · rw [Int.sign_eq_one_of_pos h'] at h; exact absurd h (by decide))]
    refine ⟨_, rfl, fun _ => ?_, fun h => absurd h hc⟩
    rw [hd]; cases pointLess r.p1 r.p0 <;> rfl

theorem front_pp {a b : Int × Int} {w y : ℝ} (ha : (a.1 : ℝ) < w) (hb : (b.1 : ℝ) < w) :
    InFront w y (.point a) (.point b) ↔ tP b.1 b.2 w y < tP a.1 a.2 w y := by
  constructor
  · rintro ⟨X, hX, h⟩
    have := h (w + tP b.1 b.2 w y) ((arc_point hb).2 (by ring))
    rw [← (arc_point ha).1 hX]; linarith
  · intro h
    refine ⟨w + tP a.1 a.2 w y, (arc_point ha).2 (by ring), fun X' hX' => ?_⟩
    have := (arc_point hb).1 hX'
    linarith

theorem front_sp {s e a : Int × Int} {w : Int} {y : ℝ} (hb : Behind w (.line s e)) (ha : a.1 < w) (h : InFront (w : ℝ) y (.line s e) (.point a)) :
    tP a.1 a.2 w y < tS s.1 s.2 ((e.1 : ℝ) - s.1) ((e.2 : ℝ) - s.2) (away (pt s) (pt e)) w y := by
  have ha' : (a.1 : ℝ) < w := by exact_mod_cast ha
  obtain ⟨X, hX, h⟩ := h
  have := h (w + tP a.1 a.2 w y) ((arc_point ha').2 (by ring))
  rw [← (arc_behind hb hX).2]; linarith

/-- Two points: the answer is whether the new point lies above the height at which the lower arc gives way to the upper one. -/
theorem C96_points (l r : Site) (p : Int × Int) (kl : l.isSegment = false) (kr : r.isSegment = false)
    (hl : Behind p.1 (shape l)) (hr : Behind p.1 (shape r)) (Y : ℝ)
    (hm : MeetAt p.1 (shape l) (shape r) Y) (hg : GivesWay p.1 (shape l) (shape r) Y) :
    ∃ b, distance l r p = some b ∧ (b = true ↔ Y < p.2) := by
  rw [shape_point kl] at hl hm hg
  rw [shape_point kr] at hr hm hg
  have hl' : l.p0.1 < p.1 := hl
  have hr' : r.p0.1 < p.1 := hr
  have hlr : (l.p0.1 : ℝ) < p.1 := by exact_mod_cast hl'
  have hrr : (r.p0.1 : ℝ) < p.1 := by exact_mod_cast hr'
  obtain ⟨X, -, m1, m2⟩ := hm
  rw [arc_point hlr] at m1
  rw [arc_point hrr] at m2
  have hY : tP l.p0.1 l.p0.2 p.1 Y - tP r.p0.1 r.p0.2 p.1 Y = 0 := by rw [← m1, ← m2, sub_self]
  obtain ⟨α, hα⟩ : ∃ z : ℝ, z = 1 / (2 * ((l.p0.1 : ℝ) - p.1)) - 1 / (2 * ((r.p0.1 : ℝ) - p.1)) := ⟨_, rfl⟩
  obtain ⟨δ, hδ⟩ : ∃ z : ℝ, z = 2 * (Y - l.p0.2) * (1 / (2 * ((l.p0.1 : ℝ) - p.1))) - 2 * (Y - r.p0.2) * (1 / (2 * ((r.p0.1 : ℝ) - p.1))) := ⟨_, rfl⟩
  have ex : ∀ y, tP l.p0.1 l.p0.2 p.1 y - tP r.p0.1 r.p0.2 p.1 y = (y - Y) * (α * (y - Y) + δ) := by
    intro y
    rw [pp_expand Y y, hY, zero_add, hα, hδ]
  have hneg : δ < 0 := by
    obtain ⟨ε, hε, hg⟩ := hg
    refine falls (α := α) hε (fun h h0 h1 => ?_)
    obtain ⟨g1, g2⟩ := hg h h0 h1
    rw [front_pp hlr hrr] at g1
    rw [front_pp hrr hlr] at g2
    have e1 := ex (Y - h)
    have e2 := ex (Y + h)
    rw [show Y - h - Y = -h by ring] at e1
    rw [show Y + h - Y = h by ring] at e2
    constructor <;> linarith
  have cmp : ∀ o : Option Bool, o = (do
      let d1 ← pointArc l p
      let d2 ← pointArc r p
      return (open Classical in decide (d1 < d2))) → ∃ b, o = some b ∧ (b = true ↔ ((p.2 : ℝ) - Y) * (α * (p.2 - Y) + δ) < 0) := by
    intro o ho
    rw [pointArc_eq hl', pointArc_eq hr'] at ho
    refine ⟨_, ho, ?_⟩
    rw [decide_eq_true_iff, ← ex, sub_neg]
  simp only [distance, kl, kr, Bool.not_false, if_true]
  unfold distPP
  have inv : ∀ {u v : ℝ}, u < v → v < p.1 → 1 / (2 * (v - p.1)) < 1 / (2 * (u - p.1)) := by
    intro u v huv hv
    rw [one_div, one_div]
    exact (inv_lt_inv_of_neg (by linarith) (by linarith)).2 (by linarith)
  by_cases h1 : l.p0.1 > r.p0.1
  · simp only [if_pos h1]
    have h1r : (r.p0.1 : ℝ) < l.p0.1 := by exact_mod_cast h1
    have hα0 : α < 0 := by rw [hα]; have := inv h1r hlr; linarith
    have own := tP_own (ly := (l.p0.2 : ℝ)) (ry := r.p0.2) hlr h1r
    have hu : 0 < ((l.p0.2 : ℝ) - Y) * (α * (l.p0.2 - Y) + δ) := by rw [← ex]; linarith
    obtain ⟨d1, d2⟩ := pp_down (v := (p.2 : ℝ) - Y) hα0 hneg hu
    by_cases h2 : p.2 ≤ l.p0.2
    · refine ⟨false, by rw [if_pos h2], ?_⟩
      have : (p.2 : ℝ) ≤ l.p0.2 := by exact_mod_cast h2
      simp; linarith
    · rw [if_neg h2]
      obtain ⟨b, hb, hb'⟩ := cmp _ rfl
      refine ⟨b, hb, ?_⟩
      have : (l.p0.2 : ℝ) < p.2 := by exact_mod_cast not_le.1 h2
      rw [hb', d2 (by linarith), sub_pos]
  · simp only [if_neg h1]
    by_cases h2 : l.p0.1 < r.p0.1
    · simp only [if_pos h2]
      have h2r : (l.p0.1 : ℝ) < r.p0.1 := by exact_mod_cast h2
      have hα0 : 0 < α := by rw [hα]; have := inv h2r hrr; linarith
      have own := tP_own (ly := (r.p0.2 : ℝ)) (ry := l.p0.2) hrr h2r
      have hu : ((r.p0.2 : ℝ) - Y) * (α * (r.p0.2 - Y) + δ) < 0 := by rw [← ex]; linarith
      obtain ⟨d1, d2⟩ := pp_up (v := (p.2 : ℝ) - Y) hα0 hneg hu
      by_cases h3 : p.2 ≥ r.p0.2
      · refine ⟨true, by rw [if_pos h3], ?_⟩
        have : (r.p0.2 : ℝ) ≤ p.2 := by exact_mod_cast h3
        simp; linarith
      · rw [if_neg h3]
        obtain ⟨b, hb, hb'⟩ := cmp _ rfl
        refine ⟨b, hb, ?_⟩
        have : (p.2 : ℝ) < r.p0.2 := by exact_mod_cast not_le.1 h3
        rw [hb', d2 (by linarith), sub_pos]
    · simp only [if_neg h2]
      refine ⟨_, rfl, ?_⟩
      have e : (l.p0.1 : ℝ) = r.p0.1 := by exact_mod_cast (by omega : l.p0.1 = r.p0.1)
      have hD : (r.p0.1 : ℝ) - p.1 < 0 := by linarith
      have hi : 1 / (2 * ((r.p0.1 : ℝ) - p.1)) < 0 := one_div_neg.2 (by linarith)
      rw [e] at hδ hY
      have hd : ((r.p0.2 : ℝ) - l.p0.2) ≠ 0 := by
        intro h0
        have : (r.p0.2 : ℝ) = l.p0.2 := by linarith
        rw [hδ, this] at hneg; linarith
      have hs : (l.p0.2 : ℝ) + r.p0.2 = 2 * Y := by
        unfold tP at hY
        rw [← sub_div, div_eq_zero_iff] at hY
        rcases hY with h | h
        · have : ((r.p0.2 : ℝ) - l.p0.2) * (2 * Y - l.p0.2 - r.p0.2) = 0 := by linear_combination h
          have := (mul_eq_zero.1 this).resolve_left hd
          linarith
        · linarith
      rw [decide_eq_true_iff]
      have : ((l.p0.2 + r.p0.2 : Int) : ℝ) = 2 * Y := by push_cast; exact hs
      rw [← Int.cast_lt (R := ℝ), this]
      push_cast
      constructor <;> intro h <;> linarith

/-- For two points left of the sweep line, not one above the other in the wrong order, there is exactly one such height. -/
theorem C96_points_height (a b : Int × Int) (w : Int) (ha : a.1 < w) (hb : b.1 < w) (hab : a.1 = b.1 → a.2 < b.2) :
    ∃! Y : ℝ, MeetAt w (.point a) (.point b) Y ∧ GivesWay w (.point a) (.point b) Y := by
  have har : (a.1 : ℝ) < w := by exact_mod_cast ha
  have hbr : (b.1 : ℝ) < w := by exact_mod_cast hb
  obtain ⟨i, hi⟩ : ∃ z : ℝ, z = 1 / (2 * ((a.1 : ℝ) - w)) := ⟨_, rfl⟩
  obtain ⟨j, hj⟩ : ∃ z : ℝ, z = 1 / (2 * ((b.1 : ℝ) - w)) := ⟨_, rfl⟩
  have ex : ∀ Y y, tP a.1 a.2 w y - tP b.1 b.2 w y = tP a.1 a.2 w Y - tP b.1 b.2 w Y +
      (y - Y) * ((i - j) * (y - Y) + (2 * (Y - a.2) * i - 2 * (Y - b.2) * j)) := by
    intro Y y; rw [pp_expand Y y, hi, hj]
  have meet : ∀ Y, MeetAt w (.point a) (.point b) Y ↔ tP a.1 a.2 w Y - tP b.1 b.2 w Y = 0 := by
    intro Y
    constructor
    · rintro ⟨X, -, m1, m2⟩
      rw [arc_point har] at m1
      rw [arc_point hbr] at m2
      rw [← m1, ← m2, sub_self]
    · intro h
      refine ⟨w + tP a.1 a.2 w Y, ?_, (arc_point har).2 (by ring), (arc_point hbr).2 (by linarith)⟩
      have : tP a.1 a.2 w Y < 0 := by
        unfold tP
        apply div_neg_of_pos_of_neg _ (by linarith)
        have : 0 < ((a.1 : ℝ) - w) * (a.1 - w) := mul_pos_of_neg_of_neg (by linarith) (by linarith)
        nlinarith [mul_self_nonneg ((a.2 : ℝ) - Y)]
      linarith
  have way : ∀ Y, tP a.1 a.2 w Y - tP b.1 b.2 w Y = 0 → (GivesWay w (.point a) (.point b) Y ↔ 2 * (Y - a.2) * i - 2 * (Y - b.2) * j < 0) := by
    intro Y h0
    have exY := ex Y
    obtain ⟨δ, hδ⟩ : ∃ z : ℝ, z = 2 * (Y - a.2) * i - 2 * (Y - b.2) * j := ⟨_, rfl⟩
    simp only [← hδ, h0, zero_add] at exY ⊢
    have e1 : ∀ h, tP a.1 a.2 w (Y - h) - tP b.1 b.2 w (Y - h) = -h * ((i - j) * -h + δ) := by
      intro h; rw [exY, show Y - h - Y = -h by ring]
    have e2 : ∀ h, tP a.1 a.2 w (Y + h) - tP b.1 b.2 w (Y + h) = h * ((i - j) * h + δ) := by
      intro h; rw [exY, show Y + h - Y = h by ring]
    unfold GivesWay
    simp only [front_pp har hbr, front_pp hbr har]
    constructor
    · rintro ⟨ε, hε, hg⟩
      refine falls (α := i - j) hε (fun h g0 g1 => ?_)
      obtain ⟨g2, g3⟩ := hg h g0 g1
      have := e1 h
      have := e2 h
      constructor <;> linarith
    · intro hn
      have hpos : 0 < |i - j| + 1 := by positivity
      refine ⟨-δ / (|i - j| + 1), div_pos (by linarith) hpos, fun h g0 g1 => ?_⟩
      rw [lt_div_iff₀ hpos] at g1
      have hb1 : h * (i - j) ≤ h * |i - j| := mul_le_mul_of_nonneg_left (le_abs_self _) g0.le
      have hb2 : h * -(i - j) ≤ h * |i - j| := mul_le_mul_of_nonneg_left (neg_le_abs _) g0.le
      have a1 : (i - j) * -h + δ < 0 := by nlinarith
      have a2 : (i - j) * h + δ < 0 := by nlinarith
      have := e1 h
      have := e2 h
      have := mul_pos_of_neg_of_neg (neg_neg_iff_pos.2 g0) a1
      have := mul_neg_of_pos_of_neg g0 a2
      constructor <;> linarith
  -- a root with negative slope
  have root : ∃ Y, tP a.1 a.2 w Y - tP b.1 b.2 w Y = 0 ∧ 2 * (Y - a.2) * i - 2 * (Y - b.2) * j < 0 := by
    have gen : ∀ c : ℝ, (i - j) * (tP a.1 a.2 w c - tP b.1 b.2 w c) < 0 → ∃ Y, tP a.1 a.2 w Y - tP b.1 b.2 w Y = 0 ∧ 2 * (Y - a.2) * i - 2 * (Y - b.2) * j < 0 := by
      intro c hc
      obtain ⟨A, hA⟩ : ∃ z, z = i - j := ⟨_, rfl⟩
      obtain ⟨B, hB⟩ : ∃ z, z = 2 * (c - a.2) * i - 2 * (c - b.2) * j := ⟨_, rfl⟩
      obtain ⟨C, hC⟩ : ∃ z, z = tP a.1 a.2 w c - tP b.1 b.2 w c := ⟨_, rfl⟩
      have hA0 : A ≠ 0 := by intro h; rw [← hA, h, zero_mul] at hc; exact lt_irrefl _ hc
      rw [← hA, ← hC] at hc
      have hD : 0 < B * B - 4 * (A * C) := by nlinarith [mul_self_nonneg B]
      have hs := Real.mul_self_sqrt hD.le
      have hs0 := Real.sqrt_pos.2 hD
      obtain ⟨S, hS⟩ : ∃ z, z = Real.sqrt (B * B - 4 * (A * C)) := ⟨_, rfl⟩
      rw [← hS] at hs hs0
      obtain ⟨u, hu⟩ : ∃ u, u * (2 * A) = -B - S := ⟨(-B - S) / (2 * A), div_mul_cancel₀ _ (by simpa using hA0)⟩
      refine ⟨c + u, ?_, ?_⟩
      · rw [ex c (c + u), ← hA, ← hB, ← hC, show c + u - c = u by ring]
        apply mul_left_cancel₀ (mul_ne_zero four_ne_zero hA0)
        linear_combination (u * (2 * A) + 2 * B - B - S) * hu + hs
      · have : 2 * (c + u - a.2) * i - 2 * (c + u - b.2) * j = -S := by linear_combination hu + (-2 * u) * hA - hB
        linarith
    have inv : ∀ {u v : ℝ}, u < v → v < w → 1 / (2 * (v - w)) < 1 / (2 * (u - w)) := by
      intro u v huv hv
      rw [one_div, one_div]
      exact (inv_lt_inv_of_neg (by linarith) (by linarith)).2 (by linarith)
    rcases lt_trichotomy a.1 b.1 with h | h | h
    · have hr : (a.1 : ℝ) < b.1 := by exact_mod_cast h
      have := tP_own (ly := (b.2 : ℝ)) (ry := a.2) hbr hr
      have := inv hr hbr
      exact gen b.2 (mul_neg_of_pos_of_neg (by rw [hi, hj]; linarith) (by linarith))
    · have hr : (a.1 : ℝ) = b.1 := by exact_mod_cast h
      have h2 : (a.2 : ℝ) < b.2 := by exact_mod_cast hab h
      have hi0 : i < 0 := by rw [hi]; exact one_div_neg.2 (by linarith)
      have hij : j = i := by rw [hi, hj, hr]
      refine ⟨(a.2 + b.2) / 2, ?_, ?_⟩
      · unfold tP; rw [hr, sub_eq_zero]; congr 1; ring
      · rw [hij]
        have := mul_neg_of_neg_of_pos hi0 (by linarith : (0 : ℝ) < b.2 - a.2)
        linarith
    · have hr : (b.1 : ℝ) < a.1 := by exact_mod_cast h
      have := tP_own (ly := (a.2 : ℝ)) (ry := b.2) har hr
      have := inv hr har
      exact gen a.2 (mul_neg_of_neg_of_pos (by rw [hi, hj]; linarith) (by linarith))
  obtain ⟨Y, y1, y2⟩ := root
  refine ⟨Y, ⟨(meet Y).2 y1, (way Y y1).2 y2⟩, ?_⟩
  rintro Z ⟨z1, z2⟩
  rw [meet] at z1
  rw [way Z z1] at z2
  by_contra hne
  have e := ex Y Z
  rw [y1, z1, zero_add] at e
  have := (mul_eq_zero.1 e.symm).resolve_left (sub_ne_zero.2 hne)
  linarith

example : ∃! Y : ℝ, MeetAt ((9 : Int) : ℝ) (.point (0, 0)) (.point (5, 3)) Y ∧ GivesWay ((9 : Int) : ℝ) (.point (0, 0)) (.point (5, 3)) Y :=
  C96_points_height _ _ 9 (by norm_num) (by norm_num) (by norm_num)

/-- What is needed of the place at which the arcs of a point and of a segment meet. -/
theorem ps_meet {l r : Site} {p : Int × Int} {Y : ℝ} (kr : r.isSegment = true) (hl : l.p0.1 < p.1) (hr : Behind p.1 (shape r))
    (hm : MeetAt p.1 (.point l.p0) (shape r) Y) :
    0 < away (pt r.p0) (pt r.p1) + ((r.p1.2 : ℝ) - r.p0.2) ∧
    ((r.p1.1 : ℝ) - r.p0.1) * (Y - r.p0.2) - ((r.p1.2 : ℝ) - r.p0.2) * (p.1 - r.p0.1) < 0 ∧
    ∃ δ : ℝ, δ * (((l.p0.1 : ℝ) - p.1) * (away (pt r.p0) (pt r.p1) + ((r.p1.2 : ℝ) - r.p0.2))) =
        (Y - l.p0.2) * (away (pt r.p0) (pt r.p1) + ((r.p1.2 : ℝ) - r.p0.2)) + ((r.p1.1 : ℝ) - r.p0.1) * (p.1 - l.p0.1) ∧
      ∀ y : ℝ, tP l.p0.1 l.p0.2 p.1 y - tS r.p0.1 r.p0.2 ((r.p1.1 : ℝ) - r.p0.1) ((r.p1.2 : ℝ) - r.p0.2) (away (pt r.p0) (pt r.p1)) p.1 y =
        (y - Y) * (1 / (2 * ((l.p0.1 : ℝ) - p.1)) * (y - Y) + δ) := by
  rw [shape_line kr] at hr hm
  have hlr : (l.p0.1 : ℝ) < p.1 := by exact_mod_cast hl
  obtain ⟨X, hX, m1, m2⟩ := hm
  obtain ⟨hL, m3⟩ := arc_behind hr m2
  rw [arc_point hlr] at m1
  refine ⟨hL, ?_, 2 * (Y - l.p0.2) * (1 / (2 * ((l.p0.1 : ℝ) - p.1))) -
    ((r.p1.1 : ℝ) - r.p0.1) * (1 / (away (pt r.p0) (pt r.p1) + ((r.p1.2 : ℝ) - r.p0.2))), ?_, fun y => ?_⟩
  · by_contra hc; push Not at hc
    have : 0 ≤ tS r.p0.1 r.p0.2 ((r.p1.1 : ℝ) - r.p0.1) ((r.p1.2 : ℝ) - r.p0.2) (away (pt r.p0) (pt r.p1)) p.1 Y := div_nonneg hc hL.le
    linarith
  · have hD : (l.p0.1 : ℝ) - p.1 ≠ 0 := by linarith
    have e1 : 1 / (2 * ((l.p0.1 : ℝ) - p.1)) * (2 * ((l.p0.1 : ℝ) - p.1)) = 1 := one_div_mul_cancel (by simpa using hD)
    have e2 : 1 / (away (pt r.p0) (pt r.p1) + ((r.p1.2 : ℝ) - r.p0.2)) * (away (pt r.p0) (pt r.p1) + ((r.p1.2 : ℝ) - r.p0.2)) = 1 := one_div_mul_cancel hL.ne'
    linear_combination (Y - l.p0.2) * (away (pt r.p0) (pt r.p1) + ((r.p1.2 : ℝ) - r.p0.2)) * e1 - ((r.p1.1 : ℝ) - r.p0.1) * (l.p0.1 - p.1) * e2
  · rw [ps_expand Y y, ← m1, ← m3, sub_self, zero_add]

/-- A new point that is not on the right of the line of the segment lies beyond the arc. -/
theorem beyond {r : Site} {p : Int × Int} {Y : ℝ}
    (h : ((r.p1.1 : ℝ) - r.p0.1) * (Y - r.p0.2) - ((r.p1.2 : ℝ) - r.p0.2) * (p.1 - r.p0.1) < 0) (hc : 0 ≤ cross r.p0 r.p1 r.p0 p) :
    (pointLess r.p1 r.p0 = true → (p.2 : ℝ) < Y) ∧ (pointLess r.p1 r.p0 = false → Y < p.2) := by
  have hcr : 0 ≤ ((r.p1.1 : ℝ) - r.p0.1) * (p.2 - r.p0.2) - ((r.p1.2 : ℝ) - r.p0.2) * (p.1 - r.p0.1) := by
    unfold cross at hc; exact_mod_cast hc
  have hp : 0 < ((r.p1.1 : ℝ) - r.p0.1) * (p.2 - Y) := by nlinarith
  have ha : r.p1.1 ≠ r.p0.1 := by intro e; rw [e, sub_self, zero_mul] at hp; exact lt_irrefl _ hp
  unfold pointLess
  rw [if_neg ha]
  constructor
  · intro g
    have : (r.p1.1 : ℝ) < r.p0.1 := by exact_mod_cast (by simpa using g : r.p1.1 < r.p0.1)
    by_contra hcc; push Not at hcc
    nlinarith
  · intro g
    have : (r.p0.1 : ℝ) < r.p1.1 := by
      have : r.p0.1 ≤ r.p1.1 := by simpa using g
      exact_mod_cast lt_of_le_of_ne this (Ne.symm ha)
    by_contra hcc; push Not at hcc
    nlinarith

/-- A point below and a segment above. -/
theorem C96_point_segment (l r : Site) (p : Int × Int) (kl : l.isSegment = false) (kr : r.isSegment = true) (hd : Directed r)
    (h0 : P32 l.p0) (h1 : P32 r.p0) (h2 : P32 r.p1) (h3 : P32 p)
    (hl : Behind p.1 (shape l)) (hr : Behind p.1 (shape r)) (Y : ℝ)
    (hm : MeetAt p.1 (shape l) (shape r) Y) (hg : GivesWay p.1 (shape l) (shape r) Y) :
    ∃ b, distance l r p = some b ∧ (b = true ↔ Y < p.2) := by
  have hne := seg_ne kr
  rw [shape_point kl] at hl hm hg
  have hl' : l.p0.1 < p.1 := hl
  obtain ⟨hL, hc, δ, hδ, ex⟩ := ps_meet kr hl' hr hm
  rw [shape_line kr] at hr hg
  have hD : (l.p0.1 : ℝ) - p.1 < 0 := by have : (l.p0.1 : ℝ) < p.1 := by exact_mod_cast hl'
                                         linarith
  have hα : 1 / (2 * ((l.p0.1 : ℝ) - p.1)) < 0 := one_div_neg.2 (by linarith)
  have hδ0 : δ ≤ 0 := by
    obtain ⟨ε, hε, hg⟩ := hg
    refine falls_above (α := 1 / (2 * ((l.p0.1 : ℝ) - p.1))) hε (fun h g0 g1 => ?_)
    have g2 := front_sp hr hl' (hg h g0 g1).2
    have e2 := ex (Y + h)
    rw [show Y + h - Y = h by ring] at e2
    linarith
  obtain ⟨f, ff, f1, f2⟩ := fast_spec h0 h1 h2 h3 hl' hne hd false
  simp only [distance, kl, kr, Bool.not_false, if_true, Bool.not_true, Bool.false_eq_true, if_false]
  unfold distPS
  rw [ff]
  simp only [Option.bind_eq_bind, Option.bind_some]
  have hov : over l r p = ((p.2 : ℝ) - Y) * (away (pt r.p0) (pt r.p1) + ((r.p1.2 : ℝ) - r.p0.2)) +
      δ * (((l.p0.1 : ℝ) - p.1) * (away (pt r.p0) (pt r.p1) + ((r.p1.2 : ℝ) - r.p0.2))) := by rw [hδ]; unfold over; ring
  by_cases hcr : cross r.p0 r.p1 r.p0 p < 0
  · obtain ⟨k1, k2⟩ := (f2 hcr hL).1 rfl
    by_cases hE : over l r p < 0
    · rw [k1 hE]
      refine ⟨false, by simp, ?_⟩
      have : 0 ≤ δ * (((l.p0.1 : ℝ) - p.1) * (away (pt r.p0) (pt r.p1) + ((r.p1.2 : ℝ) - r.p0.2))) :=
        mul_nonneg_of_nonpos_of_nonpos hδ0 (mul_neg_of_neg_of_pos hD hL).le
      have : (p.2 : ℝ) - Y < 0 := by by_contra hcc; push Not at hcc; have := mul_nonneg hcc hL.le; linarith
      simp; linarith
    · push Not at hE
      rw [k2 hE, if_neg (by simp), pointArc_eq hl', segmentArc_eq h1 h2 h3 hL hne]
      refine ⟨_, rfl, ?_⟩
      simp only [Bool.false_xor, decide_eq_true_iff]
      rw [← sub_neg, ex]
      obtain ⟨α, hαe⟩ : ∃ z, z = 1 / (2 * ((l.p0.1 : ℝ) - p.1)) := ⟨_, rfl⟩
      have hαD : α * (2 * ((l.p0.1 : ℝ) - p.1)) = 1 := by rw [hαe]; exact one_div_mul_cancel (by linarith)
      rw [← hαe] at hα ⊢
      -- the slope at the new point is that at the meeting point plus twice the quadratic term
      have hs : 2 * α * ((p.2 : ℝ) - Y) + δ ≤ 0 := by
        by_contra hcc; push Not at hcc
        have e : over l r p = (2 * α * ((p.2 : ℝ) - Y) + δ) * (((l.p0.1 : ℝ) - p.1) * (away (pt r.p0) (pt r.p1) + ((r.p1.2 : ℝ) - r.p0.2))) := by
          rw [hov]; linear_combination (-((p.2 : ℝ) - Y) * (away (pt r.p0) (pt r.p1) + ((r.p1.2 : ℝ) - r.p0.2))) * hαD
        have := mul_neg_of_pos_of_neg hcc (mul_neg_of_neg_of_pos hD hL)
        linarith
      constructor
      · intro h
        by_contra hcc; push Not at hcc
        have : α * ((p.2 : ℝ) - Y) + δ ≤ 0 := by linarith
        have := mul_nonneg_of_nonpos_of_nonpos (sub_nonpos.2 hcc) this
        linarith
      · intro h
        have h' := sub_pos.2 h
        have := mul_neg_of_neg_of_pos hα h'
        exact mul_neg_of_pos_of_neg h' (by linarith)
  · obtain ⟨b1, b2⟩ := beyond hc (not_lt.1 hcr)
    rw [f1 (not_lt.1 hcr)]
    cases hpl : pointLess r.p1 r.p0
    · refine ⟨true, by simp, ?_⟩
      simp [b2 hpl]
    · refine ⟨false, by simp, ?_⟩
      simp [(b1 hpl).le]

/-- The site of the segment from `(0, -10)` to `(0, 10)`; its arc is half way to the sweep line. -/
theorem wall_arc {X y : ℝ} : OnArc ((4 : Int) : ℝ) (X, y) (.line (0, -10) (0, 10)) ↔ X = 2 ∧ -10 ≤ y ∧ y ≤ 10 := by
  have h : away (pt (0, -10)) (pt (0, 10)) = 20 := by
    unfold away pt
    rw [show (((0 : Int) : ℝ) - (0 : Int)) ^ 2 + (((-10 : Int) : ℝ) - (10 : Int)) ^ 2 = 20 ^ 2 by norm_num]
    exact Real.sqrt_sq (by norm_num)
  simp only [OnArc, rightDist, h]
  simp only [turn, pt]
  norm_num
  constructor
  · rintro ⟨h1, h2, h3, h4⟩; refine ⟨by linarith, by linarith, by linarith⟩
  · rintro ⟨h1, h2, h3⟩; refine ⟨by linarith, by linarith, by linarith, by linarith⟩

theorem dot_arc {X y : ℝ} : OnArc ((4 : Int) : ℝ) (X, y) (.point (2, 0)) ↔ X = 3 - y ^ 2 / 4 := by
  rw [arc_point (by norm_num)]
  unfold tP
  norm_num
  constructor <;> intro h <;> linarith

/-- The point `(2, 0)` before the wall, sweep line at 4: the point's arc is in front between the heights -2 and 2. -/
example : MeetAt ((4 : Int) : ℝ) (.point (2, 0)) (.line (0, -10) (0, 10)) 2 ∧ GivesWay ((4 : Int) : ℝ) (.point (2, 0)) (.line (0, -10) (0, 10)) 2 := by
  refine ⟨⟨2, by norm_num, dot_arc.2 (by norm_num), wall_arc.2 (by norm_num)⟩, 1, one_pos, fun h h0 h1 => ⟨⟨_, dot_arc.2 rfl, fun X' h' => ?_⟩,
    ⟨2, wall_arc.2 ⟨rfl, by linarith, by linarith⟩, fun X' h' => ?_⟩⟩⟩
  · rw [(wall_arc.1 h').1]; nlinarith
  · rw [dot_arc.1 h']; nlinarith

/-- A segment below and a point above: here a new point level with the meeting point counts as above it. -/
theorem C96_segment_point (l r : Site) (p : Int × Int) (kl : l.isSegment = true) (kr : r.isSegment = false) (hd : Directed l)
    (h0 : P32 r.p0) (h1 : P32 l.p0) (h2 : P32 l.p1) (h3 : P32 p)
    (hl : Behind p.1 (shape l)) (hr : Behind p.1 (shape r)) (Y : ℝ)
    (hm : MeetAt p.1 (shape l) (shape r) Y) (hg : GivesWay p.1 (shape l) (shape r) Y) :
    ∃ b, distance l r p = some b ∧ (b = true ↔ Y ≤ p.2) := by
  have hne := seg_ne kl
  rw [shape_point kr] at hr hm hg
  have hr' : r.p0.1 < p.1 := hr
  obtain ⟨hL, hc, δ, hδ, ex⟩ := ps_meet kl hr' hl (by obtain ⟨X, hX, m1, m2⟩ := hm; exact ⟨X, hX, m2, m1⟩)
  rw [shape_line kl] at hl hg
  have hD : (r.p0.1 : ℝ) - p.1 < 0 := by have : (r.p0.1 : ℝ) < p.1 := by exact_mod_cast hr'
                                         linarith
  have hα : 1 / (2 * ((r.p0.1 : ℝ) - p.1)) < 0 := one_div_neg.2 (by linarith)
  have hδ0 : 0 ≤ δ := by
    obtain ⟨ε, hε, hg⟩ := hg
    refine falls_below (α := 1 / (2 * ((r.p0.1 : ℝ) - p.1))) hε (fun h g0 g1 => ?_)
    have g2 := front_sp hl hr' (hg h g0 g1).1
    have e2 := ex (Y - h)
    rw [show Y - h - Y = -h by ring] at e2
    linarith
  obtain ⟨f, ff, f1, f2⟩ := fast_spec h0 h1 h2 h3 hr' hne hd true
  simp only [distance, kl, kr, Bool.not_false, if_true, Bool.not_true, Bool.false_eq_true, if_false]
  unfold distPS
  rw [ff]
  simp only [Option.bind_eq_bind, Option.bind_some]
  have hov : over r l p = ((p.2 : ℝ) - Y) * (away (pt l.p0) (pt l.p1) + ((l.p1.2 : ℝ) - l.p0.2)) +
      δ * (((r.p0.1 : ℝ) - p.1) * (away (pt l.p0) (pt l.p1) + ((l.p1.2 : ℝ) - l.p0.2))) := by rw [hδ]; unfold over; ring
  by_cases hcr : cross l.p0 l.p1 l.p0 p < 0
  · obtain ⟨k1, k2⟩ := (f2 hcr hL).2 rfl
    by_cases hE : 0 < over r l p
    · rw [k1 hE]
      refine ⟨true, by simp, ?_⟩
      have : δ * (((r.p0.1 : ℝ) - p.1) * (away (pt l.p0) (pt l.p1) + ((l.p1.2 : ℝ) - l.p0.2))) ≤ 0 :=
        mul_nonpos_of_nonneg_of_nonpos hδ0 (mul_neg_of_neg_of_pos hD hL).le
      have : 0 < (p.2 : ℝ) - Y := by by_contra hcc; push Not at hcc; have := mul_nonpos_of_nonpos_of_nonneg hcc hL.le; linarith
      simp; linarith
    · push Not at hE
      rw [k2 hE, if_neg (by simp), pointArc_eq hr', segmentArc_eq h1 h2 h3 hL hne]
      refine ⟨_, rfl, ?_⟩
      simp only [Bool.true_xor, Bool.not_eq_true', decide_eq_false_iff_not]
      rw [← sub_neg, ex, not_lt]
      obtain ⟨α, hαe⟩ : ∃ z, z = 1 / (2 * ((r.p0.1 : ℝ) - p.1)) := ⟨_, rfl⟩
      have hαD : α * (2 * ((r.p0.1 : ℝ) - p.1)) = 1 := by rw [hαe]; exact one_div_mul_cancel (by linarith)
      rw [← hαe] at hα ⊢
      have hs : 0 ≤ 2 * α * ((p.2 : ℝ) - Y) + δ := by
        by_contra hcc; push Not at hcc
        have e : over r l p = (2 * α * ((p.2 : ℝ) - Y) + δ) * (((r.p0.1 : ℝ) - p.1) * (away (pt l.p0) (pt l.p1) + ((l.p1.2 : ℝ) - l.p0.2))) := by
          rw [hov]; linear_combination (-((p.2 : ℝ) - Y) * (away (pt l.p0) (pt l.p1) + ((l.p1.2 : ℝ) - l.p0.2))) * hαD
        have := mul_pos_of_neg_of_neg hcc (mul_neg_of_neg_of_pos hD hL)
        linarith
      constructor
      · intro h
        by_contra hcc; push Not at hcc
        have h' := sub_neg.2 hcc
        have := mul_pos_of_neg_of_neg hα h'
        have := mul_neg_of_neg_of_pos h' (by linarith : 0 < α * ((p.2 : ℝ) - Y) + δ)
        linarith
      · intro h
        exact mul_nonneg (sub_nonneg.2 h) (by linarith)
  · obtain ⟨b1, b2⟩ := beyond hc (not_lt.1 hcr)
    rw [f1 (not_lt.1 hcr)]
    cases hpl : pointLess l.p1 l.p0
    · refine ⟨true, by simp, ?_⟩
      simp [(b2 hpl).le]
    · refine ⟨false, by simp, ?_⟩
      simp [b1 hpl]

/-- The same point and wall: the wall gives way to the point at height -2, and a new point at that very height counts as above. -/
example : MeetAt ((4 : Int) : ℝ) (.line (0, -10) (0, 10)) (.point (2, 0)) (-2) ∧ GivesWay ((4 : Int) : ℝ) (.line (0, -10) (0, 10)) (.point (2, 0)) (-2) := by
  refine ⟨⟨2, by norm_num, wall_arc.2 (by norm_num), dot_arc.2 (by norm_num)⟩, 1, one_pos, fun h h0 h1 => ⟨⟨2, wall_arc.2 ⟨rfl, by linarith, by linarith⟩, fun X' h' => ?_⟩,
    ⟨_, dot_arc.2 rfl, fun X' h' => ?_⟩⟩⟩
  · rw [dot_arc.1 h']; nlinarith
  · rw [(wall_arc.1 h').1]; nlinarith

/-- Two different segments. -/
theorem C96_segments (l r : Site) (p : Int × Int) (kl : l.isSegment = true) (kr : r.isSegment = true) (hlr : l.sorted ≠ r.sorted)
    (h0 : P32 l.p0) (h0' : P32 l.p1) (h1 : P32 r.p0) (h1' : P32 r.p1) (h2 : P32 p)
    (hl : Behind p.1 (shape l)) (hr : Behind p.1 (shape r)) (Y : ℝ)
    (hm : MeetAt p.1 (shape l) (shape r) Y) (hg : GivesWay p.1 (shape l) (shape r) Y) (hs : SideBySide p.1 (shape l) (shape r) Y) :
    ∃ b, distance l r p = some b ∧ (b = true ↔ Y < p.2) := by
  rw [shape_line kl, shape_line kr] at hm hg hs
  rw [shape_line kl] at hl
  rw [shape_line kr] at hr
  obtain ⟨X, -, m1, m2⟩ := hm
  obtain ⟨L1, m1⟩ := arc_behind hl m1
  obtain ⟨L2, m2⟩ := arc_behind hr m2
  simp only [distance, kl, kr, Bool.not_true, Bool.false_eq_true, if_false]
  unfold distSS
  rw [if_neg hlr, segmentArc_eq h0 h0' h2 L1 (seg_ne kl), segmentArc_eq h1 h1' h2 L2 (seg_ne kr)]
  refine ⟨_, rfl, ?_⟩
  rw [decide_eq_true_iff, ← sub_neg]
  obtain ⟨δ, hδ⟩ : ∃ z : ℝ, z = ((l.p1.1 : ℝ) - l.p0.1) * (1 / (away (pt l.p0) (pt l.p1) + ((l.p1.2 : ℝ) - l.p0.2))) -
    ((r.p1.1 : ℝ) - r.p0.1) * (1 / (away (pt r.p0) (pt r.p1) + ((r.p1.2 : ℝ) - r.p0.2))) := ⟨_, rfl⟩
  have ex : ∀ y : ℝ, tS l.p0.1 l.p0.2 ((l.p1.1 : ℝ) - l.p0.1) ((l.p1.2 : ℝ) - l.p0.2) (away (pt l.p0) (pt l.p1)) p.1 y -
      tS r.p0.1 r.p0.2 ((r.p1.1 : ℝ) - r.p0.1) ((r.p1.2 : ℝ) - r.p0.2) (away (pt r.p0) (pt r.p1)) p.1 y = (y - Y) * δ := by
    intro y
    rw [ss_expand Y y, ← m1, ← m2, sub_self, zero_add, hδ]
  rw [ex]
  have hδ0 : δ < 0 := by
    obtain ⟨ε, hε, hg⟩ := hg
    obtain ⟨ε', hε', hs⟩ := hs
    have k0 : 0 < min ε ε' / 2 := half_pos (lt_min hε hε')
    have k1 : min ε ε' / 2 < ε := lt_of_lt_of_le (half_lt_self (lt_min hε hε')) (min_le_left _ _)
    have k2 : min ε ε' / 2 < ε' := lt_of_lt_of_le (half_lt_self (lt_min hε hε')) (min_le_right _ _)
    obtain ⟨⟨X1, f1, f2⟩, ⟨X2, f3, f4⟩⟩ := hg _ k0 k1
    generalize min ε ε' / 2 = k at *
    rcases hs with hs | hs
    · obtain ⟨-, X3, -, g2⟩ := hs k k0 k2
      have := f2 X3 g2
      have e1 := (arc_behind hl f1).2
      have e2 := (arc_behind hr g2).2
      have e := ex (Y - k)
      rw [show Y - k - Y = -k by ring] at e
      by_contra hcc; push Not at hcc
      have := mul_nonneg k0.le hcc
      linarith
    · obtain ⟨X3, -, g2, -⟩ := hs k k0 k2
      have := f4 X3 g2
      have e1 := (arc_behind hr f3).2
      have e2 := (arc_behind hl g2).2
      have e := ex (Y + k)
      rw [show Y + k - Y = k by ring] at e
      by_contra hcc; push Not at hcc
      have := mul_nonneg k0.le hcc
      linarith
  constructor
  · intro h; by_contra hcc; push Not at hcc
    have := mul_nonneg_of_nonpos_of_nonpos (sub_nonpos.2 hcc) hδ0.le
    linarith
  · intro h; exact mul_neg_of_pos_of_neg (sub_pos.2 h) hδ0

theorem floor_arc {X y : ℝ} : OnArc ((4 : Int) : ℝ) (X, y) (.line (10, -3) (0, -3)) ↔ X = 1 - y ∧ -3 ≤ y ∧ 0 ≤ X ∧ X ≤ 10 := by
  have h : away (pt (10, -3)) (pt (0, -3)) = 10 := by
    unfold away pt
    rw [show (((10 : Int) : ℝ) - (0 : Int)) ^ 2 + (((-3 : Int) : ℝ) - (-3 : Int)) ^ 2 = 10 ^ 2 by norm_num]
    exact Real.sqrt_sq (by norm_num)
  simp only [OnArc, rightDist, h]
  simp only [turn, pt]
  norm_num
  constructor
  · rintro ⟨h1, h2, h3, h4⟩; refine ⟨by linarith, by linarith, by linarith, by linarith⟩
  · rintro ⟨h1, h2, h3, h4⟩; refine ⟨by linarith, by linarith, by linarith, by linarith⟩

theorem ceil_arc {X y : ℝ} : OnArc ((4 : Int) : ℝ) (X, y) (.line (0, 3) (10, 3)) ↔ X = 1 + y ∧ y ≤ 3 ∧ 0 ≤ X ∧ X ≤ 10 := by
  have h : away (pt (0, 3)) (pt (10, 3)) = 10 := by
    unfold away pt
    rw [show (((0 : Int) : ℝ) - (10 : Int)) ^ 2 + (((3 : Int) : ℝ) - (3 : Int)) ^ 2 = 10 ^ 2 by norm_num]
    exact Real.sqrt_sq (by norm_num)
  simp only [OnArc, rightDist, h]
  simp only [turn, pt]
  norm_num
  constructor
  · rintro ⟨h1, h2, h3, h4⟩; refine ⟨by linarith, by linarith, by linarith, by linarith⟩
  · rintro ⟨h1, h2, h3, h4⟩; refine ⟨by linarith, by linarith, by linarith, by linarith⟩

/-- A corridor between a floor and a ceiling: the arcs change at mid-height. -/
example : MeetAt ((4 : Int) : ℝ) (.line (10, -3) (0, -3)) (.line (0, 3) (10, 3)) 0 ∧ GivesWay ((4 : Int) : ℝ) (.line (10, -3) (0, -3)) (.line (0, 3) (10, 3)) 0 ∧
    SideBySide ((4 : Int) : ℝ) (.line (10, -3) (0, -3)) (.line (0, 3) (10, 3)) 0 := by
  refine ⟨⟨1, by norm_num, floor_arc.2 (by norm_num), ceil_arc.2 (by norm_num)⟩, ⟨1, one_pos, fun h h0 h1 =>
    ⟨⟨_, floor_arc.2 ⟨rfl, by linarith, by linarith, by linarith⟩, fun X' h' => ?_⟩, ⟨_, ceil_arc.2 ⟨rfl, by linarith, by linarith, by linarith⟩, fun X' h' => ?_⟩⟩⟩,
    ⟨1, one_pos, Or.inl fun h h0 h1 => ⟨_, _, floor_arc.2 ⟨rfl, by linarith, by linarith, by linarith⟩, ceil_arc.2 ⟨rfl, by linarith, by linarith, by linarith⟩⟩⟩⟩
  · rw [(ceil_arc.1 h').1]; linarith
  · rw [(floor_arc.1 h').1]; linarith

/-- The two sides of one segment. -/
theorem C96_two_sides (l r : Site) (p : Int × Int) (kl : l.isSegment = true) (hlr : l.sorted = r.sorted) (e0 : r.p0 = l.p1) (e1 : r.p1 = l.p0)
    (h0 : P32 l.p0) (h1 : P32 l.p1) (h2 : P32 p) (hl : Behind p.1 (shape l)) (Y : ℝ) (hg : GivesWay p.1 (shape l) (shape r) Y) :
    ∃ b, distance l r p = some b ∧ (b = true ↔ Y < p.2) := by
  have kr : r.isSegment = true := by
    simp only [Site.isSegment, e0, e1] at kl ⊢
    rw [bne_comm, bne_comm (a := l.p1.2)]; exact kl
  rw [shape_line kl, shape_line kr, e0, e1] at hg
  rw [shape_line kl] at hl
  have hne := seg_ne kl
  simp only [distance, kl, kr, Bool.not_true, Bool.false_eq_true, if_false]
  unfold distSS
  rw [if_pos hlr, evalPts_eq h0 h1 h2]
  refine ⟨_, rfl, ?_⟩
  rw [decide_eq_true_iff]
  have hsgn : (cross l.p0 l.p1 l.p0 p).sign = LEFT ↔ (0 : ℝ) < ((l.p1.1 : ℝ) - l.p0.1) * (p.2 - l.p0.2) - ((l.p1.2 : ℝ) - l.p0.2) * (p.1 - l.p0.1) := by
    rw [show LEFT = (1 : Int) from rfl, Int.sign_eq_one_iff_pos]
    unfold cross; exact_mod_cast Iff.rfl
  rw [hsgn]
  obtain ⟨q0, q1⟩ := away_pos hne
  obtain ⟨q0', q1'⟩ := away_pos (Ne.symm hne)
  obtain ⟨ε, hε, hg⟩ := hg
  have below : ∀ h, 0 < h → h < ε → ((l.p1.1 : ℝ) - l.p0.1) * (Y - h - l.p0.2) - ((l.p1.2 : ℝ) - l.p0.2) * (p.1 - l.p0.1) ≤ 0 := by
    intro h g0 g1
    obtain ⟨X, hX, -⟩ := (hg h g0 g1).1
    obtain ⟨a1, a2⟩ := arc_line hne hX
    rw [← a1]
    exact mul_nonpos_of_nonpos_of_nonneg (by linarith) (len_b q0 q1)
  have above : ∀ h, 0 < h → h < ε → 0 ≤ ((l.p1.1 : ℝ) - l.p0.1) * (Y + h - l.p0.2) - ((l.p1.2 : ℝ) - l.p0.2) * (p.1 - l.p0.1) := by
    intro h g0 g1
    obtain ⟨X, hX, -⟩ := (hg h g0 g1).2
    obtain ⟨a1, a2⟩ := arc_line (Ne.symm hne) hX
    have := mul_nonpos_of_nonpos_of_nonneg (by linarith : X - p.1 ≤ 0) (len_b q0' q1')
    linarith
  obtain ⟨a, ha⟩ : ∃ z : ℝ, z = (l.p1.1 : ℝ) - l.p0.1 := ⟨_, rfl⟩
  obtain ⟨b, hb⟩ : ∃ z : ℝ, z = (l.p1.2 : ℝ) - l.p0.2 := ⟨_, rfl⟩
  simp only [← ha, ← hb] at below above ⊢
  have hapos : 0 < a := by
    have u1 := below (ε / 2) (by linarith) (by linarith)
    have u2 := above (ε / 2) (by linarith) (by linarith)
    have : 0 ≤ a := by by_contra hcc; push Not at hcc; nlinarith
    rcases this.lt_or_eq with h | h
    · exact h
    · exfalso
      rw [← h] at u1 u2 ha
      have hb0 : b ≠ 0 := by
        intro hz
        apply hne
        have c1 : l.p0.1 = l.p1.1 := by exact_mod_cast (by linarith : (l.p0.1 : ℝ) = l.p1.1)
        have c2 : l.p0.2 = l.p1.2 := by exact_mod_cast (by linarith : (l.p0.2 : ℝ) = l.p1.2)
        exact Prod.ext c1 c2
      have : b * ((p.1 : ℝ) - l.p0.1) = 0 := by linarith
      have := (mul_eq_zero.1 this).resolve_left hb0
      have c1 : l.p0.1 = l.p1.1 := by exact_mod_cast (by linarith : (l.p0.1 : ℝ) = l.p1.1)
      have c2 : p.1 = l.p0.1 := by exact_mod_cast sub_eq_zero.1 this
      rcases hl.2 with h | h <;> omega
  obtain ⟨G, hG⟩ : ∃ z : ℝ, z = a * (Y - l.p0.2) - b * (p.1 - l.p0.1) := ⟨_, rfl⟩
  have hG0 : G = 0 := by
    have lim : ∀ g : ℝ, (∀ h, 0 < h → h < ε → g ≤ a * h) → g ≤ 0 := by
      intro g hg'
      by_contra hcc; push Not at hcc
      have k0 : 0 < min (ε / 2) (g / (2 * a)) := lt_min (by linarith) (div_pos hcc (by linarith))
      have := hg' _ k0 (lt_of_le_of_lt (min_le_left _ _) (by linarith))
      have h3 : a * min (ε / 2) (g / (2 * a)) ≤ a * (g / (2 * a)) := mul_le_mul_of_nonneg_left (min_le_right _ _) hapos.le
      have h4 : a * (g / (2 * a)) = g / 2 := by field_simp
      linarith
    apply le_antisymm
    · exact lim G (fun h g0 g1 => by have := below h g0 g1; rw [hG]; linarith)
    · have := lim (-G) (fun h g0 g1 => by have := above h g0 g1; rw [hG]; linarith)
      linarith
  have : a * ((p.2 : ℝ) - l.p0.2) - b * (p.1 - l.p0.1) = a * (p.2 - Y) := by linear_combination hG0 - hG
  rw [this, mul_pos_iff_of_pos_left hapos, sub_pos]

/-- The ceiling seen from below and from above. -/
example : GivesWay ((4 : Int) : ℝ) (.line (0, 3) (10, 3)) (.line (10, 3) (0, 3)) 3 := by
  have h : away (pt (10, 3)) (pt (0, 3)) = 10 := by
    unfold away pt
    rw [show (((10 : Int) : ℝ) - (0 : Int)) ^ 2 + (((3 : Int) : ℝ) - (3 : Int)) ^ 2 = 10 ^ 2 by norm_num]
    exact Real.sqrt_sq (by norm_num)
  refine ⟨1, one_pos, fun k h0 h1 => ⟨⟨_, ceil_arc.2 ⟨rfl, by linarith, by linarith, by linarith⟩, fun X' h' => ?_⟩, ⟨4 - k, ?_, fun X' h' => ?_⟩⟩⟩
  · obtain ⟨a1, a2, -⟩ := h'
    simp only [rightDist, h] at a1 a2
    simp only [turn, pt] at a1 a2
    norm_num at a1 a2
    linarith
  · simp only [OnArc, rightDist, h]
    simp only [turn, pt]
    refine ⟨?_, ?_, ?_, ?_⟩ <;> push_cast <;> linarith
  · have := (ceil_arc.1 h').2.1; linarith

/-- Segments get their inverse flag when they are inserted, and it follows every reversal. -/
theorem C96_directed (p q : Int × Int) (b : Builder) (h : p ≠ q) (s : Site) (hs : s ∈ (b.insertSegment p q).sites) (hb : s ∉ b.sites) (hseg : s.isSegment = true) :
    Directed s ∧ Directed s.inverse := by
  simp only [Builder.insertSegment, List.mem_append, hb, false_or, List.mem_cons, List.not_mem_nil, or_false] at hs
  have anti : ∀ u v : Int × Int, pointLess u v = true → pointLess v u = false := by
    intro u v
    unfold pointLess
    split_ifs <;> simp <;> omega
  have tot : ∀ u v : Int × Int, u ≠ v → pointLess u v = false → pointLess v u = true := by
    intro u v huv
    unfold pointLess
    have : u.1 = v.1 → u.2 ≠ v.2 := fun h1 h2 => huv (Prod.ext h1 h2)
    split_ifs with g1 g2 <;> simp <;> omega
  rcases hs with rfl | rfl | hs
  · simp [Site.isSegment, Site.setCategory] at hseg
  · simp [Site.isSegment, Site.setCategory] at hseg
  · cases hpq : pointLess p q
    · have := tot p q h hpq
      rw [hpq] at hs
      simp only [Bool.false_eq_true, if_false] at hs
      subst hs
      unfold Directed
      simp only [Site.inverse, Site.setCategory, Site.isInverse]
      rw [hpq, this]
      decide
    · have := anti p q hpq
      rw [hpq] at hs
      simp only [if_true] at hs
      subst hs
      unfold Directed
      simp only [Site.inverse, Site.setCategory, Site.isInverse]
      rw [hpq, this]
      decide

/-- An old node against a node that came with the new point: whichever way round they are compared, the old one is below exactly if the distance
predicate says so. -/
theorem C96_old_and_new (o n : BeachNode) (p : Int × Int) (hp : firstPoint (newer n) = p) (hx : (firstPoint (newer o)).1 < p.1) :
    nodeLess o n = distance o.1 o.2 p ∧ nodeLess n o = (distance o.1 o.2 p).map (fun b => !b) := by
  subst hp
  constructor
  · simp only [nodeLess, if_pos hx]
  · simp only [nodeLess, if_neg hx.not_gt]
    exact if_pos hx

/-- The nodes made for a new site are ordered from below to above. -/
theorem C96_new_nodes (a b s : Site) (ha : a.sorted < s.sorted) (hb : b.sorted < s.sorted) :
    (newNodes a b s).Pairwise (fun m n => nodeLess m n = some true ∧ nodeLess n m = some false) := by
  have n1 : newer (a, s) = s := by unfold newer; rw [if_neg (by simp; omega)]
  have n2 : newer (s, b) = s := by unfold newer; rw [if_pos (by simpa using hb)]
  have y1 : ∀ f, compareY (a, s) f = (s.p0.2, -1) := by
    intro f; unfold compareY; rw [if_neg (by simp; omega), if_neg (by simp; omega)]
  unfold newNodes
  by_cases hs : s.isSegment = true
  · rw [if_pos hs]
    have n3 : newer (s, s.inverse) = s.inverse := by unfold newer; simp [Site.inverse]
    have n4 : newer (s.inverse, b) = s.inverse := by unfold newer; rw [if_pos (by simpa [Site.inverse] using hb)]
    have hi : s.inverse.sorted = s.sorted := rfl
    have fp : firstPoint s.inverse = firstPoint s := by
      have hne : s.p0 ≠ s.p1 := seg_ne hs
      unfold firstPoint Site.inverse
      have anti : pointLess s.p0 s.p1 = !pointLess s.p1 s.p0 := by
        have : s.p0.1 = s.p1.1 → s.p0.2 ≠ s.p1.2 := fun h1 h2 => hne (Prod.ext h1 h2)
        unfold pointLess
        by_cases g : s.p0.1 = s.p1.1
        · rw [if_pos g, if_pos g.symm, ← decide_not, decide_eq_decide]; have := this g; omega
        · rw [if_neg g, if_neg (Ne.symm g), ← decide_not, decide_eq_decide]; omega
      simp only
      rw [anti]
      cases pointLess s.p1 s.p0 <;> rfl
    have y2 : compareY (s, s.inverse) true = (s.p0.2, 0) := by unfold compareY; simp [Site.inverse]
    have y3 : compareY (s.inverse, b) true = (s.p0.2, 1) := by
      unfold compareY; rw [if_neg (by simp [Site.inverse]; omega), if_pos (by simpa [Site.inverse] using hb)]
      simp [Site.inverse]
    simp [nodeLess, n1, n3, n4, fp, hi, y1, y2, y3]
  · rw [if_neg hs]
    have hp : s.p1 = s.p0 := by
      have : s.p0.1 = s.p1.1 ∧ s.p0.2 = s.p1.2 := by simpa [Site.isSegment] using hs
      exact Prod.ext this.1.symm this.2.symm
    have y3 : compareY (s, b) true = (s.p0.2, 1) := by
      unfold compareY; rw [if_neg (by simp; omega), if_pos (by simpa using hb)]
      simp [hp]
    simp [nodeLess, n1, n2, y1, y3]

end Verif.Properties.VoronoiBeach
