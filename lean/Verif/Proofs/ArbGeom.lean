import Verif.Proofs.ArbPred
import Mathlib.Tactic.Linarith
import Mathlib.Tactic.FieldSimp
/-! Geometry of edges that meet only in end points: the vertical order, and what the scanline comparator computes. -/
namespace Verif.Arb
open Verif.Contains (lessPoint det lessPoint_iff lt_lineY)
open Verif.Spec Verif.Spec.Arb

/-- Height of the line of the edge at `t`. -/
abbrev Y (e : HE) (t : ℚ) : ℚ := lineY e.1 e.2 t
/-- Running from left to right. -/
abbrev NV (e : HE) : Prop := e.1.1 < e.2.1

theorem Y_affine (e : HE) (u v s : ℚ) : Y e (u + s * (v - u)) = Y e u + s * (Y e v - Y e u) := by
  unfold Y lineY; ring

/-- Values at three positions. -/
theorem Y_three (e : HE) (u v w : ℚ) : (w - v) * Y e u + (v - u) * Y e w = (w - u) * Y e v := by
  unfold Y lineY; ring

theorem Y_left {e : HE} (_h : NV e) : Y e e.1.1 = e.1.2 := by
  unfold Y lineY; simp

theorem Y_right {e : HE} (h : NV e) : Y e e.2.1 = e.2.2 := by
  have : ((e.2.1 : ℚ) - e.1.1) ≠ 0 := by
    have : (e.1.1 : ℚ) < e.2.1 := by exact_mod_cast h
    linarith
  unfold Y lineY; field_simp; ring

theorem onEdge_iff {e : HE} (h : NV e) (q : ℚ × ℚ) :
    OnEdge e q ↔ (e.1.1 : ℚ) ≤ q.1 ∧ q.1 ≤ e.2.1 ∧ q.2 = Y e q.1 := by
  have hp : (0 : ℚ) < (e.2.1 : ℚ) - e.1.1 := by
    have : (e.1.1 : ℚ) < e.2.1 := by exact_mod_cast h
    linarith
  constructor
  · rintro ⟨t, h0, h1, hx, hy⟩
    refine ⟨by rw [hx]; nlinarith, by rw [hx]; nlinarith, ?_⟩
    rw [hx, hy]; unfold Y lineY; field_simp; ring
  · rintro ⟨h0, h1, hy⟩
    refine ⟨(q.1 - e.1.1) / (e.2.1 - e.1.1), by apply div_nonneg <;> linarith, ?_, ?_, ?_⟩
    · rw [div_le_one hp]; linarith
    · field_simp; ring
    · rw [hy]; unfold Y lineY; ring

/-- No common point over a common inner position. -/
def Sep (e f : HE) : Prop := ∀ t : ℚ, (e.1.1 : ℚ) < t → t < e.2.1 → (f.1.1 : ℚ) < t → t < f.2.1 → Y e t ≠ Y f t

theorem planar_ne {E : List HE} (hP : Planar E) {e f : HE} (he : e ∈ E) (hf : f ∈ E) (hne : e ≠ f) (h1 : NV e) (h2 : NV f)
    {t : ℚ} (a1 : (e.1.1 : ℚ) ≤ t) (a2 : t ≤ e.2.1) (b1 : (f.1.1 : ℚ) < t) (b2 : t < f.2.1) : Y e t ≠ Y f t := by
  intro hc
  have := hP e he f hf hne (t, Y e t) ((onEdge_iff h1 _).2 ⟨a1, a2, rfl⟩) ((onEdge_iff h2 _).2 ⟨b1.le, b2.le, hc⟩)
  rcases this.2 with h | h
  · have := h.1; dsimp only at this; linarith
  · have := h.1; dsimp only at this; linarith

theorem planar_sep {E : List HE} (hP : Planar E) {e f : HE} (he : e ∈ E) (hf : f ∈ E) (hne : e ≠ f) (h1 : NV e) (h2 : NV f) : Sep e f :=
  fun _ a1 a2 b1 b2 => planar_ne hP he hf hne h1 h2 a1.le a2.le b1 b2

theorem Sep.symm {e f : HE} (h : Sep e f) : Sep f e := fun t a b c d => (h t c d a b).symm

/-- `e` runs below `f` where both exist. -/
def Lt (e f : HE) : Prop :=
  ∃ t : ℚ, (e.1.1 : ℚ) < t ∧ t < e.2.1 ∧ (f.1.1 : ℚ) < t ∧ t < f.2.1 ∧ Y e t < Y f t

/-- An affine difference changing its sign has a zero strictly between. -/
theorem cross_zero {e f : HE} {u v : ℚ} (hu : Y e u < Y f u) (hv : Y f v < Y e v) :
    ∃ w, ((u < w ∧ w < v) ∨ (v < w ∧ w < u)) ∧ Y e w = Y f w := by
  have hd : 0 < (Y f u - Y e u) + (Y e v - Y f v) := by linarith
  set s := (Y f u - Y e u) / ((Y f u - Y e u) + (Y e v - Y f v)) with hs
  have h0 : 0 < s := div_pos (by linarith) hd
  have h1 : s < 1 := by rw [hs, div_lt_one hd]; linarith
  have hm : s * ((Y f u - Y e u) + (Y e v - Y f v)) = Y f u - Y e u := by rw [hs]; field_simp
  refine ⟨u + s * (v - u), ?_, ?_⟩
  · rcases lt_trichotomy u v with h | h | h
    · left; constructor <;> nlinarith
    · subst h; linarith
    · right; constructor <;> nlinarith
  · rw [Y_affine, Y_affine]; linarith

theorem lt_le {e f : HE} (hs : Sep e f) (h : Lt e f) {t : ℚ} (a1 : (e.1.1 : ℚ) ≤ t) (a2 : t ≤ e.2.1) (b1 : (f.1.1 : ℚ) ≤ t)
    (b2 : t ≤ f.2.1) : Y e t ≤ Y f t := by
  by_contra hc
  push Not at hc
  obtain ⟨u, u1, u2, u3, u4, hu⟩ := h
  obtain ⟨w, hw, hz⟩ := cross_zero hu hc
  rcases hw with hw | hw
  · exact hs w (by linarith) (by linarith) (by linarith) (by linarith) hz
  · exact hs w (by linarith) (by linarith) (by linarith) (by linarith) hz

theorem lt_lt {e f : HE} (hs : Sep e f) (h : Lt e f) {t : ℚ} (a1 : (e.1.1 : ℚ) < t) (a2 : t < e.2.1) (b1 : (f.1.1 : ℚ) < t)
    (b2 : t < f.2.1) : Y e t < Y f t :=
  lt_of_le_of_ne (lt_le hs h a1.le a2.le b1.le b2.le) (hs t a1 a2 b1 b2)

/-- A position strictly inside both edges. -/
theorem mid_exists {e f : HE} (h1 : NV e) (h2 : NV f) (h3 : e.1.1 < f.2.1) (h4 : f.1.1 < e.2.1) :
    ∃ m : ℚ, (e.1.1 : ℚ) < m ∧ m < e.2.1 ∧ (f.1.1 : ℚ) < m ∧ m < f.2.1 := by
  have q1 : (e.1.1 : ℚ) < e.2.1 := by exact_mod_cast h1
  have q2 : (f.1.1 : ℚ) < f.2.1 := by exact_mod_cast h2
  have q3 : (e.1.1 : ℚ) < f.2.1 := by exact_mod_cast h3
  have q4 : (f.1.1 : ℚ) < e.2.1 := by exact_mod_cast h4
  refine ⟨(max (e.1.1 : ℚ) f.1.1 + min (e.2.1 : ℚ) f.2.1) / 2, ?_, ?_, ?_, ?_⟩ <;>
    rcases max_cases (e.1.1 : ℚ) f.1.1 with ⟨ha, _⟩ | ⟨ha, _⟩ <;> rcases min_cases (e.2.1 : ℚ) f.2.1 with ⟨hb, _⟩ | ⟨hb, _⟩ <;>
    rw [ha, hb] <;> linarith

theorem lt_of {e f : HE} (hs : Sep e f) (h1 : NV e) (h2 : NV f) (h3 : e.1.1 < f.2.1) (h4 : f.1.1 < e.2.1) {t : ℚ}
    (a1 : (e.1.1 : ℚ) ≤ t) (a2 : t ≤ e.2.1) (b1 : (f.1.1 : ℚ) ≤ t) (b2 : t ≤ f.2.1) (h : Y e t < Y f t) : Lt e f := by
  obtain ⟨m, m1, m2, m3, m4⟩ := mid_exists h1 h2 h3 h4
  rcases lt_trichotomy (Y e m) (Y f m) with g | g | g
  · exact ⟨m, m1, m2, m3, m4, g⟩
  · exact absurd g (hs m m1 m2 m3 m4)
  · exfalso
    obtain ⟨w, hw, hz⟩ := cross_zero h g
    rcases hw with hw | hw
    · exact hs w (by linarith) (by linarith) (by linarith) (by linarith) hz
    · exact hs w (by linarith) (by linarith) (by linarith) (by linarith) hz

theorem lt_or {e f : HE} (hs : Sep e f) (h1 : NV e) (h2 : NV f) (h3 : e.1.1 < f.2.1) (h4 : f.1.1 < e.2.1) : Lt e f ∨ Lt f e := by
  obtain ⟨m, m1, m2, m3, m4⟩ := mid_exists h1 h2 h3 h4
  rcases lt_trichotomy (Y e m) (Y f m) with g | g | g
  · exact Or.inl ⟨m, m1, m2, m3, m4, g⟩
  · exact absurd g (hs m m1 m2 m3 m4)
  · exact Or.inr ⟨m, m3, m4, m1, m2, g⟩

theorem lt_asymm {e f : HE} (hs : Sep e f) (h : Lt e f) : ¬ Lt f e := by
  rintro ⟨u, u1, u2, u3, u4, hu⟩
  have := lt_lt hs h u3 u4 u1 u2
  linarith

theorem lt_irrefl (e : HE) : ¬ Lt e e := by
  rintro ⟨u, _, _, _, _, hu⟩
  linarith

/-- With a definite height at a position in both closed ranges the order is decided there. -/
theorem lt_iff {e f : HE} (hs : Sep e f) (h1 : NV e) (h2 : NV f) (h3 : e.1.1 < f.2.1) (h4 : f.1.1 < e.2.1) {t : ℚ}
    (a1 : (e.1.1 : ℚ) ≤ t) (a2 : t ≤ e.2.1) (b1 : (f.1.1 : ℚ) ≤ t) (b2 : t ≤ f.2.1) (hne : Y e t ≠ Y f t) : Lt e f ↔ Y e t < Y f t :=
  ⟨fun h => lt_of_le_of_ne (lt_le hs h a1 a2 b1 b2) hne, lt_of hs h1 h2 h3 h4 a1 a2 b1 b2⟩

theorem Y_between {e : HE} (h : NV e) {t : ℚ} (a1 : (e.1.1 : ℚ) ≤ t) (a2 : t ≤ e.2.1) :
    ((min e.1.2 e.2.2 : Int) : ℚ) ≤ Y e t ∧ Y e t ≤ ((max e.1.2 e.2.2 : Int) : ℚ) := by
  have q1 : (e.1.1 : ℚ) < e.2.1 := by exact_mod_cast h
  have hY := Y_three e e.1.1 t e.2.1
  rw [Y_left h, Y_right h] at hY
  have m1 : ((min e.1.2 e.2.2 : Int) : ℚ) ≤ e.1.2 := by exact_mod_cast min_le_left _ _
  have m2 : ((min e.1.2 e.2.2 : Int) : ℚ) ≤ e.2.2 := by exact_mod_cast min_le_right _ _
  have m3 : (e.1.2 : ℚ) ≤ ((max e.1.2 e.2.2 : Int) : ℚ) := by exact_mod_cast le_max_left _ _
  have m4 : (e.2.2 : ℚ) ≤ ((max e.1.2 e.2.2 : Int) : ℚ) := by exact_mod_cast le_max_right _ _
  have d1 : 0 ≤ (e.2.1 : ℚ) - t := by linarith
  have d2 : 0 ≤ t - (e.1.1 : ℚ) := by linarith
  have d3 : 0 < (e.2.1 : ℚ) - e.1.1 := by linarith
  constructor
  · have := mul_le_mul_of_nonneg_left m1 d1
    have := mul_le_mul_of_nonneg_left m2 d2
    by_contra hc
    push Not at hc
    have := mul_lt_mul_of_pos_left hc d3
    linarith
  · have := mul_le_mul_of_nonneg_left m3 d1
    have := mul_le_mul_of_nonneg_left m4 d2
    by_contra hc
    push Not at hc
    have := mul_lt_mul_of_pos_left hc d3
    linarith

/-! ### The side test -/

theorem oab_one {e : HE} (h : NV e) (p : Pt) : oab p e = 1 ↔ Y e p.1 < p.2 := by
  rw [oab_eq p (Or.inl h), Int.sign_eq_one_iff_pos, (lt_lineY (p := p) (ne_of_lt h)).1]
  have : 0 < e.2.1 - e.1.1 := by omega
  constructor
  · intro g; exact mul_pos g this
  · intro g; exact pos_of_mul_pos_left g this.le

theorem oab_zero {e : HE} (h : NV e) (p : Pt) : oab p e = 0 ↔ Y e p.1 = p.2 := by
  rw [oab_eq p (Or.inl h), Int.sign_eq_zero_iff_zero, (lt_lineY (p := p) (ne_of_lt h)).2]

theorem oab_vals {e : HE} (h : Directed e) (p : Pt) : oab p e = 1 ∨ oab p e = 0 ∨ oab p e = -1 := by
  rw [oab_eq p h]
  rcases lt_trichotomy (det p e.1 e.2) 0 with g | g | g
  · right; right; exact Int.sign_eq_neg_one_of_neg g
  · right; left; rw [g]; rfl
  · left; exact Int.sign_eq_one_of_pos g

theorem oab_neg {e : HE} (h : NV e) (p : Pt) : oab p e = -1 ↔ (p.2 : ℚ) < Y e p.1 := by
  have h1 := oab_one h p
  have h2 := oab_zero h p
  have h3 := oab_vals (Or.inl h) p
  constructor
  · intro g
    rcases lt_trichotomy (Y e p.1) p.2 with k | k | k
    · rw [← h1, g] at k; omega
    · rw [← h2, g] at k; omega
    · exact k
  · intro g
    rcases h3 with k | k | k
    · rw [h1] at k; linarith
    · rw [h2] at k; linarith
    · exact k

/-! ### The comparator -/

theorem yEnd_none {x : Int} {f : HE} (h1 : f.1.1 < x) (h2 : x < f.2.1) : yEnd x f = none := by
  unfold yEnd; rw [if_neg (by omega), if_neg (by omega)]

/-- Comparing an edge that starts at `x` with one that passes over `x`. -/
theorem lessHE_new {x : Int} {jb : Bool} {e f : HE} (hs : Sep e f) (h1 : NV e) (h2 : NV f) (hx : e.1.1 = x) (f1 : f.1.1 < x) (f2 : x < f.2.1)
    (hn : Y e x ≠ Y f x) : (lessHE x jb e f = true ↔ Lt e f) ∧ (lessHE x jb f e = true ↔ Lt f e) := by
  subst hx
  have q0 : (e.1.1 : ℚ) < e.2.1 := by exact_mod_cast h1
  have q1 : (f.1.1 : ℚ) < e.1.1 := by exact_mod_cast f1
  have q2 : (e.1.1 : ℚ) < f.2.1 := by exact_mod_cast f2
  have Le : Lt e f ↔ Y e e.1.1 < Y f e.1.1 := lt_iff hs h1 h2 f2 (by omega) le_rfl q0.le q1.le q2.le hn
  have Lf : Lt f e ↔ Y f e.1.1 < Y e e.1.1 := lt_iff hs.symm h2 h1 (by omega) f2 q1.le q2.le le_rfl q0.le hn.symm
  have be := Y_between h1 (t := (e.1.1 : ℚ)) le_rfl q0.le
  have bf := Y_between h2 (t := (e.1.1 : ℚ)) q1.le q2.le
  rw [Le, Lf]
  have yl := Y_left h1
  have fl := Y_left h2
  have fr := Y_right h2
  have er := Y_right h1
  constructor
  · unfold lessHE
    by_cases c1 : max e.1.2 e.2.2 < min f.1.2 f.2.2
    · rw [if_pos c1]
      have : ((max e.1.2 e.2.2 : Int) : ℚ) < ((min f.1.2 f.2.2 : Int) : ℚ) := by exact_mod_cast c1
      simp only [true_iff]; linarith
    rw [if_neg c1]
    by_cases c2 : min e.1.2 e.2.2 > max f.1.2 f.2.2
    · rw [if_pos c2]
      have : ((max f.1.2 f.2.2 : Int) : ℚ) < ((min e.1.2 e.2.2 : Int) : ℚ) := by exact_mod_cast c2
      simp only [Bool.false_eq_true, false_iff, not_lt]; linarith
    · rw [if_neg c2, yEnd_none f1 f2, show yEnd e.1.1 e = some e.1.2 from if_pos rfl]
      dsimp only
      have s1 := oab_neg h2 e.1
      have s2 := oab_one h2 e.1
      have s0 := oab_zero h2 e.1
      have t1 := oab_neg h2 e.2
      have t2 := oab_one h2 e.2
      have hne : oab e.1 f ≠ 0 := fun hc => hn (by rw [s0] at hc; rw [yl, hc])
      by_cases c : oab e.1 f = oab e.2 f
      · simp only [c, if_true, decide_eq_true_eq]
        rw [← c, s1, yl]
      · simp only [c, if_false, decide_eq_true_eq]
        rw [oab_one h1 f.1]
        have ye := Y_three e f.1.1 e.1.1 e.2.1
        have yf := Y_three f f.1.1 e.1.1 e.2.1
        rw [er] at ye
        rw [fl] at yf
        have d1 : (0 : ℚ) < (e.2.1 : ℚ) - e.1.1 := by linarith
        have d2 : (0 : ℚ) < (e.1.1 : ℚ) - f.1.1 := by linarith
        have d3 : (0 : ℚ) < (e.2.1 : ℚ) - f.1.1 := by linarith
        rcases lt_or_gt_of_ne hn with g | g
        · -- e below f at its start; its end is not below the line of f
          have he2 : Y f e.2.1 ≤ e.2.2 := by
            by_contra hc
            push Not at hc
            have a := t1.2 hc
            have b := s1.2 (by rw [← yl]; exact g)
            omega
          refine ⟨fun _ => g, fun _ => ?_⟩
          by_contra hc
          push Not at hc
          have := mul_lt_mul_of_pos_left g d3
          have := mul_le_mul_of_nonneg_left he2 d2.le
          have := mul_le_mul_of_nonneg_left hc d1.le
          linarith
        · have he2 : (e.2.2 : ℚ) ≤ Y f e.2.1 := by
            by_contra hc
            push Not at hc
            have a := t2.2 hc
            have b := s2.2 (by rw [← yl]; exact g)
            omega
          refine ⟨fun hc => ?_, fun hc => by linarith⟩
          exfalso
          have := mul_lt_mul_of_pos_left g d3
          have := mul_le_mul_of_nonneg_left he2 d2.le
          have := mul_lt_mul_of_pos_left hc d1
          linarith
  · unfold lessHE
    by_cases c1 : max f.1.2 f.2.2 < min e.1.2 e.2.2
    · rw [if_pos c1]
      have : ((max f.1.2 f.2.2 : Int) : ℚ) < ((min e.1.2 e.2.2 : Int) : ℚ) := by exact_mod_cast c1
      simp only [true_iff]; linarith
    rw [if_neg c1]
    by_cases c2 : min f.1.2 f.2.2 > max e.1.2 e.2.2
    · rw [if_pos c2]
      have : ((max e.1.2 e.2.2 : Int) : ℚ) < ((min f.1.2 f.2.2 : Int) : ℚ) := by exact_mod_cast c2
      simp only [Bool.false_eq_true, false_iff, not_lt]; linarith
    · rw [if_neg c2, yEnd_none f1 f2, show yEnd e.1.1 e = some e.1.2 from if_pos rfl]
      dsimp only
      have ye := Y_three e f.1.1 e.1.1 f.2.1
      have yf := Y_three f f.1.1 e.1.1 f.2.1
      rw [fl, fr] at yf
      have d1 : (0 : ℚ) < (f.2.1 : ℚ) - e.1.1 := by linarith
      have d2 : (0 : ℚ) < (e.1.1 : ℚ) - f.1.1 := by linarith
      have d3 : (0 : ℚ) < (f.2.1 : ℚ) - f.1.1 := by linarith
      by_cases c : oab f.1 e = oab f.2 e
      · simp only [c, if_true, decide_eq_true_eq]
        rcases oab_vals (Or.inl h1) f.2 with k | k | k
        · have k1 := (oab_one h1 f.1).1 (by omega)
          have k2 := (oab_one h1 f.2).1 k
          rw [k]
          refine ⟨fun hc => absurd hc (by omega), fun hc => ?_⟩
          exfalso
          have := mul_lt_mul_of_pos_left k1 d1
          have := mul_lt_mul_of_pos_left k2 d2
          have := mul_lt_mul_of_pos_left hc d3
          linarith
        · exfalso
          have k1 := (oab_zero h1 f.1).1 (by omega)
          have k2 := (oab_zero h1 f.2).1 k
          apply hn
          have : ((f.2.1 : ℚ) - f.1.1) * Y e e.1.1 = ((f.2.1 : ℚ) - f.1.1) * Y f e.1.1 := by
            rw [← ye, ← yf, k1, k2]
          exact mul_left_cancel₀ (ne_of_gt d3) this
        · have k1 := (oab_neg h1 f.1).1 (by omega)
          have k2 := (oab_neg h1 f.2).1 k
          rw [k]
          refine ⟨fun _ => ?_, fun _ => rfl⟩
          by_contra hc
          push Not at hc
          have := mul_lt_mul_of_pos_left k1 d1
          have := mul_lt_mul_of_pos_left k2 d2
          have := mul_le_mul_of_nonneg_left hc d3.le
          linarith
      · simp only [c, if_false, decide_eq_true_eq]
        rw [oab_one h2 e.1, yl]

/-- Slope comparison of two edges with the same start. -/
theorem lt_slope {e f : HE} (h1 : NV e) (h2 : NV f) (h : e.1 = f.1) :
    Lt e f ↔ (f.2.1 - f.1.1) * (e.2.2 - e.1.2) < (e.2.1 - e.1.1) * (f.2.2 - f.1.2) := by
  have q1 : (0 : ℚ) < (e.2.1 : ℚ) - e.1.1 := by
    have : (e.1.1 : ℚ) < e.2.1 := by exact_mod_cast h1
    linarith
  have q2 : (0 : ℚ) < (f.2.1 : ℚ) - f.1.1 := by
    have : (f.1.1 : ℚ) < f.2.1 := by exact_mod_cast h2
    linarith
  have key : ∀ t : ℚ, (e.1.1 : ℚ) < t → (Y e t < Y f t ↔ (f.2.1 - f.1.1) * (e.2.2 - e.1.2) < (e.2.1 - e.1.1) * (f.2.2 - f.1.2)) := by
    intro t ht
    have : Y e t < Y f t ↔ ((e.2.2 : ℚ) - e.1.2) / (e.2.1 - e.1.1) < ((f.2.2 : ℚ) - f.1.2) / (f.2.1 - f.1.1) := by
      unfold Y lineY
      rw [h, add_lt_add_iff_left, mul_div_assoc, mul_div_assoc, mul_comm, mul_comm ((f.2.2 : ℚ) - _)]
      rw [h] at ht q1
      have ht' : (0 : ℚ) < t - f.1.1 := by linarith
      rw [div_mul_eq_mul_div, div_mul_eq_mul_div, mul_div_assoc, mul_div_assoc, mul_lt_mul_iff_right₀ ht']
    rw [this, div_lt_div_iff₀ q1 q2]
    have : (((e.2.2 - e.1.2) * (f.2.1 - f.1.1) : Int) : ℚ) < (((f.2.2 - f.1.2) * (e.2.1 - e.1.1) : Int) : ℚ) ↔
      (e.2.2 - e.1.2) * (f.2.1 - f.1.1) < (f.2.2 - f.1.2) * (e.2.1 - e.1.1) := Int.cast_lt
    push_cast at this
    rw [this, mul_comm, mul_comm (f.2.2 - f.1.2)]
  constructor
  · rintro ⟨t, t1, _, _, _, hl⟩
    exact (key t t1).1 hl
  · intro hl
    obtain ⟨m, m1, m2, m3, m4⟩ := mid_exists h1 h2 (by rw [h]; exact h2) (by rw [← h]; exact h1)
    exact ⟨m, m1, m2, m3, m4, (key m m1).2 hl⟩

/-- Comparing two edges that start at `x`. -/
theorem lessHE_start {x : Int} {e f : HE} (hs : Sep e f) (hne : e ≠ f) (h1 : NV e) (h2 : NV f) (hx : e.1.1 = x) (hy : f.1.1 = x) :
    lessHE x false e f = true ↔ Lt e f := by
  have q1 : (e.1.1 : ℚ) < e.2.1 := by exact_mod_cast h1
  have q2 : (f.1.1 : ℚ) < f.2.1 := by exact_mod_cast h2
  have exy : (e.1.1 : ℚ) = f.1.1 := by rw [hx, hy]
  have yl := Y_left h1
  have fl := Y_left h2
  have key : e.1.2 ≠ f.1.2 → (Lt e f ↔ e.1.2 < f.1.2) := by
    intro hc
    have : Y e (e.1.1 : ℚ) ≠ Y f (e.1.1 : ℚ) := by
      rw [yl, exy, fl]; exact_mod_cast hc
    rw [lt_iff hs h1 h2 (by omega) (by omega) (t := (e.1.1 : ℚ)) le_rfl q1.le exy.ge (by linarith) this, yl, exy, fl]
    exact_mod_cast Iff.rfl
  unfold lessHE
  by_cases c1 : max e.1.2 e.2.2 < min f.1.2 f.2.2
  · rw [if_pos c1]
    simp only [true_iff]
    rw [key (by omega)]; omega
  rw [if_neg c1]
  by_cases c2 : min e.1.2 e.2.2 > max f.1.2 f.2.2
  · rw [if_pos c2]
    simp only [Bool.false_eq_true, false_iff]
    rw [key (by omega)]; omega
  · rw [if_neg c2, show yEnd x e = some e.1.2 from if_pos hx.symm, show yEnd x f = some f.1.2 from if_pos hy.symm]
    dsimp only
    by_cases g : e.1.2 = f.1.2
    · have h : e.1 = f.1 := Prod.ext (by omega) g
      rw [if_neg (by omega), if_pos g, if_neg hne, Bool.false_xor, lessSlopeD_iff, lt_slope h1 h2 h]
      have p1 : 0 < e.2.1 - e.1.1 := by omega
      have p2 : 0 < f.2.1 - f.1.1 := by omega
      have : 0 < (e.2.1 - e.1.1) * (f.2.1 - f.1.1) := mul_pos p1 p2
      rw [mul_neg_iff]
      constructor
      · rintro ⟨_, h | h | h⟩ <;> omega
      · intro h; exact ⟨by omega, Or.inr (Or.inr ⟨by omega, this⟩)⟩
    · rw [key g]
      split_ifs <;> simp <;> omega

/-- Comparing an element of the scanline with the vertical query at a point: is it strictly below the point? -/
theorem lessHE_query {umax : Int} {e : HE} (p : Pt) (h1 : NV e) (a1 : e.1.1 < p.1) (a2 : p.1 ≤ e.2.1) :
    lessHE p.1 true e (vhe umax p) = true ↔ Y e p.1 < p.2 := by
  have q1 : (e.1.1 : ℚ) ≤ p.1 := by exact_mod_cast a1.le
  have q2 : (p.1 : ℚ) ≤ e.2.1 := by exact_mod_cast a2
  have be := Y_between h1 q1 q2
  have hm : ∃ y', vhe umax p = (p, (p.1, y')) ∧ (y' = p.2 + 1 ∨ y' = p.2 - 1) := by
    unfold vhe; split_ifs <;> simp
  obtain ⟨y', hv, hy'⟩ := hm
  rw [hv]
  unfold lessHE
  dsimp only
  by_cases c1 : max e.1.2 e.2.2 < min p.2 y'
  · rw [if_pos c1]
    have : ((max e.1.2 e.2.2 : Int) : ℚ) < p.2 := by
      have : max e.1.2 e.2.2 < p.2 := by omega
      exact_mod_cast this
    simp only [true_iff]; linarith
  rw [if_neg c1]
  by_cases c2 : min e.1.2 e.2.2 > max p.2 y'
  · rw [if_pos c2]
    have : (p.2 : ℚ) < ((min e.1.2 e.2.2 : Int) : ℚ) := by
      have : p.2 < min e.1.2 e.2.2 := by omega
      exact_mod_cast this
    simp only [Bool.false_eq_true, false_iff, not_lt]; linarith
  · rw [if_neg c2]
    have hq : yEnd p.1 (p, (p.1, y')) = some p.2 := if_pos rfl
    rw [hq]
    rcases eq_or_lt_of_le a2 with g | g
    · have : yEnd p.1 e = some e.2.2 := by unfold yEnd; rw [if_neg (by omega), if_pos g]
      rw [this]
      dsimp only
      have hy : Y e p.1 = e.2.2 := by
        have := Y_right h1
        rw [← g] at this; exact this
      rw [hy]
      by_cases k : e.2.2 < p.2
      · rw [if_pos k]; simp only [true_iff]; exact_mod_cast k
      · rw [if_neg k]
        have k' : ¬ ((e.2.2 : ℚ) < p.2) := by exact_mod_cast k
        by_cases k2 : e.2.2 = p.2
        · have hne : e ≠ (p, (p.1, y')) := by
            intro hc; rw [hc] at h1; dsimp only [NV] at h1; omega
          rw [if_pos k2, if_neg hne]
          have : lessSlopeD (e.2.1 - e.1.1) (e.2.2 - e.1.2) (p.1 - p.1) (y' - p.2) = true := by
            rw [lessSlopeD_iff]; exact ⟨by omega, Or.inl (by omega)⟩
          rw [this]; simp [k']
        · rw [if_neg k2]; simp [k']
    · rw [yEnd_none a1 g]
      dsimp only
      -- the two end points are on different sides of the vertical line
      have hd : ∀ r : Pt, oab r (p, (p.1, y')) = (p.1 - r.1).sign := by
        intro r
        rcases hy' with hy' | hy'
        · rw [oab_eq r (Or.inr ⟨rfl, by dsimp only; omega⟩)]
          unfold det; dsimp only; rw [hy']; congr 1; ring
        · rw [← oab_swap r p (p.1, y') (fun hc => by rw [Prod.ext_iff] at hc; dsimp only at hc; omega)]
          rw [oab_eq r (Or.inr ⟨rfl, by dsimp only; omega⟩)]
          unfold det; dsimp only; rw [hy']; congr 1; ring
      rw [hd, hd, Int.sign_eq_one_of_pos (by omega), Int.sign_eq_neg_one_of_neg (by omega)]
      simp only [show ¬ ((1 : Int) = -1) by omega, if_false, decide_eq_true_eq]
      exact oab_one h1 p

end Verif.Arb
