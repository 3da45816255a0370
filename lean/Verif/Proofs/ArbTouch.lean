import Verif.Proofs.ArbGraph
import Verif.Spec.Touch
/-! Regions near edges, and when the scan links two of them. -/
namespace Verif.ArbMerge
open Verif Verif.Arb Verif.Contains Verif.Spec Verif.Spec.Arb

/-- Less than `ε` away in both coordinates. -/
def Within (ε : ℚ) (p q : ℚ × ℚ) : Prop := |p.1 - q.1| < ε ∧ |p.2 - q.2| < ε

theorem Y_cont (e : HE) (t : ℚ) {ε : ℚ} (hε : 0 < ε) : ∃ δ : ℚ, 0 < δ ∧ ∀ s, |s - t| < δ → |Y e s - Y e t| < ε := by
  have hd : ∀ s, Y e s - Y e t = ((e.2.2 - e.1.2 : ℚ) / (e.2.1 - e.1.1)) * (s - t) := by intro s; unfold Y lineY; ring
  generalize ((e.2.2 - e.1.2 : ℚ) / (e.2.1 - e.1.1)) = c at hd
  have hc : (0 : ℚ) < |c| + 1 := by positivity
  refine ⟨ε / (|c| + 1), div_pos hε hc, fun s hs => ?_⟩
  rw [hd, abs_mul]
  rw [lt_div_iff₀ hc] at hs
  have h1 : 0 ≤ |s - t| := abs_nonneg _
  have h2 : 0 ≤ |c| := abs_nonneg _
  by_cases h0 : |s - t| = 0
  · rw [h0, mul_zero]; exact hε
  · have : 0 < |s - t| := lt_of_le_of_ne h1 (Ne.symm h0)
    nlinarith

theorem eps_min {α : Type} (L : List α) (P : α → ℚ → Prop) (hm : ∀ a ε δ, δ ≤ ε → P a ε → P a δ) (h : ∀ a ∈ L, ∃ ε : ℚ, 0 < ε ∧ P a ε) :
    ∃ ε : ℚ, 0 < ε ∧ ∀ a ∈ L, P a ε := by
  induction L with
  | nil => exact ⟨1, by norm_num, by simp⟩
  | cons a L ih =>
    obtain ⟨ε, h1, h2⟩ := ih (fun b hb => h b (List.mem_cons_of_mem _ hb))
    obtain ⟨δ, h3, h4⟩ := h a (by simp)
    refine ⟨min ε δ, lt_min h1 h3, fun b hb => ?_⟩
    rcases List.mem_cons.1 hb with rfl | hb
    · exact hm _ _ _ (min_le_right _ _) h4
    · exact hm _ _ _ (min_le_left _ _) (h2 b hb)

/-- A point inside an interval near any of its points. -/
theorem inner_near {a b t δ : ℚ} (hab : a < b) (h1 : a ≤ t) (h2 : t ≤ b) (hδ : 0 < δ) : ∃ s, a < s ∧ s < b ∧ |s - t| < δ := by
  have hh : 0 < b - a := by linarith
  have hq : 0 < δ + (b - a) := by linarith
  obtain ⟨r, hr⟩ : ∃ r, r = δ / (δ + (b - a)) := ⟨_, rfl⟩
  have r0 : 0 < r := by rw [hr]; positivity
  have r1 : r < 1 := by rw [hr, div_lt_one hq]; linarith
  have r2 : r * (b - a) < δ := by
    rw [hr, div_mul_eq_mul_div, div_lt_iff₀ hq]; nlinarith
  refine ⟨t + r * ((a + b) / 2 - t), ?_, ?_, ?_⟩
  · nlinarith
  · nlinarith
  · rw [abs_lt]; constructor <;> nlinarith

theorem on_vert {e : HE} (hv : e.1.1 = e.2.1) (hl : e.1.2 < e.2.2) (q : ℚ × ℚ) : OnEdge e q ↔ q.1 = e.1.1 ∧ (e.1.2 : ℚ) ≤ q.2 ∧ q.2 ≤ e.2.2 := by
  have hv' : (e.1.1 : ℚ) = e.2.1 := by exact_mod_cast hv
  have hl' : (e.1.2 : ℚ) < e.2.2 := by exact_mod_cast hl
  have hp : (0 : ℚ) < e.2.2 - e.1.2 := by linarith
  constructor
  · rintro ⟨t, h0, h1, h2, h3⟩
    refine ⟨by rw [h2, ← hv']; ring, by rw [h3]; nlinarith, by rw [h3]; nlinarith⟩
  · rintro ⟨h1, h2, h3⟩
    refine ⟨(q.2 - e.1.2) / (e.2.2 - e.1.2), div_nonneg (by linarith) hp.le, (div_le_one hp).2 (by linarith), by rw [h1, ← hv']; ring, ?_⟩
    field_simp; ring

theorem rspan_floor {t : ℚ} {f : HE} (h : RSpan ⌊t⌋ f) : (f.1.1 : ℚ) ≤ t ∧ t < f.2.1 := ⟨Int.le_floor.1 h.1, Int.floor_lt.1 h.2⟩

/-- Points of the two sides near every point of an edge that is not vertical. -/
theorem side_nv {E : List Ev} (hG : Good E) {e : HE} (he : Has E e) (hn : NV e) {q : ℚ × ℚ} (hq : OnEdge e q) {ε : ℚ} (hε : 0 < ε) :
    (∃ p, Within ε p q ∧ ∀ k, depth (layer E k) p = lv E e k) ∧ ∃ p, Within ε p q ∧ ∀ k, depth (layer E k) p = rv E e k := by
  obtain ⟨h1, h2, h3⟩ := (onEdge_iff hn q).1 hq
  have hn' : (e.1.1 : ℚ) < e.2.1 := by exact_mod_cast hn
  obtain ⟨δ, d1, d2⟩ := Y_cont e q.1 (half_pos hε)
  obtain ⟨t, t1, t2, t3⟩ := inner_near hn' h1 h2 (lt_min d1 hε)
  have ty := d2 t (lt_of_lt_of_le t3 (min_le_left _ _))
  have tx := lt_of_lt_of_le t3 (min_le_right _ _)
  rw [← h3] at ty
  have hnv : ¬ e.1.1 = e.2.1 := by unfold NV at hn; omega
  have f1 : e.1.1 ≤ ⌊t⌋ := Int.le_floor.2 t1.le
  have f2 : ⌊t⌋ < e.2.1 := Int.floor_lt.2 t2
  have cmp : ∀ f, Has E f → RSpan ⌊t⌋ f → f ≠ e → Y f t ≠ Y e t ∧ (Lt f e ↔ Y f t < Y e t) := by
    intro f hf hs hne
    obtain ⟨s1, s2⟩ := rspan_floor hs
    have := planar_ne hG.planar hf he hne hs.nv hn s1 s2.le t1 t2
    exact ⟨this, lt_iff (hG.sep hf he hne hs.nv hn) hs.nv hn (by have := hs.1; omega) (by have := hs.2; omega) s1 s2.le t1.le t2.le this⟩
  have hlt : ∀ f, Has E f → RSpan ⌊t⌋ f → (Lt f e ↔ Y f t < Y e t) := by
    intro f hf hs
    by_cases c : f = e
    · subst c; exact ⟨fun h => absurd h (lt_irrefl f), fun h => absurd h (_root_.lt_irrefl _)⟩
    · exact (cmp f hf hs c).2
  refine ⟨⟨(t, Y e t), ⟨tx, lt_trans ty (by linarith)⟩, fun k => ?_⟩, ?_⟩
  · unfold lv
    rw [if_neg hnv, ← D_const hG he f1 f2, depth_layer]
    unfold D
    apply S_congr
    intro ev hev
    refine and_congr_right fun hs => ?_
    dsimp only at hs ⊢
    constructor
    · intro hle
      by_cases c : ev.1 = e
      · exact Or.inl c
      · exact Or.inr ((hlt _ (Has.of hev) hs).2 (lt_of_le_of_ne hle (cmp _ (Has.of hev) hs c).1))
    · rintro (c | c)
      · rw [c]
      · exact ((hlt _ (Has.of hev) hs).1 c).le
  · obtain ⟨η, n1, n2⟩ := eps_min E (fun ev η => Y ev.1 t < Y e t → Y ev.1 t ≤ Y e t - η) (fun a ε δ hle h g => by have := h g; linarith) (by
      intro ev _
      by_cases c : Y ev.1 t < Y e t
      · exact ⟨Y e t - Y ev.1 t, by linarith, fun _ => by linarith⟩
      · exact ⟨1, by norm_num, fun h => absurd h c⟩)
    have m1 : 0 < min η (ε / 2) := lt_min n1 (half_pos hε)
    have m2 : min η (ε / 2) ≤ η := min_le_left _ _
    have m3 : min η (ε / 2) ≤ ε / 2 := min_le_right _ _
    generalize min η (ε / 2) = μ at m1 m2 m3
    refine ⟨(t, Y e t - μ), ⟨tx, ?_⟩, fun k => ?_⟩
    · rw [abs_lt] at ty ⊢
      dsimp only
      constructor <;> linarith
    · have hr : rv E e k = D E e e.1.1 k - S E k (· = e) := by unfold rv; rw [if_neg hnv]
      rw [hr, ← D_const hG he f1 f2, depth_layer]
      have hsum := S_add (E := E) (k := k) (P := fun f => RSpan ⌊t⌋ f ∧ (f = e ∨ Lt f e)) (Q := fun f => RSpan ⌊t⌋ f ∧ Lt f e) (R := fun f => f = e) (by
        intro ev hev
        constructor
        · rintro ⟨g1, g2 | g2⟩
          exacts [Or.inr g2, Or.inl ⟨g1, g2⟩]
        · rintro (⟨g1, g2⟩ | g)
          · exact ⟨g1, Or.inr g2⟩
          · exact ⟨by rw [g]; exact ⟨f1, f2⟩, Or.inl g⟩) (by
        rintro ev _ ⟨⟨_, g1⟩, g2⟩
        rw [g2] at g1
        exact lt_irrefl _ g1)
      unfold D
      rw [hsum]
      have : S E k (fun f => RSpan ⌊t⌋ f ∧ Y f t ≤ Y e t - μ) = S E k (fun f => RSpan ⌊t⌋ f ∧ Lt f e) := by
        apply S_congr
        intro ev hev
        refine and_congr_right fun hs => ?_
        rw [hlt _ (Has.of hev) hs]
        exact ⟨fun g => by linarith, fun g => by have := n2 ev hev g; linarith⟩
      dsimp only
      rw [this]; ring

/-- Points of the two sides near every point of a vertical edge. -/
theorem side_v {E : List Ev} (hG : Good E) {e : HE} (he : Has E e) (hv : e.1.1 = e.2.1) {q : ℚ × ℚ} (hq : OnEdge e q) {ε : ℚ} (hε : 0 < ε) :
    (∃ p, Within ε p q ∧ ∀ k, depth (layer E k) p = lv E e k) ∧ ∃ p, Within ε p q ∧ ∀ k, depth (layer E k) p = rv E e k := by
  have hl : e.1.2 < e.2.2 := by rcases hG.dirE he with g | g <;> omega
  have hl' : (e.1.2 : ℚ) < e.2.2 := by exact_mod_cast hl
  obtain ⟨h1, h2, h3⟩ := (on_vert hv hl q).1 hq
  obtain ⟨y, y1, y2, y3⟩ := inner_near hl' h2 h3 hε
  have hx' : (e.1.1 : ℚ) = e.2.1 := by exact_mod_cast hv
  -- other edges do not pass through the inside of this one
  have cross : ∀ f, Has E f → NV f → (f.1.1 : ℚ) ≤ e.2.1 → (e.2.1 : ℚ) ≤ f.2.1 → (e.1.2 : ℚ) < Y f e.2.1 → Y f e.2.1 < e.2.2 → False := by
    intro f hf hfn a b c d
    have hne : f ≠ e := by rintro rfl; unfold NV at hfn; omega
    have := hG.planar f hf e he hne ((e.2.1 : ℚ), Y f e.2.1) ((onEdge_iff hfn _).2 ⟨a, b, rfl⟩) ((on_vert hv hl _).2 ⟨hx'.symm, c.le, d.le⟩)
    rcases this.2 with ⟨_, g⟩ | ⟨_, g⟩ <;> dsimp only at g <;> linarith
  have cmp : ∀ f, Has E f → NV f → (f.1.1 : ℚ) ≤ e.2.1 → (e.2.1 : ℚ) ≤ f.2.1 → Y f e.2.1 ≠ y ∧ (Y f e.2.1 < y ↔ Y f e.2.1 < e.2.2) := by
    intro f hf hfn a b
    have := cross f hf hfn a b
    refine ⟨fun g => this (by linarith) (by linarith), fun g => by linarith, fun g => ?_⟩
    by_contra hc
    exact this (by linarith) g
  constructor
  · obtain ⟨δ, d1, d2⟩ := eps_min E (fun ev δ => Y ev.1 e.2.1 ≠ y → ∀ s : ℚ, |s - (e.2.1 : ℚ)| < δ → (Y ev.1 s ≤ y ↔ Y ev.1 e.2.1 < y))
      (fun a ε δ hle h g s hs => h g s (lt_of_lt_of_le hs hle)) (by
        intro ev _
        by_cases c : Y ev.1 e.2.1 = y
        · exact ⟨1, by norm_num, fun h => absurd c h⟩
        · obtain ⟨δ, d1, d2⟩ := Y_cont ev.1 e.2.1 (abs_pos.2 (sub_ne_zero.2 c))
          refine ⟨δ, d1, fun _ s hs => ?_⟩
          have := d2 s hs
          rw [abs_lt] at this
          rcases lt_or_gt_of_ne c with g | g
          · rw [abs_of_neg (by linarith)] at this
            exact ⟨fun _ => g, fun _ => by linarith⟩
          · rw [abs_of_pos (by linarith)] at this
            exact ⟨fun h => by linarith, fun h => by linarith⟩)
    have m1 : 0 < min (min δ ε) 1 := lt_min (lt_min d1 hε) one_pos
    have m2 : min (min δ ε) 1 ≤ δ := (min_le_left _ _).trans (min_le_left _ _)
    have m3 : min (min δ ε) 1 ≤ ε := (min_le_left _ _).trans (min_le_right _ _)
    have m4 : min (min δ ε) 1 ≤ 1 := min_le_right _ _
    generalize min (min δ ε) 1 = μ at m1 m2 m3 m4
    have hab : |(e.2.1 - μ / 2 : ℚ) - e.2.1| = μ / 2 := by
      rw [show (e.2.1 - μ / 2 : ℚ) - e.2.1 = -(μ / 2) by ring, abs_neg, abs_of_pos (by linarith)]
    have hfl : ⌊(e.2.1 - μ / 2 : ℚ)⌋ = e.2.1 - 1 := by
      rw [Int.floor_eq_iff]; push_cast; constructor <;> linarith
    refine ⟨((e.2.1 : ℚ) - μ / 2, y), ⟨?_, y3⟩, fun k => ?_⟩
    · dsimp only; rw [h1, hx', hab]; linarith
    · rw [depth_layer, hfl]
      unfold lv; rw [if_pos hv]
      apply S_congr
      intro ev hev
      rw [span_iff]
      refine and_congr_right fun hs => ?_
      have a : (ev.1.1.1 : ℚ) ≤ e.2.1 := by exact_mod_cast hs.1.le
      have b : (e.2.1 : ℚ) ≤ ev.1.2.1 := by exact_mod_cast hs.2
      obtain ⟨c1, c2⟩ := cmp ev.1 (Has.of hev) hs.nv a b
      rw [← c2]
      exact d2 ev hev c1 _ (by rw [hab]; linarith)
  · refine ⟨((e.2.1 : ℚ), y), ⟨?_, y3⟩, fun k => ?_⟩
    · dsimp only; rw [h1, hx', sub_self, abs_zero]; exact hε
    · rw [depth_layer]
      have : rv E e = Rsum E e.2 := by unfold rv; rw [if_pos hv]
      rw [this]
      show S E k (fun f => RSpan ⌊(e.2.1 : ℚ)⌋ f ∧ Y f (e.2.1 : ℚ) ≤ y) = S E k (fun f => RSpan e.2.1 f ∧ Y f (e.2.1 : ℚ) < e.2.2)
      rw [Int.floor_intCast]
      apply S_congr
      intro ev hev
      refine and_congr_right fun hs => ?_
      have a : (ev.1.1.1 : ℚ) ≤ e.2.1 := by exact_mod_cast hs.1
      have b : (e.2.1 : ℚ) ≤ ev.1.2.1 := by exact_mod_cast hs.2.le
      obtain ⟨c1, c2⟩ := cmp ev.1 (Has.of hev) hs.nv a b
      rw [← c2]
      exact ⟨fun g => lt_of_le_of_ne g c1, fun g => g.le⟩

/-- Points of the two sides near every point of an edge. -/
theorem side_near {E : List Ev} (hG : Good E) {e : HE} (he : Has E e) {q : ℚ × ℚ} (hq : OnEdge e q) {ε : ℚ} (hε : 0 < ε) :
    (∃ p, Within ε p q ∧ ∀ k, depth (layer E k) p = lv E e k) ∧ ∃ p, Within ε p q ∧ ∀ k, depth (layer E k) p = rv E e k := by
  by_cases hv : e.1.1 = e.2.1
  · exact side_v hG he hv hq hε
  · exact side_nv hG he (by rcases hG.dirE he with g | g; exacts [g, absurd g.1 hv]) hq hε

/-- Around a point that is on no edge the depths do not change. -/
theorem local_const {E : List Ev} (hG : Good E) {q : ℚ × ℚ} (hq : ∀ e, Has E e → ¬ OnEdge e q) :
    ∃ ε : ℚ, 0 < ε ∧ ∀ p, Within ε p q → ∀ k, depth (layer E k) p = depth (layer E k) q := by
  obtain ⟨δ, d1, d2⟩ := eps_min E (fun ev δ => NV ev.1 → (ev.1.1.1 : ℚ) ≤ q.1 → q.1 ≤ ev.1.2.1 → ∀ p, Within δ p q → (Y ev.1 p.1 ≤ p.2 ↔ Y ev.1 q.1 ≤ q.2))
    (fun a ε δ hle h g1 g2 g3 p hp => h g1 g2 g3 p ⟨lt_of_lt_of_le hp.1 hle, lt_of_lt_of_le hp.2 hle⟩) (by
      intro ev hev
      by_cases c : NV ev.1 ∧ (ev.1.1.1 : ℚ) ≤ q.1 ∧ q.1 ≤ ev.1.2.1
      · have hne : Y ev.1 q.1 ≠ q.2 := fun g => hq ev.1 (Has.of hev) ((onEdge_iff c.1 q).2 ⟨c.2.1, c.2.2, g.symm⟩)
        have hpos := abs_pos.2 (sub_ne_zero.2 hne)
        obtain ⟨δ, d1, d2⟩ := Y_cont ev.1 q.1 (half_pos hpos)
        refine ⟨min δ (|Y ev.1 q.1 - q.2| / 2), lt_min d1 (half_pos hpos), fun _ _ _ p hp => ?_⟩
        have i1 := d2 p.1 (lt_of_lt_of_le hp.1 (min_le_left _ _))
        have i2 := lt_of_lt_of_le hp.2 (min_le_right _ _)
        rw [abs_lt] at i1 i2
        rcases lt_or_gt_of_ne hne with g | g
        · rw [abs_of_neg (by linarith)] at i1 i2
          exact ⟨fun _ => g.le, fun _ => by linarith⟩
        · rw [abs_of_pos (by linarith)] at i1 i2
          exact ⟨fun h => by linarith, fun h => by linarith⟩
      · exact ⟨1, by norm_num, fun a b d => absurd ⟨a, b, d⟩ c⟩)
  have fl1 := Int.floor_le q.1
  have fl2 := Int.lt_floor_add_one q.1
  obtain ⟨η, n1, n2, n3⟩ : ∃ η : ℚ, 0 < η ∧ η ≤ ⌊q.1⌋ + 1 - q.1 ∧ (⌊q.1⌋ = q.1 ∨ η ≤ q.1 - ⌊q.1⌋) := by
    by_cases c : (⌊q.1⌋ : ℚ) = q.1
    · exact ⟨⌊q.1⌋ + 1 - q.1, by linarith, le_rfl, Or.inl c⟩
    · have : (⌊q.1⌋ : ℚ) < q.1 := lt_of_le_of_ne fl1 c
      exact ⟨min (⌊q.1⌋ + 1 - q.1) (q.1 - ⌊q.1⌋), lt_min (by linarith) (by linarith), min_le_left _ _, Or.inr (min_le_right _ _)⟩
  refine ⟨min (min δ η) 1, lt_min (lt_min d1 n1) one_pos, fun p hp k => ?_⟩
  have hpδ : Within δ p q := ⟨lt_of_lt_of_le hp.1 ((min_le_left _ _).trans (min_le_left _ _)), lt_of_lt_of_le hp.2 ((min_le_left _ _).trans (min_le_left _ _))⟩
  have hpη := lt_of_lt_of_le hp.1 ((min_le_left _ _).trans (min_le_right _ _))
  have hp1 := lt_of_lt_of_le hp.1 (min_le_right _ _)
  rw [abs_lt] at hpη hp1
  rw [depth_layer, depth_layer]
  by_cases c : (⌊q.1⌋ : ℚ) ≤ p.1
  · have : ⌊p.1⌋ = ⌊q.1⌋ := by rw [Int.floor_eq_iff]; exact ⟨c, by linarith⟩
    rw [this]
    apply S_congr
    intro ev hev
    refine and_congr_right fun hs => ?_
    obtain ⟨s1, s2⟩ := rspan_floor hs
    exact d2 ev hev hs.nv s1 s2.le p hpδ
  · rcases n3 with n3 | n3
    · have hf : ⌊p.1⌋ = ⌊q.1⌋ - 1 := by
        rw [Int.floor_eq_iff]; push_cast; constructor <;> linarith
      have col := column hG k ⌊q.1⌋ (fun y => y ≤ q.2) (fun a b h1 h2 => by linarith)
      have z : S E k (fun e => (e.1.1 = ⌊q.1⌋ ∧ e.2.1 = ⌊q.1⌋) ∧ (e.1.2 : ℚ) ≤ q.2 ∧ ¬ (e.2.2 : ℚ) ≤ q.2) = 0 := by
        apply S_zero
        rintro ev hev ⟨⟨g1, g2⟩, g3, g4⟩
        have hl : ev.1.1.2 < ev.1.2.2 := by rcases hG.dir ev hev with g | g <;> omega
        refine hq ev.1 (Has.of hev) ((on_vert (by omega) hl q).2 ⟨?_, g3, by linarith⟩)
        rw [g1, n3]
      rw [z, add_zero] at col
      rw [hf]
      have e1 : S E k (fun e => RSpan ⌊q.1⌋ e ∧ Y e q.1 ≤ q.2) = S E k (fun e => RSpan ⌊q.1⌋ e ∧ Y e (⌊q.1⌋ : ℚ) ≤ q.2) := by rw [n3]
      rw [e1, ← col]
      apply S_congr
      intro ev hev
      rw [span_iff]
      refine and_congr_right fun hs => ?_
      have a : (ev.1.1.1 : ℚ) ≤ q.1 := by rw [← n3]; exact_mod_cast hs.1.le
      have b : q.1 ≤ ev.1.2.1 := by rw [← n3]; exact_mod_cast hs.2
      rw [n3]
      exact d2 ev hev hs.nv a b p hpδ
    · exfalso; linarith

/-! ### One list as events -/

theorem good_single {L : List (Edge × Int)} (hd : ∀ e ∈ L, Directed e.1) (hP : Planar (L.map Prod.fst)) (hC : Closed L) :
    Good (L.map (fun e => (e.1, ((0 : Int), e.2)))) ∧ layer (L.map (fun e => (e.1, ((0 : Int), e.2)))) 0 = L := by
  have hl : ∀ k, layer (L.map (fun e => (e.1, ((0 : Int), e.2)))) k = if k = 0 then L else [] := by
    intro k
    unfold layer
    by_cases hk : k = 0
    · subst hk
      rw [List.filter_eq_self.2 (by intro a ha; obtain ⟨b, _, rfl⟩ := List.mem_map.1 ha; rfl), List.map_map, if_pos rfl]
      exact List.map_id _
    · rw [if_neg hk, List.filter_eq_nil_iff.2, List.map_nil]
      intro a ha
      obtain ⟨b, _, rfl⟩ := List.mem_map.1 ha
      simpa using Ne.symm hk
  refine ⟨⟨?_, ?_, ?_⟩, by rw [hl, if_pos rfl]⟩
  · intro ev hev; obtain ⟨b, hb, rfl⟩ := List.mem_map.1 hev; exact hd b hb
  · rw [List.map_map]; exact hP
  · intro k; rw [hl]; split_ifs
    · exact hC
    · intro v; rfl

/-! ### Linked labels -/

/-- Covered by a label. -/
noncomputable def posVal (i : Int) : Val where
  v f := if f i > 0 then 1 else 0
  v_01 f := by split_ifs <;> simp
  v_zero := by simp

/-- Covered by two labels. -/
noncomputable def bothVal (i j : Int) : Val where
  v f := if f i > 0 ∧ f j > 0 then 1 else 0
  v_01 f := by split_ifs <;> simp
  v_zero := by simp

theorem val_pos (i : Int) (f : Int → Int) : val (posVal i) f = if f i > 0 then 1 else 0 := rfl
theorem val_both (i j : Int) (f : Int → Int) : val (bothVal i j) f = if f i > 0 ∧ f j > 0 then 1 else 0 := rfl

/-- What would be written for a value. -/
theorem val_out {E : List Ev} (hG : Good E) (op : Val) : ∃ L : List (Edge × Int), (∀ q, depth L q = val op (fun k => depth (layer E k) q)) ∧
    (∀ a ∈ L, Has E a.1 ∧ val op (lv E a.1) ≠ val op (rv E a.1)) ∧ Planar (L.map Prod.fst) ∧ Closed L ∧ ∀ a ∈ L, Directed a.1 := by
  obtain ⟨P, L, h⟩ := doneV_exists E op
  obtain ⟨_, h6⟩ := out_edges h
  refine ⟨L, depth_out hG h, fun a ha => ⟨(h6 a ha).1, N_ne.1 (by rw [← (h6 a ha).2.1]; exact (h6 a ha).2.2)⟩, ?_, closed_out hG h, fun a ha => hG.dirE (h6 a ha).1⟩
  intro e he f hf
  obtain ⟨a, ha, rfl⟩ := List.mem_map.1 he
  obtain ⟨b, hb, rfl⟩ := List.mem_map.1 hf
  exact hG.planar _ (h6 a ha).1 _ (h6 b hb).1

/-- Near a label's region: in its inside or on one of its edges. -/
theorem near_cases {E : List Ev} (hG : Good E) {i : Int} {q : ℚ × ℚ} (h : Near (fun q => depth (layer E i) q > 0) q) :
    (∃ ε : ℚ, 0 < ε ∧ ∀ p, Within ε p q → depth (layer E i) p > 0) ∨
    ∃ e, Has E e ∧ OnEdge e q ∧ ls E e ≠ rs E e ∧ (i ∈ ls E e ∨ i ∈ rs E e) := by
  obtain ⟨L, l1, l2, l3, l4, l5⟩ := val_out hG (posVal i)
  obtain ⟨g1, g2⟩ := good_single l5 l3 l4
  by_cases c : ∀ a ∈ L, ¬ OnEdge a.1 q
  · left
    obtain ⟨ε, e1, e2⟩ := local_const g1 (q := q) (by
      intro e he
      unfold Has at he
      rw [List.map_map] at he
      obtain ⟨a, ha, rfl⟩ := List.mem_map.1 he
      exact c a ha)
    obtain ⟨p, p1, p2, p3⟩ := h ε e1
    have key : ∀ p, Within ε p q → depth L p = depth L q := fun p hp => by have := e2 p hp 0; rwa [g2] at this
    refine ⟨ε, e1, fun r hr => ?_⟩
    have h1 := (key r hr).trans (key p ⟨p1, p2⟩).symm
    rw [l1, l1, val_pos, val_pos, if_pos p3] at h1
    by_contra hc
    rw [if_neg hc] at h1; simp at h1
  · right
    push Not at c
    obtain ⟨a, ha, hq⟩ := c
    obtain ⟨h1, h2⟩ := l2 a ha
    rw [val_pos, val_pos] at h2
    refine ⟨a.1, h1, hq, fun hc => h2 ?_, ?_⟩
    · have : (lv E a.1 i > 0) ↔ (rv E a.1 i > 0) := by rw [← mem_ls, ← mem_rs, hc]
      simp only [this]
    · rw [mem_ls, mem_rs]
      by_contra hc
      push Not at hc
      exact h2 (by rw [if_neg (by omega), if_neg (by omega)])

theorem end_cases {e : HE} {q : ℚ × ℚ} (h : EndOf e q) : ∃ v : Pt, (e.1 = v ∨ e.2 = v) ∧ q = ((v.1 : ℚ), (v.2 : ℚ)) := by
  rcases h with ⟨a, b⟩ | ⟨a, b⟩
  · exact ⟨e.1, Or.inl rfl, Prod.ext a b⟩
  · exact ⟨e.2, Or.inr rfl, Prod.ext a b⟩

/-- Two labels are linked by the calls exactly when their regions touch. -/
theorem linked_iff {E : List Ev} (hG : Good E) {P : List HE} {cs : List Call} (h : Done E calls (fun _ => True) P cs) (i j : Int) :
    Linked cs i j ↔ i ≠ j ∧ RegionsTouch (fun q => depth (layer E i) q > 0) (fun q => depth (layer E j) q > 0) := by
  have mk : ∀ e l, Has E e → ls E e ≠ rs E e → (l ∈ ls E e ∨ l ∈ rs E e) → ∀ v, (e.1 = v ∨ e.2 = v) → Inc cs v l := by
    intro e l h1 h2 h3 v hv
    exact ⟨(e, (ls E e, rs E e)), (mem_calls h _).2 ⟨h1, h2, rfl⟩, hv, List.mem_append.2 h3⟩
  constructor
  · rintro ⟨hne, v, h1, h2⟩
    have key : ∀ l, Inc cs v l → Near (fun q => depth (layer E l) q > 0) ((v.1 : ℚ), (v.2 : ℚ)) := by
      rintro l ⟨c, hc, hv, hl⟩ ε hε
      obtain ⟨g1, _, g3⟩ := (mem_calls h c).1 hc
      rw [g3, List.mem_append, mem_ls, mem_rs] at hl
      obtain ⟨⟨p, p1, p2⟩, ⟨r, r1, r2⟩⟩ := side_near hG g1 (vertex_on hv) hε
      rcases hl with hl | hl
      · exact ⟨p, p1.1, p1.2, by show Spec.Arb.depth _ _ > 0; rw [p2]; exact hl⟩
      · exact ⟨r, r1.1, r1.2, by show Spec.Arb.depth _ _ > 0; rw [r2]; exact hl⟩
    exact ⟨hne, _, key i h1, key j h2⟩
  · rintro ⟨hne, q, h1, h2⟩
    refine ⟨hne, ?_⟩
    -- points of both
    have overlap : (∃ p, depth (layer E i) p > 0 ∧ depth (layer E j) p > 0) → ∃ v, Inc cs v i ∧ Inc cs v j := by
      rintro ⟨p, p1, p2⟩
      obtain ⟨L, l1, l2, _⟩ := val_out hG (bothVal i j)
      have hp := l1 p
      rw [val_both, if_pos ⟨p1, p2⟩] at hp
      cases L with
      | nil => simp [Spec.Arb.depth] at hp
      | cons a L =>
        obtain ⟨g1, g2⟩ := l2 a (by simp)
        rw [val_both, val_both] at g2
        have d1 : ls E a.1 ≠ rs E a.1 := by
          intro hc
          have : ∀ k, (lv E a.1 k > 0) ↔ (rv E a.1 k > 0) := fun k => by rw [← mem_ls, ← mem_rs, hc]
          exact g2 (by simp only [this])
        have d2 : (i ∈ ls E a.1 ∨ i ∈ rs E a.1) ∧ (j ∈ ls E a.1 ∨ j ∈ rs E a.1) := by
          simp only [mem_ls, mem_rs]
          by_contra hc
          apply g2
          rw [if_neg (by omega), if_neg (by omega)]
        exact ⟨a.1.1, mk _ _ g1 d1 d2.1 _ (Or.inl rfl), mk _ _ g1 d1 d2.2 _ (Or.inl rfl)⟩
    rcases near_cases hG h1 with ⟨ε, e1, e2⟩ | ⟨e, he, heq, hes, hel⟩
    · obtain ⟨p, p1, p2, p3⟩ := h2 ε e1
      exact overlap ⟨p, e2 p ⟨p1, p2⟩, p3⟩
    · rcases near_cases hG h2 with ⟨ε, e1, e2⟩ | ⟨f, hf, hfq, hfs, hfl⟩
      · obtain ⟨p, p1, p2, p3⟩ := h1 ε e1
        exact overlap ⟨p, p3, e2 p ⟨p1, p2⟩⟩
      · by_cases c : e = f
        · subst c
          exact ⟨e.1, mk _ _ he hes hel _ (Or.inl rfl), mk _ _ hf hfs hfl _ (Or.inl rfl)⟩
        · obtain ⟨k1, k2⟩ := hG.planar e he f hf c q heq hfq
          obtain ⟨v, v1, v2⟩ := end_cases k1
          obtain ⟨w, w1, w2⟩ := end_cases k2
          have hvw : v = w := by
            rw [v2, Prod.mk.injEq] at w2
            exact Prod.ext (by exact_mod_cast w2.1) (by exact_mod_cast w2.2)
          subst hvw
          exact ⟨v, mk _ _ he hes hel _ v1, mk _ _ hf hfs hfl _ w1⟩

end Verif.ArbMerge
