import Verif.Proofs.FormRing
import Verif.Proofs.CutNear
/-!
# Every outline winds around some point
-/
namespace Verif.ArbForm
open Verif.Arb Verif.Contains Verif.Spec Verif.Spec.Arb

theorem exists_min {α : Type} (f : α → ℚ) : ∀ (l : List α), l ≠ [] → ∃ a ∈ l, ∀ b ∈ l, f a ≤ f b := by
  intro l
  induction l with
  | nil => intro h; exact absurd rfl h
  | cons a l ih =>
    intro _
    by_cases c : l = []
    · subst c; exact ⟨a, by simp, by simp⟩
    · obtain ⟨b, hb, h⟩ := ih c
      by_cases g : f a ≤ f b
      · refine ⟨a, by simp, fun x hx => ?_⟩
        rcases List.mem_cons.1 hx with rfl | hx
        · exact le_refl _
        · exact le_trans g (h x hx)
      · refine ⟨b, by simp [hb], fun x hx => ?_⟩
        rcases List.mem_cons.1 hx with rfl | hx
        · exact le_of_lt (lt_of_not_ge g)
        · exact h x hx

theorem sum_single {α : Type} {l : List α} (hn : l.Nodup) {a : α} (ha : a ∈ l) {f : α → Int} (h : ∀ b ∈ l, b ≠ a → f b = 0) : (l.map f).sum = f a := by
  induction l with
  | nil => simp at ha
  | cons b l ih =>
    rw [List.nodup_cons] at hn
    rw [List.map_cons, List.sum_cons]
    by_cases c : b = a
    · subst c
      rw [List.sum_eq_zero, add_zero]
      intro x hx
      obtain ⟨y, hy, rfl⟩ := List.mem_map.1 hx
      exact h y (by simp [hy]) (by rintro rfl; exact hn.1 hy)
    · rw [h b (by simp) c, zero_add]
      exact ih hn.2 (by rcases List.mem_cons.1 ha with g | g; exact absurd g.symm c; exact g) (fun x hx => h x (by simp [hx]))

theorem walk_sum (φ : Pt → Int) : ∀ (T : List Edge) (a b : Pt), Walk a T b → (T.map (fun e => φ e.2 - φ e.1)).sum = φ b - φ a
  | [], a, b, h => by rw [show a = b from h]; simp
  | e :: r, a, b, h => by
    obtain ⟨h1, -, h3⟩ := h
    rw [List.map_cons, List.sum_cons, walk_sum φ r _ _ h3, h1]; ring

theorem solid_or (e : V) : e.1 = solidLeft e ∨ e.1 = (solidLeft e).swap := by
  unfold solidLeft
  split_ifs <;> simp [Prod.swap]

variable {D : List V}

/-- Sides that meet in a point that is not an end of either are the same. -/
theorem side_eq (hn : (D.map Prod.fst).Nodup) (hP : Planar (D.map Prod.fst)) {d d' : V} (hd : d ∈ D) (hd' : d' ∈ D) {q : ℚ × ℚ}
    (h1 : OnEdge d.1 q) (h2 : OnEdge d'.1 q) (h3 : ¬ EndOf d.1 q) : d = d' := by
  by_contra hne
  have : d.1 ≠ d'.1 := fun h => hne (List.inj_on_of_nodup_map hn hd hd' h)
  exact h3 (hP d.1 (List.mem_map.2 ⟨d, hd, rfl⟩) d'.1 (List.mem_map.2 ⟨d', hd', rfl⟩) this q h1 h2).1

/-- An outline has a side that is not vertical. -/
theorem not_vertical (hd : ∀ e ∈ D, Arb.Directed e.1) (hn : (D.map Prod.fst).Nodup) (hP : Planar (D.map Prod.fst)) {T : List Edge} {a : Pt}
    (hw : Walk a T a) (hT : T ≠ []) (hs : ∀ e ∈ T, e ∈ D.map solidLeft) (hnd : T.Nodup) : ∃ e ∈ T, e.1.1 ≠ e.2.1 := by
  by_contra hv
  push Not at hv
  obtain ⟨e, he, hmin⟩ := exists_min (fun e : Edge => min (e.1.2 : ℚ) e.2.2) T hT
  -- the lower end
  have key : ∀ v : Pt, (v = e.1 ∨ v = e.2) → (v.2 : ℚ) = min (e.1.2 : ℚ) e.2.2 → False := by
    intro v hve hvm
    have only : ∀ f ∈ T, (f.1 = v ∨ f.2 = v) → f = e := by
      intro f hf hfv
      obtain ⟨d, d1, d2⟩ := List.mem_map.1 (hs e he)
      obtain ⟨d', d1', d2'⟩ := List.mem_map.1 (hs f hf)
      have lowOf : ∀ (g : Edge) (c : V), c ∈ D → solidLeft c = g → g ∈ T → (g.1 = v ∨ g.2 = v) → c.1.1 = v ∧ c.1.2.1 = v.1 ∧ v.2 < c.1.2.2 := by
        intro g c hc hcg hg hgv
        have c1 := hd c hc
        have c2 := hv g hg
        have c3 : (v.2 : ℚ) ≤ min (g.1.2 : ℚ) g.2.2 := by rw [hvm]; exact hmin g hg
        have c4 : v.2 ≤ g.1.2 := by exact_mod_cast le_trans c3 (min_le_left _ _)
        have c5 : v.2 ≤ g.2.2 := by exact_mod_cast le_trans c3 (min_le_right _ _)
        unfold Arb.Directed at c1
        rcases solid_or c with h | h <;> rw [hcg] at h <;> rw [h] at c1 ⊢ <;> (try simp only [Prod.fst_swap, Prod.snd_swap] at c1 ⊢) <;>
          rcases hgv with rfl | rfl
        · exact ⟨rfl, by omega, by omega⟩
        · exfalso; omega
        · exfalso; omega
        · exact ⟨rfl, by omega, by omega⟩
      obtain ⟨p1, p2, p3⟩ := lowOf e d d1 d2 he (by rcases hve with h | h; exact Or.inl h.symm; exact Or.inr h.symm)
      obtain ⟨r1, r2, r3⟩ := lowOf f d' d1' d2' hf hfv
      -- a point above the lower end
      have onE : ∀ c : V, c.1.1 = v → c.1.2.1 = v.1 → v.2 < c.1.2.2 → OnEdge c.1 ((v.1 : ℚ), (v.2 : ℚ) + 1 / 2) ∧ ¬ EndOf c.1 ((v.1 : ℚ), (v.2 : ℚ) + 1 / 2) := by
        intro c h1 h2 h3
        have h3' : (v.2 : ℚ) + 1 ≤ c.1.2.2 := by exact_mod_cast h3
        constructor
        · refine ⟨(1 / 2) / ((c.1.2.2 : ℚ) - v.2), by apply div_nonneg <;> linarith, by rw [div_le_one] <;> linarith, ?_, ?_⟩
          · rw [h1, h2]; simp
          · rw [h1]
            have : ((c.1.2.2 : ℚ) - v.2) ≠ 0 := by linarith
            dsimp only
            rw [div_mul_cancel₀ _ this]
        · rintro (⟨-, h⟩ | ⟨-, h⟩)
          · rw [h1] at h
            dsimp only at h
            linarith
          · dsimp only at h
            linarith
      obtain ⟨o1, o2⟩ := onE d p1 p2 p3
      obtain ⟨o3, -⟩ := onE d' r1 r2 r3
      have := side_eq hn hP d1 d1' o1 o3 o2
      rw [← d2, ← d2', this]
    have hz := walk_sum (fun p => if p = v then 1 else 0) T a a hw
    rw [sub_self, sum_single hnd he (fun b hb hbe => ?_)] at hz
    · have hne : e.1 ≠ e.2 := by
        have : ∀ (T : List Edge) (a b : Pt), Walk a T b → ∀ e ∈ T, e.1 ≠ e.2 := by
          intro T
          induction T with
          | nil => simp
          | cons f T ih =>
            intro a b h e he
            rcases List.mem_cons.1 he with rfl | he
            · exact h.2.1
            · exact ih _ _ h.2.2 e he
        exact this T a a hw e he
      rcases hve with rfl | rfl
      · rw [if_neg hne.symm, if_pos rfl] at hz; omega
      · rw [if_neg hne, if_pos rfl] at hz; omega
    · have n1 : b.1 ≠ v := fun h => hbe (only b hb (Or.inl h))
      have n2 : b.2 ≠ v := fun h => hbe (only b hb (Or.inr h))
      rw [if_neg n1, if_neg n2]; rfl
  rcases le_total (e.1.2 : ℚ) e.2.2 with h | h
  · exact key e.1 (Or.inl rfl) (min_eq_left h).symm
  · exact key e.2 (Or.inr rfl) (min_eq_right h).symm

/-- The outline winds around some point. -/
theorem ring_wind (hd : ∀ e ∈ D, Arb.Directed e.1) (hn : (D.map Prod.fst).Nodup) (hP : Planar (D.map Prod.fst)) (hu : ∀ e ∈ D, e.2 = 1 ∨ e.2 = -1)
    {l : List Pt} (hr : Ring l) (hs : ∀ e ∈ sides l, e ∈ D.map solidLeft) (hnd : (sides l).Nodup) : ∃ q, windAt l q ≠ 0 := by
  have hr' := hr
  obtain ⟨h1, h2⟩ := hr'
  have hne : l ≠ [] := by rintro rfl; exact h1 rfl
  obtain ⟨a, ha⟩ : ∃ a, l.head? = some a := by cases l with
    | nil => exact absurd rfl hne
    | cons a r => exact ⟨a, rfl⟩
  have hw := sides_walk l a a ha (by rw [← h2]; exact ha)
  obtain ⟨e, he, hev⟩ := not_vertical hd hn hP hw h1 hs hnd
  obtain ⟨d, d1, d2⟩ := List.mem_map.1 (hs e he)
  have hdl : d.1.1.1 < d.1.2.1 := by
    have := hd d d1
    unfold Arb.Directed at this
    rcases solid_or d with h | h <;> rw [d2] at h <;> rw [h] at this ⊢ <;> (try simp only [Prod.fst_swap, Prod.snd_swap] at this ⊢) <;> omega
  -- the sides over the abscissa
  have hx : ∃ x : ℚ, x = (d.1.1.1 : ℚ) + 1 / 2 := ⟨_, rfl⟩
  obtain ⟨x, hx⟩ := hx
  have hnint : ∀ k : Int, (k : ℚ) ≠ x := by
    intro k hk
    rw [hx] at hk
    have : (2 * k : ℚ) = 2 * d.1.1.1 + 1 := by linarith
    have : 2 * k = 2 * d.1.1.1 + 1 := by exact_mod_cast this
    omega
  have hspan : (d.1.1.1 : ℚ) ≤ x ∧ x < d.1.2.1 := by
    have : (d.1.1.1 : ℚ) + 1 ≤ d.1.2.1 := by exact_mod_cast hdl
    rw [hx]; constructor <;> linarith
  let Q := D.filter (fun c => decide (solidLeft c ∈ sides l ∧ (c.1.1.1 : ℚ) ≤ x ∧ x < c.1.2.1))
  have hQ : d ∈ Q := List.mem_filter.2 ⟨d1, by simpa using ⟨d2 ▸ he, hspan⟩⟩
  obtain ⟨m, hm, hmin⟩ := exists_min (fun c : V => lineY c.1.1 c.1.2 x) Q (List.ne_nil_of_mem hQ)
  obtain ⟨m1, m2⟩ := List.mem_filter.1 hm
  have m2 : solidLeft m ∈ sides l ∧ (m.1.1.1 : ℚ) ≤ x ∧ x < m.1.2.1 := by simpa using m2
  refine ⟨(x, lineY m.1.1 m.1.2 x), ?_⟩
  have onL : ∀ c : V, (c.1.1.1 : ℚ) ≤ x → x < c.1.2.1 → OnEdge c.1 (x, lineY c.1.1 c.1.2 x) := by
    intro c h1 h2
    exact Cut.on_lineY (by exact_mod_cast lt_of_le_of_lt h1 h2) h1 h2.le
  rw [windAt_sides hr, sum_single hnd m2.1 (fun b hb hbm => ?_)]
  · rw [crossing_solid (hd m m1) (hu m m1), if_pos ⟨m2.2.1, m2.2.2, le_refl _⟩]
    rcases hu m m1 with h | h <;> rw [h] <;> decide
  · obtain ⟨c, c1, c2⟩ := List.mem_map.1 (hs b hb)
    rw [← c2, crossing_solid (hd c c1) (hu c c1), if_neg]
    rintro ⟨g1, g2, g3⟩
    dsimp only at g1 g2 g3
    have hcQ : c ∈ Q := List.mem_filter.2 ⟨c1, by simpa using ⟨c2 ▸ hb, g1, g2⟩⟩
    have g4 := hmin c hcQ
    have g5 : lineY c.1.1 c.1.2 x = lineY m.1.1 m.1.2 x := le_antisymm g3 g4
    have o1 := onL m m2.2.1 m2.2.2
    have o2 := onL c g1 g2
    rw [g5] at o2
    have := side_eq hn hP m1 c1 o1 o2 (by
      rintro (⟨h, -⟩ | ⟨h, -⟩)
      · exact hnint _ h.symm
      · exact hnint _ h.symm)
    apply hbm
    rw [← c2, this]

end Verif.ArbForm
