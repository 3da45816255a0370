import Verif.Proofs.ArbDepth
/-! The order of the events, equal regions, and a criterion for planarity. -/
namespace Verif.Arb
open Verif.Contains (lessPoint lessPoint_iff)
open Verif.Spec Verif.Spec.Arb

theorem lvd_iff {a b : Ev} (ha : Directed a.1) (hb : Directed b.1) : lessVertexData a b = true ↔
    plt a.1.1 b.1.1 ∨ (a.1.1 = b.1.1 ∧
      (b.1.2.1 - b.1.1.1) * (a.1.2.2 - a.1.1.2) < (a.1.2.1 - a.1.1.1) * (b.1.2.2 - b.1.1.2)) := by
  unfold lessVertexData
  by_cases h1 : lessPoint a.1.1 b.1.1 = true
  · rw [if_pos h1]; simp only [true_iff]; exact Or.inl ((lessPoint_iff _ _).1 h1)
  rw [if_neg h1]
  by_cases h2 : lessPoint b.1.1 a.1.1 = true
  · rw [if_pos h2]
    simp only [Bool.false_eq_true, false_iff]
    rw [lessPoint_iff] at h1 h2
    rintro (h | ⟨h, _⟩)
    · exact h1 h
    · rw [h] at h2; omega
  rw [if_neg h2]
  rw [lessPoint_iff] at h1 h2
  have hp : a.1.1 = b.1.1 := Prod.ext (by omega) (by omega)
  have hn : ¬ plt a.1.1 b.1.1 := h1
  simp only [hn, false_or, hp, true_and]
  have px : a.1.1.1 = b.1.1.1 := by rw [hp]
  have py : a.1.1.2 = b.1.1.2 := by rw [hp]
  unfold lessHE
  rw [if_neg (by omega), if_neg (by omega), show yEnd b.1.1.1 a.1 = some a.1.1.2 from if_pos px.symm, show yEnd b.1.1.1 b.1 = some b.1.1.2 from if_pos rfl]
  dsimp only
  rw [if_neg (by omega), if_pos py]
  by_cases hne : a.1 = b.1
  · rw [if_pos hne, hne]; simp
  rw [if_neg hne, Bool.false_xor, lessSlopeD_iff, px, py]
  unfold Verif.Spec.Arb.Directed at ha hb
  generalize hA : a.1.2.1 - b.1.1.1 = A
  generalize hB : a.1.2.2 - b.1.1.2 = B
  generalize hC : b.1.2.1 - b.1.1.1 = C
  generalize hD : b.1.2.2 - b.1.1.2 = D
  have dA : 0 < A ∨ (A = 0 ∧ 0 < B) := by omega
  have dC : 0 < C ∨ (C = 0 ∧ 0 < D) := by omega
  rcases dA with dA | ⟨rfl, dA⟩
  · rcases dC with dC | ⟨rfl, dC⟩
    · have : 0 < A * C := mul_pos dA dC
      rw [mul_neg_iff]
      constructor
      · rintro ⟨_, h | h | h⟩ <;> omega
      · intro h; exact ⟨by omega, Or.inr (Or.inr ⟨by omega, this⟩)⟩
    · have : 0 < A * D := mul_pos dA dC
      constructor
      · intro _; omega
      · intro _; exact ⟨by omega, Or.inl rfl⟩
  · rcases dC with dC | ⟨rfl, dC⟩
    · have : 0 < C * B := mul_pos dC dA
      constructor
      · rintro ⟨h, _⟩; exact absurd rfl h
      · intro h; omega
    · constructor
      · rintro ⟨h, _⟩; exact absurd rfl h
      · intro h; omega

theorem lvd_negtrans {a b c : Ev} (ha : Directed a.1) (hb : Directed b.1) (hc : Directed c.1) (h1 : lessVertexData b a = false)
    (h2 : lessVertexData c b = false) : lessVertexData c a = false := by
  rw [Bool.eq_false_iff, Ne, lvd_iff hb ha] at h1
  rw [Bool.eq_false_iff, Ne, lvd_iff hc hb] at h2
  rw [Bool.eq_false_iff, Ne, lvd_iff hc ha]
  have g1 : b.1.1 = a.1.1 → ¬ (a.1.2.1 - a.1.1.1) * (b.1.2.2 - b.1.1.2) < (b.1.2.1 - b.1.1.1) * (a.1.2.2 - a.1.1.2) :=
    fun k hh => h1 (Or.inr ⟨k, hh⟩)
  have g2 : c.1.1 = b.1.1 → ¬ (b.1.2.1 - b.1.1.1) * (c.1.2.2 - c.1.1.2) < (c.1.2.1 - c.1.1.1) * (b.1.2.2 - b.1.1.2) :=
    fun k hh => h2 (Or.inr ⟨k, hh⟩)
  replace h1 : ¬ plt b.1.1 a.1.1 := fun hh => h1 (Or.inl hh)
  replace h2 : ¬ plt c.1.1 b.1.1 := fun hh => h2 (Or.inl hh)
  rintro (h | ⟨h, g⟩)
  · by_cases k : b.1.1 = a.1.1
    · rw [← k] at h; exact h2 h
    · by_cases k' : c.1.1 = b.1.1
      · rw [k'] at h; exact h1 h
      · unfold plt at h1 h2 h
        have k1 : ¬ (b.1.1.1 = a.1.1.1 ∧ b.1.1.2 = a.1.1.2) := fun hh => k (Prod.ext hh.1 hh.2)
        have k2 : ¬ (c.1.1.1 = b.1.1.1 ∧ c.1.1.2 = b.1.1.2) := fun hh => k' (Prod.ext hh.1 hh.2)
        omega
  · by_cases k : b.1.1 = a.1.1
    · have g1 := not_lt.1 (g1 k)
      have k' : c.1.1 = b.1.1 := by rw [h, k]
      have g2 := not_lt.1 (g2 k')
      unfold Verif.Spec.Arb.Directed at ha hb hc
      rw [h] at g g2
      rw [k] at g1 g2
      have e1 : b.1.1.1 = a.1.1.1 := by rw [k]
      have e2 : b.1.1.2 = a.1.1.2 := by rw [k]
      have e3 : c.1.1.1 = a.1.1.1 := by rw [h]
      have e4 : c.1.1.2 = a.1.1.2 := by rw [h]
      generalize hA : a.1.2.1 - a.1.1.1 = A at *
      generalize hB : a.1.2.2 - a.1.1.2 = B at *
      generalize hC : b.1.2.1 - a.1.1.1 = C at *
      generalize hD : b.1.2.2 - a.1.1.2 = D at *
      generalize hE : c.1.2.1 - a.1.1.1 = E at *
      generalize hF : c.1.2.2 - a.1.1.2 = F at *
      have dA : 0 < A ∨ (A = 0 ∧ 0 < B) := by omega
      have dC : 0 < C ∨ (C = 0 ∧ 0 < D) := by omega
      have dE : 0 < E ∨ (E = 0 ∧ 0 < F) := by omega
      clear ha hb hc hA hB hC hD hE hF e1 e2 e3 e4 k k' h h1 h2
      have nA : 0 ≤ A := by omega
      have nE : 0 ≤ E := by omega
      rcases dC with dC | ⟨rfl, dC⟩
      · have t1 := mul_le_mul_of_nonneg_left g1 nE
        have t2 := mul_le_mul_of_nonneg_left g2 nA
        have : C * (E * B) ≤ C * (A * F) := by nlinarith
        have := le_of_mul_le_mul_left this dC
        omega
      · have : E * D ≤ 0 := by omega
        have hE0 : E = 0 := by
          rcases dE with d | d
          · have := mul_pos d dC; omega
          · exact d.1
        subst hE0
        have hF : 0 < F := by omega
        have := mul_nonneg nA hF.le
        omega
    · unfold plt at h1 h2
      rw [h] at h2
      exact k (Prod.ext (by omega) (by omega))

theorem lvd_asymm {a b : Ev} (ha : Directed a.1) (hb : Directed b.1) (h : lessVertexData a b = true) : lessVertexData b a = false := by
  rw [Bool.eq_false_iff, Ne, lvd_iff hb ha]
  rw [lvd_iff ha hb] at h
  rcases h with h | ⟨h, g⟩
  · rintro (k | ⟨k, _⟩)
    · unfold plt at h k; omega
    · rw [k] at h; unfold plt at h; omega
  · rintro (k | ⟨_, k⟩)
    · rw [h] at k; unfold plt at k; omega
    · rw [h] at g k
      linarith

theorem insertEv_spec (a : Ev) (ha : Directed a.1) : ∀ L : List Ev, (∀ b ∈ L, Directed b.1) → L.Pairwise (fun a b => lessVertexData b a = false) →
    (insertEv a L).Perm (a :: L) ∧ (insertEv a L).Pairwise (fun a b => lessVertexData b a = false)
  | [], _, _ => ⟨List.Perm.refl _, List.pairwise_singleton _ _⟩
  | b :: L, hd, h => by
    rw [insertEv]
    by_cases c : lessVertexData b a = true
    · rw [if_pos c]
      obtain ⟨p1, p2⟩ := insertEv_spec a ha L (fun d hd' => hd d (List.mem_cons_of_mem _ hd')) (List.pairwise_cons.1 h).2
      refine ⟨(p1.cons b).trans (List.Perm.swap a b L), List.pairwise_cons.2 ⟨?_, p2⟩⟩
      intro d hd'
      rcases List.mem_cons.1 (p1.subset hd') with rfl | hd'
      · exact lvd_asymm (hd b List.mem_cons_self) ha c
      · exact (List.pairwise_cons.1 h).1 d hd'
    · rw [if_neg c]
      rw [Bool.not_eq_true] at c
      refine ⟨List.Perm.refl _, List.pairwise_cons.2 ⟨?_, h⟩⟩
      intro d hd'
      rcases List.mem_cons.1 hd' with rfl | hd''
      · exact c
      · exact lvd_negtrans ha (hd b List.mem_cons_self) (hd d hd') c ((List.pairwise_cons.1 h).1 d hd'')

theorem sortEv_spec : ∀ L : List Ev, (∀ b ∈ L, Directed b.1) →
    (sortEv L).Perm L ∧ (sortEv L).Pairwise (fun a b => lessVertexData b a = false)
  | [], _ => ⟨List.Perm.refl _, List.Pairwise.nil⟩
  | a :: L, hd => by
    obtain ⟨p1, p2⟩ := sortEv_spec L (fun d hd' => hd d (List.mem_cons_of_mem _ hd'))
    rw [sortEv]
    obtain ⟨q1, q2⟩ := insertEv_spec a (hd a List.mem_cons_self) (sortEv L)
      (fun b hb => hd b (List.mem_cons_of_mem _ (p1.subset hb))) p2
    exact ⟨q1.trans (p1.cons a), q2⟩

/-! ### Permuting the events -/

theorem layer_perm {E E' : List Ev} (h : E.Perm E') (k : Int) : (layer E k).Perm (layer E' k) := (h.filter _).map _

theorem depth_perm {L L' : List (Edge × Int)} (h : L.Perm L') (q : ℚ × ℚ) : depth L q = depth L' q := (h.map _).sum_eq

theorem good_perm {E E' : List Ev} (h : E.Perm E') (hG : Good E) : Good E' := by
  refine ⟨fun ev hev => hG.dir ev (h.mem_iff.2 hev), ?_, ?_⟩
  · intro e he f hf
    exact hG.planar e ((h.map _).mem_iff.2 he) f ((h.map _).mem_iff.2 hf)
  · intro k v
    rw [← hG.closed k v]
    exact ((layer_perm h.symm k).map _).sum_eq

/-- The whole scan, for any order that sorts the events. -/
theorem scan_all {E evs : List Ev} (hG : Good E) (hp : evs.Perm E) (hs : evs.Pairwise (fun a b => lessVertexData b a = false)) {β : Type} (op : RF β)
    (umin umax : Int) : ∃ P out, scan op umin umax evs = some out ∧ Done evs op (fun _ => True) P out := by
  have hG' := good_perm hp.symm hG
  refine scan_spec hG' ?_ op umin umax
  refine List.Pairwise.imp_of_mem ?_ hs
  intro a b ha hb h
  exact before_of hG' ha hb h

/-! ### Nothing written means nothing inside -/

/-- A planar closed list of distinct edges with counts other than 0, and depth 0 everywhere, is empty. -/
theorem depth_zero_nil {L : List (Edge × Int)} (hd : ∀ e ∈ L, Directed e.1) (hP : Planar (L.map Prod.fst)) (hC : Closed L)
    (hn : (L.map Prod.fst).Nodup) (hc : ∀ e ∈ L, e.2 ≠ 0) (h0 : ∀ q, depth L q = 0) : L = [] := by
  classical
  -- a single non-vertical edge
  have hnv : ∀ e ∈ L, ¬ NV e.1 := by
    intro e he hnv
    -- the events of one layer
    have hG : Good (L.map (fun e => (e.1, ((0 : Int), e.2)))) := by
      have hl : ∀ k, layer (L.map (fun e => (e.1, ((0 : Int), e.2)))) k = if k = 0 then L else [] := by
        intro k
        unfold layer
        by_cases hk : k = 0
        · subst hk
          rw [List.filter_eq_self.2 (by intro a ha; obtain ⟨b, _, rfl⟩ := List.mem_map.1 ha; rfl), List.map_map, if_pos rfl]
          exact List.map_id _
        · rw [if_neg hk, List.filter_eq_nil_iff.2, List.map_nil]
          intro a ha
          obtain ⟨b, _, rfl⟩ := List.mem_map.1 ha
          simpa using Ne.symm hk
      refine ⟨?_, ?_, ?_⟩
      · intro ev hev; obtain ⟨b, hb, rfl⟩ := List.mem_map.1 hev; exact hd b hb
      · rw [List.map_map]; exact hP
      · intro k; rw [hl]; split_ifs
        · exact hC
        · intro v; rfl
    generalize hE : L.map (fun e => (e.1, ((0 : Int), e.2))) = E at hG
    have hL : layer E 0 = L := by
      rw [← hE]
      unfold layer
      rw [List.filter_eq_self.2 (by intro a ha; obtain ⟨b, _, rfl⟩ := List.mem_map.1 ha; rfl), List.map_map]
      exact List.map_id _
    have hH : ∀ a ∈ L, Has E a.1 := by
      intro a ha
      rw [← hE]
      exact List.mem_map.2 ⟨(a.1, (0, a.2)), List.mem_map.2 ⟨a, ha, rfl⟩, rfl⟩
    -- at the middle of the first unit stretch
    set t : ℚ := (e.1.1.1 : ℚ) + 1 / 2 with ht
    have hfl : ⌊t⌋ = e.1.1.1 := by
      rw [Int.floor_eq_iff]; constructor <;> rw [ht] <;> push_cast <;> linarith
    have hsp : RSpan e.1.1.1 e.1 := ⟨le_rfl, hnv⟩
    have up := h0 (t, Y e.1 t)
    rw [← hL, depth_layer] at up
    dsimp only at up
    rw [hfl] at up
    -- the points strictly below
    have low : S E 0 (fun f => RSpan e.1.1.1 f ∧ Y f t < Y e.1 t) = 0 := by
      -- a value between the edge and whatever is below it
      obtain ⟨y, hy1, hy2⟩ : ∃ y : ℚ, y < Y e.1 t ∧ ∀ f, Has E f → Y f t < Y e.1 t → Y f t ≤ y := by
        by_cases hne : ((U E).filter (fun f => Y f t < Y e.1 t)).Nonempty
        · obtain ⟨m, hm, hmax⟩ := Finset.exists_max_image _ (fun f => Y f t) hne
          exact ⟨Y m t, (Finset.mem_filter.1 hm).2, fun f hf hl => hmax f (Finset.mem_filter.2 ⟨mem_U.2 hf, hl⟩)⟩
        · refine ⟨Y e.1 t - 1, by linarith, fun f hf hl => ?_⟩
          exact absurd ⟨f, Finset.mem_filter.2 ⟨mem_U.2 hf, hl⟩⟩ hne
      have := h0 (t, y)
      rw [← hL, depth_layer] at this
      dsimp only at this
      rw [hfl] at this
      refine Eq.trans ?_ this
      apply S_congr
      intro ev hev
      exact and_congr_right fun _ => ⟨fun hl => hy2 _ (Has.of hev) hl, fun hl => lt_of_le_of_lt hl hy1⟩
    have on : S E 0 (fun f => f = e.1) = 0 := by
      have := S_add (E := E) (k := 0) (P := fun f => RSpan e.1.1.1 f ∧ Y f t ≤ Y e.1 t) (Q := fun f => RSpan e.1.1.1 f ∧ Y f t < Y e.1 t)
        (R := fun f => f = e.1) (by
          intro ev hev
          constructor
          · rintro ⟨h1, h2⟩
            by_cases g : ev.1 = e.1
            · exact Or.inr g
            · left
              refine ⟨h1, lt_of_le_of_ne h2 ?_⟩
              have q1 : (ev.1.1.1 : ℚ) ≤ e.1.1.1 := by exact_mod_cast h1.1
              have q2 : (e.1.1.1 : ℚ) + 1 ≤ ev.1.2.1 := by exact_mod_cast h1.2
              have q3 : (e.1.1.1 : ℚ) + 1 ≤ e.1.2.1 := by exact_mod_cast hnv
              exact hG.sep (Has.of hev) (hH e he) g h1.nv hnv t (by rw [ht]; linarith) (by rw [ht]; linarith) (by rw [ht]; linarith)
                (by rw [ht]; linarith)
          · rintro (⟨h1, h2⟩ | h)
            · exact ⟨h1, h2.le⟩
            · rw [h]; exact ⟨hsp, le_rfl⟩) (by
          rintro ev _ ⟨⟨_, h2⟩, h3⟩
          rw [h3] at h2; exact _root_.lt_irrefl _ h2)
      omega
    -- but that is its count
    have cnt : S E 0 (fun f => f = e.1) = e.2 := by
      rw [S_eq, ← T_layer, hL]
      clear up low on hG hE hL hH h0 hP hC hd
      induction L with
      | nil => simp at he
      | cons a L ih =>
        rw [List.map_cons, List.sum_cons]
        rw [List.map_cons, List.nodup_cons] at hn
        rcases List.mem_cons.1 he with rfl | he
        · have : (L.map (fun f => f.2 * if f.1 = e.1 then (1 : Int) else 0)).sum = 0 := by
            apply List.sum_eq_zero
            intro z hz
            obtain ⟨f, hf, rfl⟩ := List.mem_map.1 hz
            rw [if_neg, mul_zero]
            intro hc'
            exact hn.1 (List.mem_map.2 ⟨f, hf, hc'⟩)
          rw [this, if_pos rfl]; ring
        · rw [ih hn.2 (fun b hb => hc b (List.mem_cons_of_mem _ hb)) he, if_neg, mul_zero, zero_add]
          intro hc'
          exact hn.1 (List.mem_map.2 ⟨e, he, hc'.symm⟩)
    exact hc e he (by rw [← cnt, on])
  -- the highest upper end of a vertical edge
  by_contra hne
  have hfin : (L.toFinset).Nonempty := by
    rw [Finset.nonempty_iff_ne_empty]
    intro hc'
    exact hne ((List.toFinset_eq_empty_iff L).1 hc')
  obtain ⟨m, hm, hmax⟩ := Finset.exists_max_image L.toFinset (fun e => e.1.2.2) hfin
  have hmL := List.mem_toFinset.1 hm
  have vert : ∀ e ∈ L, e.1.1.1 = e.1.2.1 ∧ e.1.1.2 < e.1.2.2 := by
    intro e he
    rcases hd e he with g | g
    · exact absurd g (hnv e he)
    · exact g
  have hflow := hC m.1.2
  -- only m touches its upper end
  have hothers : ∀ e ∈ L, e ≠ m → inflow e m.1.2 = 0 := by
    intro e he hem
    have h1 := vert e he
    have h2 := vert m hmL
    have h3 := hmax e (List.mem_toFinset.2 he)
    have n1 : ¬ e.1.1 = m.1.2 := by
      intro hc'
      have : e.1.1.2 = m.1.2.2 := by rw [hc']
      omega
    have n2 : ¬ e.1.2 = m.1.2 := by
      intro hc'
      have x1 : e.1.2.1 = m.1.2.1 := by rw [hc']
      have x2 : e.1.2.2 = m.1.2.2 := by rw [hc']
      -- both contain points just below the upper end
      have hed : e.1 ≠ m.1 := by
        intro hq
        have := List.inj_on_of_nodup_map hn he hmL hq
        exact hem this
      have p1 : (0 : ℚ) < (e.1.2.2 : ℚ) - e.1.1.2 := by
        have : (e.1.1.2 : ℚ) < e.1.2.2 := by exact_mod_cast h1.2
        linarith
      have p2 : (0 : ℚ) < (m.1.2.2 : ℚ) - m.1.1.2 := by
        have : (m.1.1.2 : ℚ) < m.1.2.2 := by exact_mod_cast h2.2
        linarith
      have p3 : (1 : ℚ) ≤ (e.1.2.2 : ℚ) - e.1.1.2 := by
        have : (e.1.1.2 : ℚ) + 1 ≤ e.1.2.2 := by exact_mod_cast h1.2
        linarith
      have p4 : (1 : ℚ) ≤ (m.1.2.2 : ℚ) - m.1.1.2 := by
        have : (m.1.1.2 : ℚ) + 1 ≤ m.1.2.2 := by exact_mod_cast h2.2
        linarith
      have ex1 : (e.1.1.1 : ℚ) = e.1.2.1 := by exact_mod_cast h1.1
      have ex2 : (m.1.1.1 : ℚ) = m.1.2.1 := by exact_mod_cast h2.1
      have ex3 : (e.1.2.1 : ℚ) = m.1.2.1 := by exact_mod_cast x1
      have ex4 : (e.1.2.2 : ℚ) = m.1.2.2 := by exact_mod_cast x2
      have key : ∀ g : HE, (g.1.1 : ℚ) = g.2.1 → (1 : ℚ) ≤ (g.2.2 : ℚ) - g.1.2 → OnEdge g ((g.2.1 : ℚ), (g.2.2 : ℚ) - 1 / 2) := by
        intro g hg1 hg2
        have hp : (0 : ℚ) < (g.2.2 : ℚ) - g.1.2 := by linarith
        refine ⟨1 - (1 / 2) / ((g.2.2 : ℚ) - g.1.2), ?_, ?_, ?_, ?_⟩
        · rw [sub_nonneg, div_le_one hp]; linarith
        · have : (0 : ℚ) ≤ (1 / 2) / ((g.2.2 : ℚ) - g.1.2) := div_nonneg (by norm_num) hp.le
          linarith
        · dsimp only; rw [hg1]; ring
        · dsimp only; field_simp; ring
      have k1 := key e.1 ex1 p3
      have k2 := key m.1 ex2 p4
      rw [ex3, ex4] at k1
      have := hP e.1 (List.mem_map.2 ⟨e, he, rfl⟩) m.1 (List.mem_map.2 ⟨m, hmL, rfl⟩) hed _ k1 k2
      rcases this.2 with ⟨_, hq⟩ | ⟨_, hq⟩ <;> dsimp only at hq <;> linarith
    unfold inflow
    rw [if_neg n2, if_neg n1]; ring
  have hnodup : L.Nodup := List.Nodup.of_map _ hn
  rw [← List.sum_toFinset _ hnodup, Finset.sum_eq_single_of_mem m hm (fun e he hem => hothers e (List.mem_toFinset.1 he) hem)] at hflow
  have hv := vert m hmL
  unfold inflow at hflow
  rw [if_pos hv.1, if_pos rfl, if_neg (by intro hc'; have : m.1.1.2 = m.1.2.2 := by rw [hc']
                                          omega)] at hflow
  have := hc m hmL
  omega

/-! ### A criterion for planarity -/

/-- Twice the signed area of the triangle of the edge and the point. -/
def side (e : HE) (p : Pt) : Int := (e.2.1 - e.1.1) * (p.2 - e.1.2) - (e.2.2 - e.1.2) * (p.1 - e.1.1)

/-- `f` lies on one side of `e` and touches its line in at most one common end point. -/
def sideOk (e f : HE) : Bool :=
  decide ((0 ≤ side e f.1 ∧ 0 ≤ side e f.2) ∨ (side e f.1 ≤ 0 ∧ side e f.2 ≤ 0)) &&
  decide (side e f.1 = 0 → f.1 = e.1 ∨ f.1 = e.2) && decide (side e f.2 = 0 → f.2 = e.1 ∨ f.2 = e.2) &&
  decide (¬ (side e f.1 = 0 ∧ side e f.2 = 0))

theorem sideOk_meet {e f : HE} (h : sideOk e f = true) (q : ℚ × ℚ) (he : OnEdge e q) (hf : OnEdge f q) : EndOf e q ∧ EndOf f q := by
  unfold sideOk at h
  simp only [Bool.and_eq_true, decide_eq_true_eq] at h
  obtain ⟨⟨⟨h1, h2⟩, h3⟩, h4⟩ := h
  obtain ⟨s, _, _, e1, e2⟩ := he
  obtain ⟨t, t0, t1, f1, f2⟩ := hf
  have hz : (1 - t) * (side e f.1 : ℚ) + t * (side e f.2 : ℚ) = 0 := by
    have a1 : (side e f.1 : ℚ) = ((e.2.1 : ℚ) - e.1.1) * ((f.1.2 : ℚ) - e.1.2) - ((e.2.2 : ℚ) - e.1.2) * ((f.1.1 : ℚ) - e.1.1) := by
      unfold side; push_cast; ring
    have a2 : (side e f.2 : ℚ) = ((e.2.1 : ℚ) - e.1.1) * ((f.2.2 : ℚ) - e.1.2) - ((e.2.2 : ℚ) - e.1.2) * ((f.2.1 : ℚ) - e.1.1) := by
      unfold side; push_cast; ring
    have b1 : (f.1.1 : ℚ) + t * (f.2.1 - f.1.1) = e.1.1 + s * (e.2.1 - e.1.1) := by rw [← f1, e1]
    have b2 : (f.1.2 : ℚ) + t * (f.2.2 - f.1.2) = e.1.2 + s * (e.2.2 - e.1.2) := by rw [← f2, e2]
    rw [a1, a2]
    linear_combination ((e.2.1 : ℚ) - e.1.1) * b2 - ((e.2.2 : ℚ) - e.1.2) * b1
  have hends : t = 0 ∨ t = 1 := by
    by_contra hc
    push Not at hc
    have p0 : 0 < t := lt_of_le_of_ne t0 (Ne.symm hc.1)
    have p1 : 0 < 1 - t := by have := lt_of_le_of_ne t1 hc.2; linarith
    have z1 : (side e f.1 : ℚ) = 0 ∧ (side e f.2 : ℚ) = 0 := by
      rcases h1 with ⟨g1, g2⟩ | ⟨g1, g2⟩
      · have q1 : (0 : ℚ) ≤ side e f.1 := by exact_mod_cast g1
        have q2 : (0 : ℚ) ≤ side e f.2 := by exact_mod_cast g2
        constructor
        · by_contra hh
          have := lt_of_le_of_ne q1 (Ne.symm hh)
          nlinarith [mul_pos p1 this, mul_nonneg p0.le q2]
        · by_contra hh
          have := lt_of_le_of_ne q2 (Ne.symm hh)
          nlinarith [mul_pos p0 this, mul_nonneg p1.le q1]
      · have q1 : (side e f.1 : ℚ) ≤ 0 := by exact_mod_cast g1
        have q2 : (side e f.2 : ℚ) ≤ 0 := by exact_mod_cast g2
        constructor
        · by_contra hh
          have := lt_of_le_of_ne q1 hh
          nlinarith [mul_pos p1 (neg_pos.2 this), mul_nonneg p0.le (neg_nonneg.2 q2)]
        · by_contra hh
          have := lt_of_le_of_ne q2 hh
          nlinarith [mul_pos p0 (neg_pos.2 this), mul_nonneg p1.le (neg_nonneg.2 q1)]
    exact h4 ⟨by exact_mod_cast z1.1, by exact_mod_cast z1.2⟩
  rcases hends with rfl | rfl
  · have z : side e f.1 = 0 := by
      have : (side e f.1 : ℚ) = 0 := by linarith
      exact_mod_cast this
    have hq1 : q.1 = f.1.1 := by rw [f1]; ring
    have hq2 : q.2 = f.1.2 := by rw [f2]; ring
    refine ⟨?_, Or.inl ⟨hq1, hq2⟩⟩
    rcases h2 z with g | g
    · exact Or.inl ⟨by rw [hq1, g], by rw [hq2, g]⟩
    · exact Or.inr ⟨by rw [hq1, g], by rw [hq2, g]⟩
  · have z : side e f.2 = 0 := by
      have : (side e f.2 : ℚ) = 0 := by linarith
      exact_mod_cast this
    have hq1 : q.1 = f.2.1 := by rw [f1]; ring
    have hq2 : q.2 = f.2.2 := by rw [f2]; ring
    refine ⟨?_, Or.inr ⟨hq1, hq2⟩⟩
    rcases h3 z with g | g
    · exact Or.inl ⟨by rw [hq1, g], by rw [hq2, g]⟩
    · exact Or.inr ⟨by rw [hq1, g], by rw [hq2, g]⟩

theorem planar_of_side {E : List HE} (h : ∀ e ∈ E, ∀ f ∈ E, e ≠ f → sideOk e f = true ∨ sideOk f e = true) : Planar E := by
  intro e he f hf hne q h1 h2
  rcases h e he f hf hne with g | g
  · exact sideOk_meet g q h1 h2
  · exact (sideOk_meet g q h2 h1).symm

theorem closed_of_vertices {L : List (Edge × Int)}
    (h : ∀ v ∈ L.map (fun e => e.1.1) ++ L.map (fun e => e.1.2), (L.map (fun e => inflow e v)).sum = 0) : Closed L := by
  intro v
  by_cases hv : v ∈ L.map (fun e => e.1.1) ++ L.map (fun e => e.1.2)
  · exact h v hv
  · apply List.sum_eq_zero
    intro z hz
    obtain ⟨e, he, rfl⟩ := List.mem_map.1 hz
    rw [List.mem_append, not_or] at hv
    unfold inflow
    rw [if_neg (fun hc => hv.2 (List.mem_map.2 ⟨e, he, hc⟩)), if_neg (fun hc => hv.1 (List.mem_map.2 ⟨e, he, hc⟩))]
    ring

theorem layer_none {E : List Ev} {k : Int} (h : ∀ ev ∈ E, ev.2.1 = 0 ∨ ev.2.1 = 1) (h0 : k ≠ 0) (h1 : k ≠ 1) : layer E k = [] := by
  unfold layer
  rw [List.filter_eq_nil_iff.2, List.map_nil]
  intro ev hev
  rcases h ev hev with g | g <;> rw [g] <;> simp <;> omega

end Verif.Arb
