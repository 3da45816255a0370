import Verif.Proofs.ArbBelow
import Mathlib.Data.List.Nodup
/-! One column of the scan. -/
namespace Verif.Arb
open Verif.Contains (lessPoint lessPoint_iff)
open Verif.Spec Verif.Spec.Arb

variable {β : Type}

/-- Order of points. -/
abbrev plt (p q : Pt) : Prop := p.1 < q.1 ∨ (p.1 = q.1 ∧ p.2 < q.2)

/-- An end point of an edge. -/
def Vertex (E : List Ev) (v : Pt) : Prop := ∃ g, Has E g ∧ (g.1 = v ∨ g.2 = v)

theorem vertex_on {g : HE} {v : Pt} (h : g.1 = v ∨ g.2 = v) : OnEdge g ((v.1 : ℚ), (v.2 : ℚ)) := by
  rcases h with h | h
  · exact ⟨0, le_rfl, by norm_num, by rw [h]; ring, by rw [h]; ring⟩
  · exact ⟨1, by norm_num, le_rfl, by rw [h]; ring, by rw [h]; ring⟩

theorem vertex_vert {E : List Ev} (hG : Good E) {v : Pt} (hv : Vertex E v) {f : HE} (hf : Has E f) (h1 : f.1.1 = v.1) (h2 : f.2.1 = v.1)
    (h3 : f.1.2 < v.2) (h4 : v.2 < f.2.2) : False := by
  obtain ⟨g, hg, hgv⟩ := hv
  by_cases hne : f = g
  · subst hne
    rcases hgv with h | h <;> rw [Prod.ext_iff] at h <;> omega
  · have q3 : (f.1.2 : ℚ) < v.2 := by exact_mod_cast h3
    have q4 : (v.2 : ℚ) < f.2.2 := by exact_mod_cast h4
    have hp : (0 : ℚ) < (f.2.2 : ℚ) - f.1.2 := by linarith
    have := hG.planar f hf g hg hne (v.1, v.2) ⟨((v.2 : ℚ) - f.1.2) / (f.2.2 - f.1.2), div_nonneg (by linarith) hp.le,
      by rw [div_le_one hp]; linarith, by dsimp only; rw [h1, h2]; ring, by dsimp only; field_simp; ring⟩ (vertex_on hgv)
    rcases this.1 with h | h
    · have := h.2; dsimp only at this; linarith
    · have := h.2; dsimp only at this; linarith

theorem vertex_nv {E : List Ev} (hG : Good E) {v : Pt} (hv : Vertex E v) {f : HE} (hf : Has E f) (h1 : f.1.1 < v.1) (h2 : v.1 < f.2.1)
    (h3 : Y f v.1 = v.2) : False := by
  obtain ⟨g, hg, hgv⟩ := hv
  have hn : NV f := by unfold NV; omega
  by_cases hne : f = g
  · subst hne
    rcases hgv with h | h <;> rw [Prod.ext_iff] at h <;> omega
  · have q1 : (f.1.1 : ℚ) < v.1 := by exact_mod_cast h1
    have q2 : (v.1 : ℚ) < f.2.1 := by exact_mod_cast h2
    have := hG.planar f hf g hg hne (v.1, v.2) ((onEdge_iff hn _).2 ⟨q1.le, q2.le, h3.symm⟩) (vertex_on hgv)
    rcases this.1 with h | h
    · have := h.1; dsimp only at this; linarith
    · have := h.1; dsimp only at this; linarith

theorem vert_eq {E : List Ev} (hG : Good E) {e f : HE} (he : Has E e) (hf : Has E f) (e1 : e.1.1 = e.2.1) (f1 : f.1.1 = f.2.1)
    (hx : e.1.1 = f.1.1) (h1 : e.1.2 < f.2.2) (h2 : f.1.2 < e.2.2) : e = f := by
  have de : e.1.2 < e.2.2 := by rcases hG.dirE he with h | h <;> omega
  have df : f.1.2 < f.2.2 := by rcases hG.dirE hf with h | h <;> omega
  -- otherwise an end point of one is inside the other
  rcases lt_trichotomy e.1.2 f.1.2 with g | g | g
  · exact (vertex_vert hG ⟨f, hf, Or.inl rfl⟩ he (by omega) (by omega) g h2).elim
  · rcases lt_trichotomy e.2.2 f.2.2 with k | k | k
    · exact (vertex_vert hG ⟨e, he, Or.inr rfl⟩ hf (by omega) (by omega) (by omega) k).elim
    · exact Prod.ext (Prod.ext hx g) (Prod.ext (by omega) k)
    · exact (vertex_vert hG ⟨f, hf, Or.inr rfl⟩ he (by omega) (by omega) (by omega) k).elim
  · exact (vertex_vert hG ⟨e, he, Or.inl rfl⟩ hf (by omega) (by omega) g h1).elim

/-- Order of the events. -/
def Before (e f : HE) : Prop :=
  plt e.1 f.1 ∨ (e.1 = f.1 ∧ (e = f ∨ (NV e ∧ NV f ∧ Lt e f) ∨ (NV e ∧ f.1.1 = f.2.1)))

theorem before_of {E : List Ev} (hG : Good E) {a b : Ev} (ha : a ∈ E) (hb : b ∈ E) (h : lessVertexData b a = false) : Before a.1 b.1 := by
  unfold lessVertexData at h
  by_cases h1 : lessPoint b.1.1 a.1.1 = true
  · rw [if_pos h1] at h; simp at h
  · rw [if_neg h1] at h
    by_cases h2 : lessPoint a.1.1 b.1.1 = true
    · exact Or.inl ((lessPoint_iff _ _).1 h2)
    · rw [if_neg h2] at h
      rw [lessPoint_iff] at h1 h2
      have hp : a.1.1 = b.1.1 := Prod.ext (by omega) (by omega)
      refine Or.inr ⟨hp, ?_⟩
      by_cases hne : a.1 = b.1
      · exact Or.inl hne
      right
      have da := hG.dir a ha
      have db := hG.dir b hb
      have px : a.1.1.1 = b.1.1.1 := by rw [hp]
      have py : a.1.1.2 = b.1.1.2 := by rw [hp]
      rcases da with da | da
      · rcases db with db | db
        · left
          refine ⟨da, db, ?_⟩
          have hs := hG.sep (Has.of ha) (Has.of hb) hne da db
          have := lessHE_start hs.symm (Ne.symm hne) db da rfl px
          rw [h] at this
          rcases lt_or hs da db (by omega) (by omega) with g | g
          · exact g
          · exact absurd (this.2 g) (by simp)
        · right; exact ⟨da, db.1⟩
      · rcases db with db | db
        · exfalso
          unfold lessHE at h
          rw [if_neg (by omega), if_neg (by omega), show yEnd b.1.1.1 b.1 = some b.1.1.2 from if_pos rfl,
            show yEnd b.1.1.1 a.1 = some a.1.1.2 from if_pos px.symm] at h
          dsimp only at h
          rw [if_neg (by omega), if_pos py.symm, if_neg (Ne.symm hne), Bool.false_xor] at h
          have : lessSlopeD (b.1.2.1 - b.1.1.1) (b.1.2.2 - b.1.1.2) (a.1.2.1 - a.1.1.1) (a.1.2.2 - a.1.1.2) = true := by
            rw [lessSlopeD_iff]; exact ⟨by omega, Or.inl (by omega)⟩
          rw [this] at h; simp at h
        · exact absurd (vert_eq hG (Has.of ha) (Has.of hb) da.1 db.1 px (by omega) (by omega)) hne

/-! ### Values at a point -/

/-- Sum of what runs strictly below a point on its right. -/
noncomputable abbrev Rsum (E : List Ev) (p : Pt) (k : Int) : Int := S E k (fun e => RSpan p.1 e ∧ Y e p.1 < p.2)
/-- Sum of the vertical edges that arrive at a point, or pass it, from below. -/
noncomputable abbrev Wsum (E : List Ev) (p : Pt) (k : Int) : Int :=
  S E k (fun e => (e.1.1 = p.1 ∧ e.2.1 = p.1) ∧ e.1.2 < p.2 ∧ p.2 ≤ e.2.2)

theorem lwr {E : List Ev} (hG : Good E) (p : Pt) (k : Int) : Lsum E p k + Wsum E p k = Rsum E p k := by
  refine Eq.trans ?_ (column hG k p.1 (fun t => t < p.2) (fun a b hab hb => lt_trans hab hb))
  congr 1
  apply S_congr
  intro ev _
  refine and_congr_right fun _ => ?_
  rw [not_lt, Int.cast_le, Int.cast_lt]

/-- What is written for an edge. -/
noncomputable def NN (op : RF β) (E : List Ev) (e : HE) : List β :=
  if e.1.1 = e.2.1 then emit op e (Lsum E e.2) (Rsum E e.2)
  else emit op e (D E e e.1.1) (fun k => D E e e.1.1 k - S E k (· = e))

theorem wsum_top {E : List Ev} (hG : Good E) {e : HE} (he : Has E e) (hv : e.1.1 = e.2.1) (k : Int) : Wsum E e.2 k = S E k (· = e) := by
  have de : e.1.2 < e.2.2 := by rcases hG.dirE he with h | h <;> omega
  apply S_congr
  intro ev hev
  constructor
  · rintro ⟨⟨h1, h2⟩, h3, h4⟩
    exact vert_eq hG (Has.of hev) he (by omega) hv (by omega) (by omega) (by omega)
  · intro h; rw [h]; exact ⟨⟨hv, rfl⟩, de, le_rfl⟩

theorem NN_empty {op : RF β} {E : List Ev} (hG : Good E) {e : HE} (he : Has E e) (hv : e.1.1 = e.2.1) (h : ∀ k, S E k (· = e) = 0) :
    NN op E e = [] := by
  unfold NN
  rw [if_pos hv]
  have : Rsum E e.2 = Lsum E e.2 := by
    funext k
    rw [← lwr hG, wsum_top hG he hv, h, add_zero]
  rw [this]
  unfold emit; rw [if_pos rfl]

/-- Accumulating the new edges at a point. -/
theorem accum_spec {E : List Ev} (hG : Good E) (op : RF β) (p : Pt) (els : List (HE × PMap))
    (hP : els.Pairwise (fun a b => Lt a.1 b.1))
    (hm : ∀ a ∈ els, Has E a.1 ∧ NV a.1 ∧ a.1.1 = p ∧ Ok a.2 ∧ ∀ k, get a.2 k = S E k (· = a.1))
    (hall : ∀ e, Has E e → NV e → e.1 = p → ∃ a ∈ els, a.1 = e) :
    ∀ (L2 L1 : List (HE × PMap)) (below : PMap), els = L1 ++ L2 → Ok below →
    (∀ k, get below k = S E k (fun f => RSpan p.1 f ∧ (Y f p.1 < p.2 ∨ f ∈ L1.map Prod.fst))) →
    (accum op below L2).1.map Prod.fst = L2.map Prod.fst ∧
    (∀ a ∈ (accum op below L2).1, Ok a.2 ∧ ∀ k, get a.2 k = D E a.1 p.1 k) ∧
    (accum op below L2).2 = (L2.map Prod.fst).flatMap (NN op E)
  | [], L1, below, _, _, _ => by simp [accum]
  | (e, m) :: L2, L1, below, hels, hok, hget => by
    have hmem : (e, m) ∈ els := by rw [hels]; simp
    obtain ⟨he, hn, hep, hmo, hmg⟩ := hm _ hmem
    dsimp only at he hn hep hmo hmg
    have px : e.1.1 = p.1 := by rw [hep]
    have py : e.1.2 = p.2 := by rw [hep]
    have hv : Vertex E p := ⟨e, he, Or.inl hep⟩
    have yl : Y e p.1 = p.2 := by rw [← px, ← py]; exact Y_left hn
    have hspe : RSpan p.1 e := ⟨by omega, by rw [← px]; exact hn⟩
    have hnot : e ∉ L1.map Prod.fst := by
      intro hc
      obtain ⟨a, ha, hae⟩ := List.mem_map.1 hc
      rw [hels] at hP
      have := (List.pairwise_append.1 hP).2.2 a ha (e, m) List.mem_cons_self
      exact lt_ne this hae
    -- the set of edges up to e
    have hset : ∀ f, Has E f → RSpan p.1 f → ((Y f p.1 < p.2 ∨ f ∈ (L1 ++ [(e, m)]).map Prod.fst) ↔ (f = e ∨ Lt f e)) := by
      intro f hf hsp
      have qf1 : (f.1.1 : ℚ) ≤ p.1 := by exact_mod_cast hsp.1
      have qf2 : (p.1 : ℚ) ≤ f.2.1 := by exact_mod_cast hsp.2.le
      have qe1 : (e.1.1 : ℚ) ≤ p.1 := by exact_mod_cast hspe.1
      have qe2 : (p.1 : ℚ) ≤ e.2.1 := by exact_mod_cast hspe.2.le
      by_cases hfe : f = e
      · subst hfe; simp
      have hsep := hG.sep hf he hfe hsp.nv hn
      have hov : f.1.1 < e.2.1 ∧ e.1.1 < f.2.1 := ⟨lt_of_le_of_lt hsp.1 hspe.2, lt_of_le_of_lt hspe.1 hsp.2⟩
      by_cases hy : Y f p.1 = p.2
      · -- starts at the same point
        have hfp : f.1 = p := by
          rcases eq_or_lt_of_le hsp.1 with g | g
          · have := Y_left hsp.nv
            rw [g, hy] at this
            exact Prod.ext g (by exact_mod_cast this.symm)
          · exact (vertex_nv hG hv hf g hsp.2 hy).elim
        obtain ⟨a, ha, hae⟩ := hall f hf hsp.nv hfp
        rw [hy]
        rw [hels] at ha
        constructor
        · rintro (h | h)
          · exact absurd h (by simp)
          · right
            rw [List.map_append] at h
            rcases List.mem_append.1 h with h | h
            · obtain ⟨b, hb, hbf⟩ := List.mem_map.1 h
              rw [hels] at hP
              rw [← hbf]
              exact (List.pairwise_append.1 hP).2.2 b hb (e, m) List.mem_cons_self
            · simp at h; exact absurd h hfe
        · rintro (h | h)
          · exact absurd h hfe
          · right
            rcases List.mem_append.1 ha with ha | ha
            · rw [List.map_append]; exact List.mem_append_left _ (List.mem_map.2 ⟨a, ha, hae⟩)
            · exfalso
              rcases List.mem_cons.1 ha with ha | ha
              · rw [ha] at hae; exact hfe hae.symm
              · rw [hels] at hP
                have := (List.pairwise_cons.1 (List.pairwise_append.1 hP).2.1).1 a ha
                rw [hae] at this
                exact lt_asymm hsep h this
      · have hne : Y f p.1 ≠ Y e p.1 := by rw [yl]; exact hy
        rw [lt_iff hsep hsp.nv hn hov.1 hov.2 qf1 qf2 qe1 qe2 hne, yl]
        constructor
        · rintro (h | h)
          · exact Or.inr h
          · exfalso
            obtain ⟨b, hb, hbf⟩ := List.mem_map.1 h
            have hbe : b ∈ els := by
              rw [hels]
              rcases List.mem_append.1 hb with hb | hb
              · exact List.mem_append_left _ hb
              · simp at hb; rw [hb]; simp
            have := (hm b hbe).2.2.1
            rw [hbf] at this
            apply hy
            have h' := Y_left hsp.nv
            rw [this] at h'
            exact h'
        · rintro (h | h)
          · exact absurd h hfe
          · exact Or.inl h
    have hD : ∀ k, S E k (fun f => RSpan p.1 f ∧ (Y f p.1 < p.2 ∨ f ∈ (L1 ++ [(e, m)]).map Prod.fst)) = D E e p.1 k := by
      intro k
      apply S_congr
      intro ev hev
      exact and_congr_right fun hsp => hset ev.1 (Has.of hev) hsp
    have hadd : ∀ k, S E k (fun f => RSpan p.1 f ∧ (Y f p.1 < p.2 ∨ f ∈ (L1 ++ [(e, m)]).map Prod.fst)) =
        S E k (· = e) + S E k (fun f => RSpan p.1 f ∧ (Y f p.1 < p.2 ∨ f ∈ L1.map Prod.fst)) := by
      intro k
      apply S_add
      · intro ev _
        rw [List.map_append, List.mem_append]
        constructor
        · rintro ⟨h1, h2 | h2 | h2⟩
          · exact Or.inr ⟨h1, Or.inl h2⟩
          · exact Or.inr ⟨h1, Or.inr h2⟩
          · left; simpa using h2
        · rintro (h | ⟨h1, h2⟩)
          · rw [h]; exact ⟨hspe, Or.inr (Or.inr (by simp))⟩
          · exact ⟨h1, by tauto⟩
      · rintro ev _ ⟨h1, h2, h3⟩
        rw [h1] at h3
        rcases h3 with h3 | h3
        · rw [yl] at h3; exact absurd h3 (by simp)
        · exact hnot h3
    have hg' : ∀ k, get (mergeMaps m below) k = D E e p.1 k := by
      intro k
      rw [mergeMaps_get, hmg, hget, ← hadd, hD]
    have hgb : ∀ k, get below k = D E e p.1 k - S E k (· = e) := by
      intro k; rw [← hD, hadd, hget]; ring
    have hok' := mergeMaps_ok hmo hok
    have ih := accum_spec hG op p els hP hm hall L2 (L1 ++ [(e, m)]) (mergeMaps m below) (by rw [hels]; simp) hok' (by
      intro k; rw [hg', hD])
    obtain ⟨i1, i2, i3⟩ := ih
    rw [accum]
    dsimp only
    refine ⟨by simp [i1], ?_, ?_⟩
    · intro a ha
      rcases List.mem_cons.1 ha with rfl | ha
      · exact ⟨hok', hg'⟩
      · exact i2 a ha
    · rw [i3, List.map_cons, List.flatMap_cons]
      congr 1
      rw [writeOut_eq op e hok' hok]
      unfold NN
      rw [if_neg (ne_of_lt hn), px]
      congr 1
      · funext k; exact hg' k
      · funext k; exact hgb k

end Verif.Arb
