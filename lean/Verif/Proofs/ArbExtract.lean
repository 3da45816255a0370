import Verif.Proofs.ArbMerge
import Verif.Proofs.ArbTouch
/-! Connectivity extraction: nodes, cutting, sorting and scanning put together. -/
namespace Verif.ArbMerge
open Verif Verif.Arb Verif.Cut Verif.PolySet Verif.Polygon Verif.Isotropy Verif.Contains Verif.Spec Verif.Spec.Arb

/-- `execute` once cutting gave good events. -/
theorem connect_good {fp : FP} {umin umax : Int} {E : List Ev} (hne : E ≠ []) (hG : Good (cut fp umin E)) :
    ∃ g, connect fp umin umax E = some g ∧ ∀ i j, (i, j) ∈ g ↔ i ≠ j ∧
      RegionsTouch (fun q => depth (layer (cut fp umin E) i) q > 0) (fun q => depth (layer (cut fp umin E) j) q > 0) := by
  have hs := Properties.Arb.C68_sort _ hG.dir
  obtain ⟨P, out, h1, h2⟩ := scan_all hG hs.2.2.2.1 hs.2.2.2.2 calls umin umax
  have hG' : Good (sortEv (cut fp umin E)) := good_perm hs.2.2.2.1.symm hG
  have hdep : ∀ k q, depth (layer (sortEv (cut fp umin E)) k) q = depth (layer (cut fp umin E) k) q := fun k q => depth_perm (layer_perm hs.2.2.2.1 k) q
  refine ⟨graphOf umax out, ?_, fun i j => ?_⟩
  · unfold connect
    rw [if_neg (by rw [List.isEmpty_iff]; exact hne), h1]; rfl
  · rw [graphOf_spec umax (calls_srt h2), linked_iff hG' h2]
    · simp only [hdep]
    · intro c hc
      have := hG'.dirE ((mem_calls h2 c).1 hc).1
      unfold Arb.Directed at this; omega

/-- The set with a number. -/
def at' (i : Int) (ds : List (Bool × Data)) (k : Int) : Option (Bool × Data) := if i ≤ k then ds[(k - i).toNat]? else none

theorem at_cons (i : Int) (d : Bool × Data) (ds : List (Bool × Data)) (k : Int) : at' i (d :: ds) k = if k = i then some d else at' (i + 1) ds k := by
  unfold at'
  by_cases h : k = i
  · subst h; simp
  · rw [if_neg h]
    by_cases c : i ≤ k
    · rw [if_pos c, if_pos (by omega)]
      have : (k - i).toNat = (k - (i + 1)).toNat + 1 := by omega
      rw [this, List.getElem?_cons_succ]
    · rw [if_neg c, if_neg (by omega)]

theorem layer_low {fp : FP} {umin umax : Int} : ∀ (ds : List (Bool × Data)) (i : Int) (E : List Ev), nodes fp umin umax i ds = some E → ∀ k, k < i → layer E k = []
  | [], i, E, h, k, _ => by rw [nodes, Option.some_inj] at h; subst h; rfl
  | d :: ds, i, E, h, k, hk => by
    rw [nodes] at h
    simp only [Option.bind_eq_bind, Option.bind_eq_some_iff, Option.some_inj] at h
    obtain ⟨c, _, E', hE', rfl⟩ := h
    rw [layer_append, layer_tag1, if_neg (by omega), layer_low ds (i + 1) E' hE' k (by omega)]; rfl

theorem tag_fst (k : Int) (D : Data) : (tag k D).map Prod.fst = D.map Prod.fst := by unfold tag; rw [List.map_map]; rfl

/-- The nodes, for any description of what cleaning gives. -/
theorem nodes_spec {fp : FP} {umin umax : Int} (Q : Data → Data → Prop) : ∀ (ds : List (Bool × Data)) (i : Int),
    (∀ d ∈ ds, ∃ c, nodeData fp umin umax d = some c ∧ Q d.2 c) → ∃ E, nodes fp umin umax i ds = some E ∧
      (∀ k, match at' i ds k with | some d => nodeData fp umin umax d = some (layer E k) ∧ Q d.2 (layer E k) | none => layer E k = []) ∧
      ∀ e ∈ E.map Prod.fst, ∃ d ∈ ds, ∃ c, nodeData fp umin umax d = some c ∧ Q d.2 c ∧ e ∈ c.map Prod.fst
  | [], i, _ => ⟨[], rfl, fun k => by have : at' i [] k = none := by unfold at'; simp
                                      rw [this]; rfl, by simp⟩
  | d :: ds, i, h => by
    obtain ⟨c, c1, c2⟩ := h d (by simp)
    obtain ⟨E, e1, e2, e3⟩ := nodes_spec Q ds (i + 1) (fun d hd => h d (List.mem_cons_of_mem _ hd))
    refine ⟨tag i c ++ E, by rw [nodes, c1, e1]; rfl, fun k => ?_, fun e he => ?_⟩
    · rw [at_cons, layer_append, layer_tag1]
      by_cases hk : k = i
      · subst hk
        rw [if_pos rfl, if_pos rfl, layer_low ds (k + 1) E e1 k (by omega), List.append_nil]
        exact ⟨c1, c2⟩
      · rw [if_neg hk, if_neg (Ne.symm hk), List.nil_append]
        exact e2 k
    · rw [List.map_append, List.mem_append, tag_fst] at he
      rcases he with he | he
      · exact ⟨d, by simp, c, c1, c2, he⟩
      · obtain ⟨d', hd', g⟩ := e3 e he
        exact ⟨d', List.mem_cons_of_mem _ hd', g⟩

/-- The region of the set with a number; empty if there is none. -/
def region (ds : List (Bool × Data)) (k : Int) (q : ℚ × ℚ) : Prop := ∃ d, at' 0 ds k = some d ∧ depth d.2 q > 0

/-- Extraction when cutting is exact. -/
theorem extract_exact {fp : FP} {umin : Int} (umax : Int) {P : List HE → Prop} (hK : Kind fp umin P) {ds : List (Bool × Data)}
    (hP : P ((ds.flatMap Prod.snd).map Prod.fst)) (hC : ∀ d ∈ ds, Closed d.2) (hne : ∃ d ∈ ds, ∃ q, depth d.2 q > 0) :
    ∃ g, extract fp umin umax ds = some g ∧ ∀ i j, (i, j) ∈ g ↔ i ≠ j ∧ RegionsTouch (region ds i) (region ds j) := by
  have hdir := hK.dir _ hP
  have hW : ∀ d ∈ ds, ∀ e ∈ d.2, e.1 ∈ (ds.flatMap Prod.snd).map Prod.fst := fun d hd e he =>
    List.mem_map.2 ⟨e, List.mem_flatMap.2 ⟨d, hd, he⟩, rfl⟩
  obtain ⟨E, e1, e2, e3⟩ := nodes_spec (fp := fp) (umin := umin) (umax := umax)
    (fun D c => Closed c ∧ (∀ q, depth c q > 0 ↔ depth D q > 0) ∧ ∀ e ∈ c, PartOf ((ds.flatMap Prod.snd).map Prod.fst) e.1) ds 0 (by
    intro d hd
    unfold nodeData
    by_cases hb : d.1 = true
    · rw [if_pos hb]
      have hall : ∀ e ∈ (d.2 ++ ([] : Data)).map Prod.fst, PartOf ((ds.flatMap Prod.snd).map Prod.fst) e := by
        rw [List.append_nil]
        intro e he
        obtain ⟨a, ha, rfl⟩ := List.mem_map.1 he
        exact part_refl hdir (hW d hd a ha)
      obtain ⟨out, o1, o2, o3, _, _, o6, _⟩ := execute_exact umax 0 (hK.exact _ (hK.part _ _ hP hall)) (hC d hd) (fun v => rfl)
      refine ⟨out, o1, o6, fun q => ?_, fun e he => part_trans hdir hall (o3 e he).1⟩
      rw [o2 q]
      have e0 : ¬ depth [] q > 0 := by unfold Spec.Arb.depth; simp
      by_cases c : depth d.2 q > 0
      · rw [if_pos (show inResult 0 _ _ from Or.inl c)]; simp [c]
      · rw [if_neg]
        · simp [c]
        · rintro (g | g)
          exacts [c g, e0 g]
    · rw [if_neg hb]
      exact ⟨d.2, rfl, hC d hd, fun q => Iff.rfl, fun e he => part_refl hdir (hW d hd e he)⟩)
  have hpart : ∀ e ∈ E.map Prod.fst, PartOf ((ds.flatMap Prod.snd).map Prod.fst) e := by
    intro e he
    obtain ⟨d, _, c, _, ⟨_, _, h3⟩, h4⟩ := e3 e he
    obtain ⟨a, ha, rfl⟩ := List.mem_map.1 h4
    exact h3 a ha
  have hex := hK.exact _ (hK.part _ _ hP hpart)
  have hCl : ∀ k, Closed (layer E k) := by
    intro k
    have := e2 k
    split at this
    · exact this.2.1
    · rw [this]; intro v; rfl
  have hreg : ∀ k q, depth (layer E k) q > 0 ↔ region ds k q := by
    intro k q
    have := e2 k
    unfold region
    split at this
    · rename_i d hd
      rw [hd, this.2.2.1 q]; simp
    · rename_i hd
      rw [hd, this]
      simp [Spec.Arb.depth]
  obtain ⟨hG, hdep⟩ := cut_exact hex hCl
  have hne' : E ≠ [] := by
    rintro rfl
    obtain ⟨d, hd, q, hq⟩ := hne
    obtain ⟨n, hn⟩ := List.mem_iff_getElem?.1 hd
    have : region ds n q := ⟨d, by unfold at'; rw [if_pos (by omega)]; simpa using hn, hq⟩
    rw [← hreg] at this
    simp [layer, Spec.Arb.depth] at this
  obtain ⟨g, g1, g2⟩ := connect_good (umax := umax) hne' hG
  refine ⟨g, by unfold extract; rw [e1]; exact g1, fun i j => ?_⟩
  rw [g2 i j]
  simp only [hdep, hreg]

/-- The square of side 2 above and to the right of a point meets no edge. -/
def Clear2 (E : List Edge) (q : ℚ × ℚ) : Prop :=
  ∀ e ∈ E, ∀ z, OnEdge e z → ¬ (q.1 ≤ z.1 ∧ z.1 < q.1 + 2 ∧ q.2 ≤ z.2 ∧ z.2 < q.2 + 2)

theorem hot_low {E : List Edge} {umin : Int} (hu : ∀ a ∈ E, umin ≤ min a.1.2 a.2.2) {p : Pt} (h : Hot E p) : umin ≤ p.2 := by
  rcases h with ⟨a, ha, g⟩ | ⟨a, ha, b, hb, _, q, hq, _, rfl⟩
  · have := hu a ha
    rcases g with rfl | rfl <;> omega
  · unfold corner
    rw [Int.le_floor]
    obtain ⟨t, t0, t1, _, t3⟩ := hq
    have h1 : (umin : ℚ) ≤ a.1.2 := by exact_mod_cast (le_min_iff.1 (hu a ha)).1
    have h2 : (umin : ℚ) ≤ a.2.2 := by exact_mod_cast (le_min_iff.1 (hu a ha)).2
    rw [t3]
    nlinarith

/-- Extraction with exact arithmetic. -/
theorem extract_snap {fp : FP} (hfp : fp.Floor) {umin : Int} (umax : Int) {ds : List (Bool × Data)}
    (hd : ∀ d ∈ ds, ∀ e ∈ d.2, Directed e.1 ∧ umin ≤ min e.1.1.2 e.1.2.2) (hC : ∀ d ∈ ds, Closed d.2)
    (hne : ∃ d ∈ ds, ∃ q, depth d.2 q > 0 ∧ Clear2 (d.2.map Prod.fst) q) :
    ∃ g, extract fp umin umax ds = some g ∧ ∃ R : Int → ℚ × ℚ → Prop, (∀ i j, (i, j) ∈ g ↔ i ≠ j ∧ RegionsTouch (R i) (R j)) ∧
      (∀ k d, at' 0 ds k = some d → ∀ q, Clear2 (d.2.map Prod.fst) q → (R k q ↔ depth d.2 q > 0)) ∧
      ∀ k, at' 0 ds k = none → ∀ q, ¬ R k q := by
  obtain ⟨E, e1, e2, e3⟩ := nodes_spec (fp := fp) (umin := umin) (umax := umax)
    (fun D c => Closed c ∧ (∀ q, Clear (D.map Prod.fst) q → (depth c q > 0 ↔ depth D q > 0)) ∧ (∀ e ∈ c, Directed e.1 ∧ umin ≤ min e.1.1.2 e.1.2.2) ∧
      ∀ q, Clear2 (D.map Prod.fst) q → Clear (c.map Prod.fst) q) ds 0 (by
    intro d hdd
    unfold nodeData
    by_cases hb : d.1 = true
    · rw [if_pos hb]
      obtain ⟨out, o1, o2, o3, _, _, o6, _⟩ := execute_snap hfp (umin := umin) umax 0 (A := d.2) (B := []) (by rw [List.append_nil]; exact fun e he => (hd d hdd e he).1)
        (by rw [List.append_nil]; exact fun e he => (hd d hdd e he).2) (hC d hdd) (fun v => rfl)
      rw [List.append_nil] at o2 o3
      refine ⟨out, o1, o6, fun q hq => ?_, fun e he => ⟨(o3 e he).1, ?_⟩, fun q hq a ha z hz hc => ?_⟩
      · rw [o2 q hq]
        have e0 : ¬ depth [] q > 0 := by unfold Spec.Arb.depth; simp
        by_cases c : depth d.2 q > 0
        · rw [if_pos (show inResult 0 _ _ from Or.inl c)]; simp [c]
        · rw [if_neg]
          · simp [c]
          · rintro (g | g)
            exacts [c g, e0 g]
      · obtain ⟨_, h1, h2, _⟩ := o3 e he
        have uu : ∀ a ∈ d.2.map Prod.fst, umin ≤ min a.1.2 a.2.2 := fun a ha => by obtain ⟨b, hb, rfl⟩ := List.mem_map.1 ha; exact (hd d hdd b hb).2
        exact le_min (hot_low uu h1) (hot_low uu h2)
      · obtain ⟨b, hb, rfl⟩ := List.mem_map.1 ha
        obtain ⟨_, _, _, ⟨e, he, hn⟩, _⟩ := o3 b hb
        obtain ⟨w, w1, w2, w3, w4, w5⟩ := hn z hz
        obtain ⟨c1, c2, c3, c4⟩ := hc
        exact hq e.1 (List.mem_map.2 ⟨e, he, rfl⟩) w w1 ⟨by linarith, by linarith, by linarith, by linarith⟩
    · rw [if_neg hb]
      refine ⟨d.2, rfl, hC d hdd, fun q _ => Iff.rfl, hd d hdd, fun q hq a ha z hz hc => ?_⟩
      obtain ⟨c1, c2, c3, c4⟩ := hc
      exact hq a ha z hz ⟨by linarith, by linarith, by linarith, by linarith⟩)
  have hEd : ∀ e ∈ E, Directed e.1 ∧ umin ≤ min e.1.1.2 e.1.2.2 := by
    intro e he
    obtain ⟨d, _, c, _, ⟨_, _, h3, _⟩, h4⟩ := e3 e.1 (List.mem_map.2 ⟨e, he, rfl⟩)
    obtain ⟨a, ha, hae⟩ := List.mem_map.1 h4
    rw [← hae]; exact h3 a ha
  have hCl : ∀ k, Closed (layer E k) := by
    intro k
    have := e2 k
    split at this
    · exact this.2.1
    · rw [this]; intro v; rfl
  have c21 : ∀ (L : List Edge) q, Clear2 L q → Clear L q := fun L q h a ha z hz hc => h a ha z hz ⟨hc.1, by linarith [hc.2.1], hc.2.2.1, by linarith [hc.2.2.2]⟩
  obtain ⟨hG, hdep⟩ := cut_near hfp (fun e he => (hEd e he).1) (fun e he => (hEd e he).2) hCl
  have hreg : ∀ k d, at' 0 ds k = some d → ∀ q, Clear2 (d.2.map Prod.fst) q → (depth (layer E k) q > 0 ↔ depth d.2 q > 0) ∧ Clear ((layer E k).map Prod.fst) q := by
    intro k d hk q hq
    have := e2 k
    rw [hk] at this
    exact ⟨this.2.2.1 q (c21 _ _ hq), this.2.2.2.2 q hq⟩
  have hne' : E ≠ [] := by
    rintro rfl
    obtain ⟨d, hdd, q, hq, hcl⟩ := hne
    obtain ⟨n, hn⟩ := List.mem_iff_getElem?.1 hdd
    have := (hreg n d (by unfold at'; rw [if_pos (by omega)]; simpa using hn) q hcl).1.2 hq
    simp [layer, Spec.Arb.depth] at this
  obtain ⟨g, g1, g2⟩ := connect_good (umax := umax) hne' hG
  refine ⟨g, by unfold extract; rw [e1]; exact g1, fun k q => depth (layer (cut fp umin E) k) q > 0, g2, fun k d hk q hq => ?_, fun k hk q => ?_⟩
  · obtain ⟨h1, h2⟩ := hreg k d hk q hq
    show depth (layer (cut fp umin E) k) q > 0 ↔ _
    rw [hdep q k h2, h1]
  · have h0 : layer E k = [] := by have := e2 k; rw [hk] at this; exact this
    show ¬ depth (layer (cut fp umin E) k) q > 0
    rw [hdep q k (by rw [h0]; intro a ha; simp at ha), h0]
    simp [Spec.Arb.depth]

end Verif.ArbMerge
