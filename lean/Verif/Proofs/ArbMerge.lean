import Verif.Proofs.ArbInsert
import Verif.Properties.Cut
/-! `property_merge`: cutting, sorting and scanning put together. -/
namespace Verif.ArbMerge
open Verif Verif.Arb Verif.Cut Verif.PolySet Verif.Polygon Verif.Isotropy Verif.Contains Verif.Spec Verif.Spec.Arb
open Verif.Properties.Cut (Obj build total outlines build_spec)

/-- What cutting gives when it is exact. -/
theorem cut_exact {fp : FP} {umin : Int} {E : List Ev} (hex : Exact fp umin (E.map Prod.fst)) (hC : ∀ k, Closed (layer E k)) :
    Good (cut fp umin E) ∧ ∀ k q, depth (layer (cut fp umin E) k) q = depth (layer E k) q := by
  refine ⟨⟨fun e he => (cut_part hex he).1.1, exact_planar hex, fun k v => ?_⟩, fun k q => cutGo_depth _ q E 0 (fun j ev hj => exact_ok hex hj) k⟩
  have := cutGo_flow (divide fp umin (number 0 E)) E 0 (fun j ev hj => (exact_ok hex hj).2.1) k v
  exact this.trans (hC k v)

theorem mem_layer_fst {E : List Ev} {ev : Ev} {k : Int} (h : ev ∈ E) (hk : ev.2.1 = k) : ev.1 ∈ (layer E k).map Prod.fst :=
  List.mem_map.2 ⟨(ev.1, ev.2.2), List.mem_map.2 ⟨ev, List.mem_filter.2 ⟨h, by simp [hk]⟩, rfl⟩, rfl⟩

theorem layer_fst_mem {E : List Ev} {k : Int} {e : Edge} (h : e ∈ (layer E k).map Prod.fst) : ∃ ev ∈ E, ev.2.1 = k ∧ ev.1 = e := by
  obtain ⟨a, ha, rfl⟩ := List.mem_map.1 h
  obtain ⟨ev, hev, rfl⟩ := List.mem_map.1 ha
  obtain ⟨h1, h2⟩ := List.mem_filter.1 hev
  exact ⟨ev, h1, by simpa using h2, rfl⟩

/-- What cutting gives with exact arithmetic. -/
theorem cut_near {fp : FP} (hfp : fp.Floor) {umin : Int} {E : List Ev} (hd : ∀ e ∈ E, Directed e.1) (hu : ∀ e ∈ E, umin ≤ min e.1.1.2 e.1.2.2)
    (hC : ∀ k, Closed (layer E k)) :
    Good (cut fp umin E) ∧ ∀ q k, Clear ((layer E k).map Prod.fst) q → depth (layer (cut fp umin E) k) q = depth (layer E k) q := by
  refine ⟨⟨fun e he => (snap_finish hfp hd hu he).1, snap_planar hfp hd hu, fun k v => ?_⟩, fun q k hq => ?_⟩
  · have := cutGo_flow (divide fp umin (number 0 E)) E 0 (fun j ev hj => snap_ok hfp hd hu hj) k v
    exact this.trans (hC k v)
  · exact near_layer _ q k E 0 (fun j ev hj => ⟨hd ev (List.mem_of_getElem? hj), snap_ok hfp hd hu hj, fun p hp => ((cut_snap hfp hd hu hj p).1 hp).2,
      fun hk z hz => hq ev.1 (mem_layer_fst (List.mem_of_getElem? hj) hk) z hz⟩)

open Classical in
/-- What the scan writes under the sets of properties. -/
theorem scan_merge {E : List Ev} (hG : Good E) (umin umax : Int) :
    ∃ out, scan mergeOut umin umax (sortEv E) = some out ∧
      (∀ s : List Int, s ≠ [] → s.Pairwise (· < ·) →
        (∀ q, depth (entry out s) q = if ∀ k, k ∈ s ↔ depth (layer E k) q > 0 then 1 else 0) ∧
        (∀ a ∈ entry out s, Has E a.1 ∧ (a.2 = 1 ∨ a.2 = -1)) ∧ ((entry out s).map Prod.fst).Nodup ∧ Planar ((entry out s).map Prod.fst) ∧
        Closed (entry out s) ∧ (entry out s = [] ↔ ∀ q, ¬ ∀ k, k ∈ s ↔ depth (layer E k) q > 0)) ∧
      ∀ a ∈ out, a.1 ≠ [] ∧ a.1.Pairwise (· < ·) := by
  have hs := Properties.Arb.C68_sort _ hG.dir
  obtain ⟨P, out, h1, h2⟩ := scan_all hG hs.2.2.2.1 hs.2.2.2.2 mergeOut umin umax
  have hG' : Good (sortEv E) := good_perm hs.2.2.2.1.symm hG
  have hm : ∀ e, Has (sortEv E) e → Has E e := fun e he => (hs.2.2.2.1.map _).mem_iff.1 he
  have hdep : ∀ k q, depth (layer (sortEv E) k) q = depth (layer E k) q := fun k q => depth_perm (layer_perm hs.2.2.2.1 k) q
  refine ⟨out, h1, fun s hne hsrt => ?_, fun a ha => ⟨(entry_srt h2 ha).2, (entry_srt h2 ha).1⟩⟩
  have h3 := Done.set hG'.dir h2 hne
  have h4 := depth_out hG' h3
  obtain ⟨h5, h6⟩ := out_edges h3
  have h7 := closed_out hG' h3
  have hd : ∀ q, depth (entry out s) q = if ∀ k, k ∈ s ↔ depth (layer E k) q > 0 then 1 else 0 := by
    intro q
    rw [h4 q]
    show (if pset _ = s then (1 : Int) else 0) = _
    have : pset (fun k => depth (layer (sortEv E) k) q) = s ↔ ∀ k, k ∈ s ↔ depth (layer E k) q > 0 := by
      obtain ⟨a, b⟩ := pset_spec (depth_get (sortEv E) q)
      constructor
      · intro h k; rw [← h, b k, hdep]
      · intro h; exact pset_of hsrt (fun k => by rw [h k, hdep])
    simp only [this]
  have hpl : Planar ((entry out s).map Prod.fst) := by
    intro e he f hf
    obtain ⟨a, ha, rfl⟩ := List.mem_map.1 he
    obtain ⟨b, hb, rfl⟩ := List.mem_map.1 hf
    exact hG'.planar _ (h6 a ha).1 _ (h6 b hb).1
  refine ⟨hd, fun a ha => ⟨hm _ (h6 a ha).1, ?_⟩, h5, hpl, h7, ?_⟩
  · obtain ⟨_, g2, g3⟩ := h6 a ha
    rcases N_unit (setVal s hne) (sortEv E) a.1 with g | g | g
    · exact absurd (g2.trans g) g3
    · exact Or.inl (g2.trans g)
    · exact Or.inr (g2.trans g)
  · constructor
    · intro h q hq
      have := hd q
      rw [if_pos hq, h] at this
      simp [Spec.Arb.depth] at this
    · intro h
      refine depth_zero_nil (fun a ha => ?_) hpl h7 h5 (fun a ha => (h6 a ha).2.2) (fun q => by rw [hd q, if_neg (h q)])
      obtain ⟨ev, hev, h8⟩ := List.mem_map.1 (h6 a ha).1
      rw [← h8]; exact hG'.dir ev hev

/-! ### Histories -/

/-- Insertion of objects with properties one after the other. -/
def pm (ops : List (Int × Obj)) : List Ev := ops.foldl (fun E o => insertH o.1 E o.2.1.1 o.2.1.2 o.2.2) []

/-- The objects with a property. -/
def having (ops : List (Int × Obj)) (k : Int) : List Obj := (ops.filter (fun o => o.1 == k)).map Prod.snd

theorem build_append (A B : List Obj) : build (A ++ B) = build A ++ build B := by
  have key : ∀ (B : List Obj) (D : Data), B.foldl (fun D o => insertHoles D o.1.1 o.1.2 o.2) D = D ++ B.foldl (fun D o => insertHoles D o.1.1 o.1.2 o.2) [] := by
    intro B
    induction B with
    | nil => simp
    | cons o B ih =>
      intro D
      rw [List.foldl_cons, ih, insertHoles_app, List.foldl_cons, ih (insertHoles [] _ _ _), List.append_assoc]
  unfold build
  rw [List.foldl_append, key]

theorem build_cons (o : Obj) (B : List Obj) : build (o :: B) = build [o] ++ build B := build_append [o] B

theorem build_one (o : Obj) : build [o] = insertHoles [] o.1.1 o.1.2 o.2 := rfl

theorem pm_perm (ops : List (Int × Obj)) : ((pm ops).map nrmEv).Perm (ops.flatMap (fun o => tag o.1 (build [o.2]))) := by
  have key : ∀ (ops : List (Int × Obj)) (E : List Ev), ((ops.foldl (fun E o => insertH o.1 E o.2.1.1 o.2.1.2 o.2.2) E).map nrmEv).Perm
      (E.map nrmEv ++ ops.flatMap (fun o => tag o.1 (build [o.2]))) := by
    intro ops
    induction ops with
    | nil => intro E; simp
    | cons o ops ih =>
      intro E
      rw [List.foldl_cons, List.flatMap_cons]
      refine (ih _).trans ?_
      obtain ⟨N, h1, h2⟩ := insertH_eq o.1 E o.2.1.1 o.2.1.2 o.2.2
      rw [h1, List.map_append, List.append_assoc]
      exact List.Perm.append_left _ (h2.append_right _)
  exact key ops []

theorem layer_append (A B : List Ev) (k : Int) : layer (A ++ B) k = layer A k ++ layer B k := by
  unfold layer; rw [List.filter_append, List.map_append]

theorem layer_tag1 (k j : Int) (D : Data) : layer (tag k D) j = if k = j then D else [] := by
  unfold layer tag
  induction D with
  | nil => simp
  | cons a D ih =>
    rw [List.map_cons]
    by_cases h : k = j
    · rw [if_pos h] at ih ⊢
      rw [List.filter_cons_of_pos (by simp [h]), List.map_cons, ih]
    · rw [if_neg h] at ih ⊢
      rw [List.filter_cons_of_neg (by simp [h]), ih]

theorem layer_ops (ops : List (Int × Obj)) (k : Int) : layer (ops.flatMap (fun o => tag o.1 (build [o.2]))) k = build (having ops k) := by
  induction ops with
  | nil => rfl
  | cons o ops ih =>
    rw [List.flatMap_cons, layer_append, ih, layer_tag1]
    unfold having
    by_cases h : o.1 = k
    · rw [if_pos h, List.filter_cons_of_pos (by simp [h]), List.map_cons]; exact (build_cons _ _).symm
    · rw [if_neg h, List.filter_cons_of_neg (by simp [h])]; rfl

theorem edges_ops (ops : List (Int × Obj)) : (ops.flatMap (fun o => tag o.1 (build [o.2]))).map Prod.fst = (build (ops.map Prod.snd)).map Prod.fst := by
  induction ops with
  | nil => rfl
  | cons o ops ih =>
    rw [List.flatMap_cons, List.map_append, ih, List.map_cons, build_cons o.2 (ops.map Prod.snd), List.map_append]
    congr 1
    unfold tag
    rw [List.map_map]; rfl

/-- What is known about the events of a history. -/
theorem pm_spec (ops : List (Int × Obj)) : (∀ k q, depth (layer ((pm ops).map nrmEv) k) q = total (having ops k) q) ∧
    (∀ k, Closed (layer ((pm ops).map nrmEv) k)) ∧ (∀ e, e ∈ ((pm ops).map nrmEv).map Prod.fst ↔ e ∈ (build (ops.map Prod.snd)).map Prod.fst) := by
  have hp := pm_perm ops
  have hl : ∀ k, (layer ((pm ops).map nrmEv) k).Perm (build (having ops k)) := fun k => by rw [← layer_ops]; exact layer_perm hp k
  refine ⟨fun k q => by rw [depth_perm (hl k)]; exact (build_spec _).1 q, fun k v => ?_, fun e => ?_⟩
  · rw [((hl k).map _).sum_eq]; exact (build_spec _).2.1 v
  · rw [(hp.map _).mem_iff, edges_ops]

theorem pm_mem (ops : List (Int × Obj)) {a : Edge} (h : a ∈ ((pm ops).map nrmEv).map Prod.fst) :
    Directed a ∧ ∃ P ∈ outlines (ops.map Prod.snd), a ∈ edges P ∨ a.swap ∈ edges P := by
  rw [(pm_spec ops).2.2] at h
  obtain ⟨e, he, rfl⟩ := List.mem_map.1 h
  exact ⟨(build_spec _).2.2.1 e he, (build_spec _).2.2.2 e he⟩

theorem pm_low (ops : List (Int × Obj)) {umin : Int} (hu : ∀ P ∈ outlines (ops.map Prod.snd), ∀ p ∈ P, umin ≤ p.2) {a : Edge}
    (h : a ∈ ((pm ops).map nrmEv).map Prod.fst) : umin ≤ min a.1.2 a.2.2 := by
  rw [(pm_spec ops).2.2] at h
  obtain ⟨e, he, rfl⟩ := List.mem_map.1 h
  exact Properties.Cut.build_low hu e he

/-- `merge` is the scan of the cut events in the usual direction. -/
theorem merge_eq (fp : FP) (umin umax : Int) (E : List Ev) :
    merge fp umin umax E = scan mergeOut umin umax (sortEv (cut fp umin (E.map nrmEv))) := by
  rw [cut_nrm]
  unfold merge
  cases E with
  | nil => rfl
  | cons a E => rfl

end Verif.ArbMerge
