import Verif.Proofs.ArbOrder
import Verif.Model.ArbMerge
/-! What the functors of `property_merge` and of connectivity extraction are called with. -/
namespace Verif.ArbMerge
open Verif Verif.Arb Verif.Spec Verif.Spec.Arb

/-- The values on the left of an edge. -/
noncomputable def lv (E : List Ev) (e : HE) : Int → Int := if e.1.1 = e.2.1 then Lsum E e.2 else D E e e.1.1

/-- The values on the right of an edge. -/
noncomputable def rv (E : List Ev) (e : HE) : Int → Int :=
  if e.1.1 = e.2.1 then Rsum E e.2 else fun k => D E e e.1.1 k - S E k (· = e)

theorem NN_eq {β : Type} (op : RF β) (E : List Ev) (e : HE) : NN op E e = emit op e (lv E e) (rv E e) := by
  unfold NN lv rv; split_ifs <;> rfl

theorem NNV_eq (op : Val) (E : List Ev) (e : HE) : NNV op E e = emitV op e (lv E e) (rv E e) := by
  rw [NNV_emit]; unfold lv rv; split_ifs <;> rfl

theorem N_ne {op : Val} {E : List Ev} {e : HE} : N op E e ≠ 0 ↔ val op (lv E e) ≠ val op (rv E e) := by
  unfold N lv rv; split_ifs <;> omega

theorem S_get (E : List Ev) (C : HE → Prop) : ∃ m, Ok m ∧ (fun k => S E k C) = get m := by
  classical
  induction E with
  | nil => exact ⟨[], ok_nil, by funext k; rw [S_nil, get_nil]⟩
  | cons ev E ih =>
    obtain ⟨m, h1, h2⟩ := ih
    have h2' : ∀ k, S E k C = get m k := fun k => congrFun h2 k
    by_cases c : C ev.1
    · refine ⟨updateMap m ev.2, updateMap_ok h1, ?_⟩
      funext k
      rw [updateMap_get, ← h2', show ev :: E = [ev] ++ E from rfl, S_append, S_single _ _ _ c]; ring
    · refine ⟨m, h1, ?_⟩
      funext k
      rw [← h2', show ev :: E = [ev] ++ E from rfl, S_append, S_single_not _ _ _ c]; ring

theorem neg_get {m : PMap} (h : Ok m) : ∃ m', Ok m' ∧ (fun k => - get m k) = get m' := by
  refine ⟨m.map (fun a => (a.1, -a.2)), ⟨?_⟩, ?_⟩
  · rw [List.pairwise_map]; exact h.srt
  · funext k
    clear h
    induction m with
    | nil => rfl
    | cons a m ih => rw [List.map_cons, get_cons, get_cons, ← ih]; dsimp only; split_ifs <;> ring

theorem lv_get (E : List Ev) (e : HE) : ∃ m, Ok m ∧ lv E e = get m := by
  unfold lv
  split_ifs
  · exact S_get E _
  · exact S_get E _

theorem rv_get (E : List Ev) (e : HE) : ∃ m, Ok m ∧ rv E e = get m := by
  unfold rv
  split_ifs
  · exact S_get E _
  · obtain ⟨m, h1, h2⟩ := S_get E (fun f => RSpan e.1.1 f ∧ (f = e ∨ Lt f e))
    obtain ⟨m', h1', h2'⟩ := S_get E (· = e)
    obtain ⟨m'', h1'', h2''⟩ := neg_get h1'
    refine ⟨mergeMaps m m'', mergeMaps_ok h1 h1'', ?_⟩
    funext k
    rw [mergeMaps_get, ← h2'', ← h2, ← h2']; rfl

theorem depth_get (E : List Ev) (q : ℚ × ℚ) : ∃ m, Ok m ∧ (fun k => depth (layer E k) q) = get m := by
  obtain ⟨m, h1, h2⟩ := S_get E (fun e => RSpan ⌊q.1⌋ e ∧ Y e q.1 ≤ q.2)
  refine ⟨m, h1, ?_⟩
  rw [← h2]; funext k; rw [depth_layer]

/-- The properties on the two sides of an edge. -/
noncomputable def ls (E : List Ev) (e : HE) : List Int := pset (lv E e)
noncomputable def rs (E : List Ev) (e : HE) : List Int := pset (rv E e)

theorem mem_ls {E : List Ev} {e : HE} {k : Int} : k ∈ ls E e ↔ lv E e k > 0 := (pset_spec (lv_get E e)).2 k
theorem mem_rs {E : List Ev} {e : HE} {k : Int} : k ∈ rs E e ↔ rv E e k > 0 := (pset_spec (rv_get E e)).2 k
theorem ls_srt (E : List Ev) (e : HE) : (ls E e).Pairwise (· < ·) := (pset_spec (lv_get E e)).1
theorem rs_srt (E : List Ev) (e : HE) : (rs E e).Pairwise (· < ·) := (pset_spec (rv_get E e)).1

/-- The calls. -/
theorem mem_calls {E : List Ev} {P : List HE} {out : List Call} (h : Done E calls (fun _ => True) P out) (c : Call) :
    c ∈ out ↔ Has E c.1 ∧ ls E c.1 ≠ rs E c.1 ∧ c.2 = (ls E c.1, rs E c.1) := by
  have hN : ∀ e, NN calls E e = if ls E e = rs E e then [] else [(e, (ls E e, rs E e))] := fun e => by rw [NN_eq]; rfl
  rw [h.outEq, List.mem_flatMap]
  constructor
  · rintro ⟨e, he, hc⟩
    rw [hN] at hc
    split_ifs at hc with g
    · simp at hc
    · rw [List.mem_singleton] at hc; subst hc
      exact ⟨(h.mem e he).1, g, rfl⟩
  · rintro ⟨h1, h2, h3⟩
    refine ⟨c.1, ?_, ?_⟩
    · rcases h.all c.1 h1 trivial with g | g
      · exact g
      · rw [hN, if_neg h2] at g; simp at g
    · rw [hN, if_neg h2, List.mem_singleton, ← h3]

theorem calls_srt {E : List Ev} {P : List HE} {out : List Call} (h : Done E calls (fun _ => True) P out) :
    out.Pairwise (fun a b => a.1.1.1 ≤ b.1.1.1) := by
  have hN : ∀ e, ∀ c ∈ NN calls E e, c.1 = e := by
    intro e c hc
    rw [NN_eq] at hc; unfold emit calls at hc
    split_ifs at hc with g
    · simp at hc
    · rw [List.mem_singleton] at hc; rw [hc]
  rw [h.outEq, List.pairwise_flatMap]
  refine ⟨fun e _ => ?_, h.srt.imp fun {a b} hab x hx y hy => by rw [hN a x hx, hN b y hy]; exact hab⟩
  exact List.pairwise_of_forall_mem_list fun a ha b hb => by rw [hN e a ha, hN e b hb]

/-- There is a list of what would be written for any value. -/
theorem doneV_exists (E : List Ev) (op : Val) : ∃ P out, DoneV E op P out :=
  ⟨(E.map Prod.fst).dedup, _, rfl, List.nodup_dedup _, fun e he => List.mem_dedup.1 he, fun e he => Or.inl (List.mem_dedup.2 he)⟩

theorem emit_merge {e : HE} (hd : Directed e) (l r : Int → Int) {s : List Int} (hs : s ≠ []) :
    entry (emit mergeOut e l r) s = emitV (setVal s hs) e l r := by
  have v : ∀ f, val (setVal s hs) f = if pset f = s then 1 else 0 := fun f => rfl
  unfold emit emitV
  rw [v, v]
  by_cases hp : pset l = pset r
  · rw [if_pos hp, hp, if_pos rfl]; rfl
  · rw [if_neg hp]
    unfold mergeOut entry
    rw [directed_lessPoint hd]
    have hv : isVertical e = decide (e.1.1 = e.2.1) := by
      unfold isVertical; rw [Bool.eq_iff_iff]; simp
    rw [hv]
    by_cases h1 : pset l = s <;> by_cases h2 : pset r = s
    · exact absurd (h1.trans h2.symm) hp
    · by_cases hv : e.1.1 = e.2.1 <;> by_cases h3 : pset r = [] <;> simp [h1, h2, h3, hs, hv]
    · by_cases hv : e.1.1 = e.2.1 <;> by_cases h3 : pset l = [] <;> simp [h1, h2, h3, hs, hv]
    · by_cases h3 : pset r = [] <;> by_cases h4 : pset l = [] <;> simp [h1, h2, h3, h4, hs, Ne.symm hs]

theorem entry_flatMap {α : Type} (P : List α) (f : α → List (List Int × (HE × Int))) (s : List Int) :
    entry (P.flatMap f) s = P.flatMap (fun e => entry (f e) s) := by
  induction P with
  | nil => rfl
  | cons a P ih =>
    rw [List.flatMap_cons, List.flatMap_cons, ← ih]
    unfold entry
    rw [List.filter_append, List.map_append]

/-- `merge_output_functor` writes under every set of properties the edges of the region with that set. -/
theorem Done.set {E : List Ev} (hd : ∀ e ∈ E, Directed e.1) {P : List HE} {out : List (List Int × (HE × Int))}
    (h : Done E mergeOut (fun _ => True) P out) {s : List Int} (hs : s ≠ []) : DoneV E (setVal s hs) P (entry out s) := by
  have key : ∀ e, Has E e → entry (NN mergeOut E e) s = NNV (setVal s hs) E e := by
    intro e he
    have hde : Directed e := by obtain ⟨ev, hev, rfl⟩ := List.mem_map.1 he; exact hd ev hev
    rw [NNV_eq, NN_eq, emit_merge hde]
  refine ⟨?_, h.nd, fun e he => (h.mem e he).1, fun e he => ?_⟩
  · rw [h.outEq, entry_flatMap]
    apply List.flatMap_congr
    intro e he
    exact key e (h.mem e he).1
  · rcases h.all e he trivial with g | g
    · exact Or.inl g
    · right; rw [← key e he, g]; rfl

/-- Nothing is written under the empty set. -/
theorem entry_nil {E : List Ev} {P : List HE} {out : List (List Int × (HE × Int))} (h : Done E mergeOut (fun _ => True) P out) : entry out [] = [] := by
  rw [h.outEq, entry_flatMap]
  rw [List.flatMap_eq_nil_iff]
  intro e _
  rw [NN_eq]
  unfold emit mergeOut entry
  split_ifs <;> simp_all

/-- Only sets in increasing order occur. -/
theorem entry_srt {E : List Ev} {P : List HE} {out : List (List Int × (HE × Int))} (h : Done E mergeOut (fun _ => True) P out) {a : List Int × (HE × Int)}
    (ha : a ∈ out) : a.1.Pairwise (· < ·) ∧ a.1 ≠ [] := by
  rw [h.outEq, List.mem_flatMap] at ha
  obtain ⟨e, _, ha⟩ := ha
  have k1 := ls_srt E e
  have k2 := rs_srt E e
  unfold ls at k1; unfold rs at k2
  rw [NN_eq] at ha
  unfold emit mergeOut at ha
  split_ifs at ha <;> simp_all
  all_goals (rcases ha with rfl | rfl <;> simp_all)

end Verif.ArbMerge
