import Verif.Proofs.ArbCol
/-! The loop over the events of one column. -/
namespace Verif.Arb
open Verif.Contains (lessPoint lessPoint_iff)
open Verif.Spec Verif.Spec.Arb

variable {β : Type}

/-- The events in order. -/
def Sorted (E : List Ev) : Prop := E.Pairwise (fun a b => Before a.1 b.1)

/-- What has been written before the stop at height `y` (with `st`: strictly below). -/
structure Wrote (E : List Ev) (op : RF β) (x : Int) (low : Int → Prop) (P : List HE) (ins : List (HE × PMap)) (out : List β) : Prop where
  insm : ∀ a ∈ ins, Has E a.1 ∧ a.1.1.1 = x ∧ NV a.1 ∧ low a.1.1.2 ∧ Ok a.2 ∧ ∀ k, get a.2 k = D E a.1 x k
  insall : ∀ e, Has E e → NV e → e.1.1 = x → low e.1.2 → ∃ a ∈ ins, a.1 = e
  insnd : (ins.map Prod.fst).Nodup
  outEq : out = P.flatMap (NN op E)
  nd : P.Nodup
  mem : ∀ e ∈ P, Has E e ∧ e.1.1 = x ∧ ((NV e ∧ low e.1.2) ∨ (e.1.1 = e.2.1 ∧ low e.2.2))
  all : ∀ e, Has E e → e.1.1 = x → ((NV e ∧ low e.1.2) ∨ (e.1.1 = e.2.1 ∧ low e.2.2)) → e ∈ P ∨ NN op E e = []

/-- At the top of the loop, some of the events at `(x, s.y)` have been read. -/
structure HInv (E : List Ev) (op : RF β) (x : Int) (sd : SD) (pre : List Ev) (P : List HE) (s : HS β) : Prop where
  split : E = pre ++ s.evs
  first : s.first = false
  vert : Vertex E (x, s.y)
  done : ∀ ev ∈ pre, plt ev.1.1 (x, s.y) ∨ ev.1.1 = (x, s.y)
  todo : ∀ ev ∈ s.evs, (x, s.y) = ev.1.1 ∨ plt (x, s.y) ev.1.1
  cur : ∀ i a, i < s.cur → sd[i]? = some a → Y a.1 x < s.y
  vbok : Ok s.vBelow
  vb : ∀ k, get s.vBelow k = Wsum E (x, s.y) k
  vbe : s.vBelow ≠ [] → Has E s.eBelow ∧ s.eBelow.1.1 = x ∧ s.eBelow.2 = (x, s.y)
  vaok : Ok s.vAbove
  va : ∀ k, get s.vAbove k = S pre k (fun e => e.1 = (x, s.y) ∧ e.2.1 = x)
  vae : s.vAbove ≠ [] → Has E s.eAbove ∧ s.eAbove.1 = (x, s.y) ∧ s.eAbove.2.1 = x
  els : s.els.Pairwise (fun a b => Lt a.1 b.1)
  elsm : ∀ a ∈ s.els, Has pre a.1 ∧ NV a.1 ∧ a.1.1 = (x, s.y) ∧ Ok a.2 ∧ ∀ k, get a.2 k = S pre k (· = a.1)
  elsall : ∀ e, Has pre e → NV e → e.1 = (x, s.y) → ∃ a ∈ s.els, a.1 = e
  wrote : Wrote E op x (· < s.y) P s.ins s.out

/-- After a stop. -/
structure HMid (E : List Ev) (op : RF β) (x : Int) (sd : SD) (pre : List Ev) (P : List HE) (s : HS β) : Prop where
  split : E = pre ++ s.evs
  first : s.first = false
  vert : Vertex E (x, s.y)
  done : ∀ ev ∈ pre, plt ev.1.1 (x, s.y) ∨ ev.1.1 = (x, s.y)
  todo : ∀ ev ∈ s.evs, plt (x, s.y) ev.1.1
  cur : ∀ i a, i < s.cur → sd[i]? = some a → Y a.1 x ≤ s.y
  vbok : Ok s.vBelow
  vb : ∀ k, get s.vBelow k = S E k (fun e => e.1 = (x, s.y) ∧ e.2.1 = x)
  vbe : s.vBelow ≠ [] → Has E s.eBelow ∧ s.eBelow.1 = (x, s.y) ∧ s.eBelow.2.1 = x
  va : s.vAbove = []
  els : s.els = []
  wrote : Wrote E op x (· ≤ s.y) P s.ins s.out

theorem has_pre {E pre post : List Ev} (h : E = pre ++ post) {e : HE} (he : Has pre e) : Has E e := by
  rw [h]; unfold Has at *; rw [List.map_append]; exact List.mem_append_left _ he

theorem has_split {E pre post : List Ev} (h : E = pre ++ post) {e : HE} (he : Has E e) : Has pre e ∨ Has post e := by
  rw [h] at he; unfold Has at *; rw [List.map_append] at he; exact List.mem_append.1 he

theorem has_append {pre post : List Ev} {e : HE} : Has (pre ++ post) e ↔ Has pre e ∨ Has post e := by
  unfold Has; rw [List.map_append]; exact List.mem_append

/-! ### Reading an event -/

theorem take_common {E : List Ev} {op : RF β} {x : Int} {sd : SD} {pre : List Ev} {P : List HE} {s : HS β}
    (h : HInv E op x sd pre P s) {ev : Ev} {r : List Ev} (hev : s.evs = ev :: r) (hp : ev.1.1 = (x, s.y)) :
    E = (pre ++ [ev]) ++ r ∧ (∀ e ∈ pre ++ [ev], plt e.1.1 (x, s.y) ∨ e.1.1 = (x, s.y)) ∧
    (∀ e ∈ r, (x, s.y) = e.1.1 ∨ plt (x, s.y) e.1.1) := by
  refine ⟨by rw [h.split, hev]; simp, ?_, ?_⟩
  · intro e he
    rcases List.mem_append.1 he with he | he
    · exact h.done e he
    · simp at he; rw [he]; exact Or.inr hp
  · intro e he
    exact h.todo e (by rw [hev]; exact List.mem_cons_of_mem _ he)

theorem take_inv {E : List Ev} (hG : Good E) (hS : Sorted E) {op : RF β} {x : Int} {sd : SD} {pre : List Ev} {P : List HE} {s : HS β}
    (h : HInv E op x sd pre P s) {ev : Ev} {r : List Ev} (hev : s.evs = ev :: r) (hp : ev.1.1 = (x, s.y)) :
    HInv E op x sd (pre ++ [ev]) P (s.take ev r) := by
  obtain ⟨t1, t2, t3⟩ := take_common h hev hp
  have hE : ev ∈ E := by rw [t1]; simp
  have hy : ev.1.1.2 = s.y := by rw [hp]
  have hx : ev.1.1.1 = x := by rw [hp]
  unfold HS.take
  by_cases hv : isVertical ev.1 = true
  · rw [if_pos hv]
    have hv' : ev.1.1.1 = ev.1.2.1 := by unfold isVertical at hv; simpa using hv
    have hnot : ¬ NV ev.1 := by unfold NV; omega
    constructor <;> (try dsimp only) <;> (try rw [hy])
    · exact t1
    · exact h.vert
    · exact t2
    · exact t3
    · exact h.cur
    · exact h.vbok
    · exact h.vb
    · exact h.vbe
    · exact updateMap_ok h.vaok
    · intro k
      rw [updateMap_get, h.va, S_append, S_single _ _ _ ⟨hp, by omega⟩]
    · intro _; exact ⟨Has.of hE, hp, by omega⟩
    · exact h.els
    · intro a ha
      obtain ⟨g1, g2, g3, g4, g5⟩ := h.elsm a ha
      refine ⟨has_append.2 (Or.inl g1), g2, g3, g4, fun k => ?_⟩
      rw [S_append, S_single_not, add_zero, g5 k]
      intro hc; rw [hc] at hnot; exact hnot g2
    · intro e he hne hep
      rcases has_append.1 he with he | he
      · exact h.elsall e he hne hep
      · simp [Has] at he; rw [he] at hne; exact absurd hne hnot
    · exact h.wrote
  · rw [if_neg hv]
    have hv' : ev.1.1.1 ≠ ev.1.2.1 := by unfold isVertical at hv; simpa using hv
    have hn : NV ev.1 := by rcases hG.dir ev hE with g | g <;> [exact g; omega]
    -- every element read so far precedes the event
    have hbef : ∀ a ∈ s.els, a.1 = ev.1 ∨ Lt a.1 ev.1 := by
      intro a ha
      obtain ⟨g1, g2, g3, _, _⟩ := h.elsm a ha
      obtain ⟨av, hav, hae⟩ := List.mem_map.1 g1
      have hb : Before av.1 ev.1 := by
        have := hS
        unfold Sorted at this
        rw [h.split, hev] at this
        exact (List.pairwise_append.1 this).2.2 av hav ev List.mem_cons_self
      rw [hae] at hb
      rcases hb with hb | ⟨_, hb | hb | hb⟩
      · rw [g3, hp] at hb; rcases hb with hb | hb <;> omega
      · exact Or.inl hb
      · exact Or.inr hb.2.2
      · exact absurd hb.2 hv'
    have hva : ∀ k, get s.vAbove k = S (pre ++ [ev]) k (fun e => e.1 = (x, s.y) ∧ e.2.1 = x) := by
      intro k
      rw [S_append, S_single_not, add_zero, h.va k]
      rintro ⟨_, hc⟩; omega
    have hnew : (∀ a ∈ s.els, a.1 ≠ ev.1) →
        HInv E op x sd (pre ++ [ev]) P { s with evs := r, first := false, y := ev.1.1.2, els := s.els ++ [(ev.1, updateMap [] ev.2)] } := by
      intro hne
      have hnp : ¬ Has pre ev.1 := by
        intro hc
        obtain ⟨a, ha, hae⟩ := h.elsall ev.1 hc hn hp
        exact hne a ha hae
      have hzero : ∀ k, S pre k (· = ev.1) = 0 := by
        intro k; apply S_zero
        intro e he hc
        exact hnp (hc ▸ Has.of he)
      constructor <;> (try dsimp only) <;> (try rw [hy])
      · exact t1
      · exact h.vert
      · exact t2
      · exact t3
      · exact h.cur
      · exact h.vbok
      · exact h.vb
      · exact h.vbe
      · exact h.vaok
      · exact hva
      · exact h.vae
      · rw [List.pairwise_append]
        refine ⟨h.els, List.pairwise_singleton _ _, ?_⟩
        intro a ha b hb
        simp at hb; rw [hb]
        exact (hbef a ha).resolve_left (hne a ha)
      · intro a ha
        rcases List.mem_append.1 ha with ha | ha
        · obtain ⟨g1, g2, g3, g4, g5⟩ := h.elsm a ha
          refine ⟨has_append.2 (Or.inl g1), g2, g3, g4, fun k => ?_⟩
          rw [S_append, S_single_not, add_zero, g5 k]
          exact fun hc => hne a ha hc.symm
        · simp at ha; rw [ha]
          refine ⟨has_append.2 (Or.inr (by simp [Has])), hn, hp, updateMap_ok ok_nil, fun k => ?_⟩
          rw [updateMap_get, get_nil, S_append, hzero]
          exact congrArg _ (S_single ev k (fun x => x = ev.1) rfl).symm
      · intro e he hne' hep
        rcases has_append.1 he with he | he
        · obtain ⟨a, ha, hae⟩ := h.elsall e he hne' hep
          exact ⟨a, List.mem_append_left _ ha, hae⟩
        · simp [Has] at he
          exact ⟨_, List.mem_append_right _ List.mem_cons_self, he.symm⟩
      · exact h.wrote
    rcases hl : s.els.getLast? with _ | ⟨e, m⟩
    · dsimp only
      apply hnew
      rw [List.getLast?_eq_none_iff] at hl
      rw [hl]; simp
    · dsimp only
      have hle : s.els = s.els.dropLast ++ [(e, m)] := (List.dropLast_append_getLast? _ hl).symm
      have hlm : (e, m) ∈ s.els := by rw [hle]; simp
      have hpw := h.els
      rw [hle] at hpw
      by_cases hee : e = ev.1
      · rw [if_pos hee]
        have hdl : ∀ a ∈ s.els.dropLast, a.1 ≠ ev.1 := by
          intro a ha hc
          have := (List.pairwise_append.1 hpw).2.2 a ha (e, m) List.mem_cons_self
          exact lt_ne this (hc.trans hee.symm)
        constructor <;> (try dsimp only) <;> (try rw [hy])
        · exact t1
        · exact h.vert
        · exact t2
        · exact t3
        · exact h.cur
        · exact h.vbok
        · exact h.vb
        · exact h.vbe
        · exact h.vaok
        · exact hva
        · exact h.vae
        · rw [List.pairwise_append]
          refine ⟨(List.pairwise_append.1 hpw).1, List.pairwise_singleton _ _, ?_⟩
          intro a ha b hb
          simp at hb; rw [hb]
          exact (List.pairwise_append.1 hpw).2.2 a ha (e, m) List.mem_cons_self
        · intro a ha
          rcases List.mem_append.1 ha with ha | ha
          · obtain ⟨g1, g2, g3, g4, g5⟩ := h.elsm a (List.mem_of_mem_dropLast ha)
            refine ⟨has_append.2 (Or.inl g1), g2, g3, g4, fun k => ?_⟩
            rw [S_append, S_single_not, add_zero, g5 k]
            exact fun hc => hdl a ha hc.symm
          · obtain ⟨g1, g2, g3, g4, g5⟩ := h.elsm _ hlm
            simp at ha; rw [ha]
            refine ⟨has_append.2 (Or.inl g1), g2, g3, updateMap_ok g4, fun k => ?_⟩
            dsimp only at g5 ⊢
            rw [updateMap_get, g5 k, S_append, S_single _ _ _ hee.symm]
        · intro f hf hne' hfp
          have : Has pre f := by
            rcases has_append.1 hf with hf | hf
            · exact hf
            · simp [Has] at hf; rw [hf, ← hee]; exact (h.elsm _ hlm).1
          obtain ⟨a, ha, hae⟩ := h.elsall f this hne' hfp
          rw [hle] at ha
          rcases List.mem_append.1 ha with ha | ha
          · exact ⟨a, List.mem_append_left _ ha, hae⟩
          · simp at ha
            exact ⟨_, List.mem_append_right _ List.mem_cons_self, by rw [ha] at hae; exact hae⟩
        · exact h.wrote
      · rw [if_neg hee]
        apply hnew
        intro a ha hc
        rw [hle] at ha
        rcases List.mem_append.1 ha with ha | ha
        · have l1 := (List.pairwise_append.1 hpw).2.2 a ha (e, m) List.mem_cons_self
          have l2 := (hbef _ hlm).resolve_left hee
          rw [hc] at l1
          dsimp only at l1 l2
          have he := has_pre h.split (h.elsm _ hlm).1
          exact lt_asymm (hG.sep he (Has.of hE) hee (h.elsm _ hlm).2.1 hn) l2 l1
        · simp at ha; rw [ha] at hc; exact hee hc

end Verif.Arb
