import Verif.Proofs.PropertyMerge
import Verif.Proofs.Set90Extents
/-!
# C43: property merge partitions the plane by property set
-/
namespace Verif.Properties.PropertyMerge
open Verif.Spec Verif.BooleanOp Verif.Set90 Verif.Isotropy Verif.PropertyMerge

variable {α : Type} [LinearOrder α]

theorem quadr_populate (s : PSet) (ho : s.orient = HORIZONTAL ∨ s.orient = VERTICAL) (p r : α) (q : ℚ × ℚ) :
    quadr (populate s.data r s.orient) ⌊q.1⌋ ⌊q.2⌋ p = if r = p then depth s q else 0 := by
  unfold quadr populate depth cover
  rw [List.map_map]
  by_cases hr : r = p
  · rw [if_pos hr]
    rcases ho with ho | ho
    · rw [if_neg (by rw [ho]; decide)]
      apply map_sum_congr
      intro v _
      simp only [Function.comp, ho, if_true, hr, true_and, Int.le_floor]
      simp only [and_comm]
    · rw [if_pos ho]
      apply map_sum_congr
      intro v _
      simp only [Function.comp, ho, hr, true_and, Int.le_floor, VERTICAL, HORIZONTAL, one_ne_zero, if_false]
  · rw [if_neg hr]
    apply map_sum_zero
    intro v _
    simp only [Function.comp]
    split_ifs <;> simp_all

theorem quadr_pmd (ins : List (PSet × α)) (h : ∀ i ∈ ins, i.1.orient = HORIZONTAL ∨ i.1.orient = VERTICAL) (p : α) (q : ℚ × ℚ) :
    quadr (pmd ins) ⌊q.1⌋ ⌊q.2⌋ p = propDepth ins p q := by
  induction ins with
  | nil => rfl
  | cons i l ih =>
    have e : pmd (i :: l) = populate i.1.data i.2 i.1.orient ++ pmd l := rfl
    rw [e, quadr_append, ih (fun x hx => h x (by simp [hx])), quadr_populate _ (h i (by simp))]
    simp [propDepth]

theorem col_pmd (ins : List (PSet × α)) (h : ∀ i ∈ ins, Closed i.1.data) (a : Int) (p : α) : col (pmd ins) a p = 0 := by
  induction ins with
  | nil => rfl
  | cons i l ih =>
    have e : pmd (i :: l) = populate i.1.data i.2 i.1.orient ++ pmd l := rfl
    rw [e, col_append, ih (fun x hx => h x (by simp [hx])), add_zero]
    unfold col populate
    rw [List.map_map]
    by_cases hr : i.2 = p
    · obtain ⟨hc, hr'⟩ := h i (by simp)
      by_cases ho : i.1.orient = HORIZONTAL
      · refine Eq.trans ?_ (hr' a)
        apply map_sum_congr
        intro v _
        simp [Function.comp, ho, hr]
      · refine Eq.trans ?_ (hc a)
        apply map_sum_congr
        intro v _
        simp [Function.comp, ho, hr]
    · apply map_sum_zero
      intro v _
      simp only [Function.comp]
      split_ifs <;> simp_all

theorem perm_quadr {A B : List (VP α)} (h : A.Perm B) (x z : Int) (p : α) : quadr A x z p = quadr B x z p := (h.map _).sum_eq
theorem perm_col {A B : List (VP α)} (h : A.Perm B) (x : Int) (p : α) : col A x p = col B x p := (h.map _).sum_eq

theorem find_mem {res : Result α} {P : List α} {s : PSet} (h : find res P = some s) : (P, s) ∈ res := by
  induction res with
  | nil => simp [find] at h
  | cons k r ih =>
    obtain ⟨k, t⟩ := k
    unfold find at h
    split at h
    next g => rw [← g, ← Option.some.inj h]; simp
    next => exact List.mem_cons_of_mem _ (ih h)

theorem ind_cases (P : List α) (f : α → Int) : Verif.PropertyMerge.ind P f = 0 ∨ Verif.PropertyMerge.ind P f = 1 := by
  unfold Verif.PropertyMerge.ind; split_ifs <;> simp

theorem sum_nonneg' {β : Type} {l : List β} {f : β → Int} (h : ∀ x ∈ l, 0 ≤ f x) : 0 ≤ (l.map f).sum := by
  induction l with
  | nil => simp
  | cons a l ih =>
    have := ih (fun x hx => h x (by simp [hx]))
    have := h a (by simp)
    simp only [List.map_cons, List.sum_cons]; omega

/-- The values of the merge at every key and point. -/
theorem merge_depth {umin umax : Int} (ins : List (PSet × α)) (h : ∀ i ∈ ins, Valid umin umax i.1) (sorted : List (VP α))
    (hp : sorted.Perm (pmd ins)) (hs : sorted.Pairwise PLe) :
    ∃ res, merge sorted = some res ∧ ResOk res ∧ ∀ P x z, P ≠ [] →
      rdep res P x z = Verif.PropertyMerge.ind P (quadr (pmd ins) x z) := by
  have hcl : ∀ a p, col sorted a p = 0 := fun a p => by rw [perm_col hp, col_pmd ins (fun i hi => (h i hi).closed)]
  cases hd : sorted with
  | nil =>
    refine ⟨[], rfl, by intro k hk; simp at hk, fun P x z hP => ?_⟩
    rw [← ind_congr (fun p => perm_quadr hp x z p), hd]
    exact (ind_zero hP).symm
  | cons d r =>
    rw [hd] at hs hcl
    have hs' := List.pairwise_cons.mp hs
    have hL : Loop (⟨[], [], 0, []⟩ : St α) d.x d.y (mergeProperty [] (d.prop, d.c)) [] [] [] [d] :=
      { inv := ⟨⟨List.Pairwise.nil, by intro e he; simp at he⟩, by intro e he; simp at he, List.Pairwise.nil,
          by intro e he; simp at he, fun k => absurd rfl k⟩
        srt := srt_mergeProperty List.Pairwise.nil _
        cur := fun p => by rw [cnt_mergeProperty, cnt_nil]; simp [tot]
        hE := by simp
        hC := by simp
        hG := by simp
        curNe := by simp
        prev := fun k => absurd rfl k
        start := fun _ => rfl
        cfb := fun p => rfl
        scan := fun z p => by simp [look, cnt_nil, upto]
        edges := fun P z hP => by
          have : Verif.PropertyMerge.ind P (cnt (look ([] : PMap α) [] z)) = Verif.PropertyMerge.ind P (upto [] z) :=
            ind_congr (fun p => by simp [look, cnt_nil, upto])
          show osum P z [] = _
          rw [this]; simp [osum]
        resOk := by intro k hk; simp at hk
        res := fun P x z hP => (ind_zero hP).symm }
    obtain ⟨res, r1, r2, r3⟩ := mergeGo_spec r hL hs'.2 (fun x hx => hs'.1 x hx) hcl
    refine ⟨res, r1, r2, fun P x z hP => ?_⟩
    rw [r3 P x z hP]
    refine ind_congr (fun p => ?_)
    rw [← perm_quadr hp, hd]; rfl

/-- C43: insert any sets with any properties (repeating a property is allowed) and merge; whatever order
the sort leaves equal points in, the merge succeeds and the set stored under a non-empty key `P` covers a
point exactly when `P` is the ordered list of the properties whose inserted geometry covers it. -/
theorem C43_merge {umin umax : Int} (ins : List (PSet × α)) (h : ∀ i ∈ ins, Valid umin umax i.1) (sorted : List (VP α))
    (hp : sorted.Perm (pmd ins)) (hs : sorted.Pairwise (fun a b => a.x < b.x ∨ (a.x = b.x ∧ a.y ≤ b.y))) :
    ∃ res, merge sorted = some res ∧ ∀ P : List α, P ≠ [] → ∀ q,
      (∃ s, find res P = some s ∧ Covers s q) ↔ IsKey P (fun p => propDepth ins p q) := by
  obtain ⟨res, e1, e2, e3⟩ := merge_depth ins h sorted hp hs
  refine ⟨res, e1, fun P hP q => ?_⟩
  have hq := e3 P ⌊q.1⌋ ⌊q.2⌋ hP
  rw [ind_congr (fun p => quadr_pmd ins (fun i hi => (h i hi).orient) p q)] at hq
  unfold rdep at hq
  constructor
  · rintro ⟨s, hf, hc⟩
    rw [hf] at hq
    simp only at hq
    have ho := e2 _ (find_mem hf)
    unfold Covers depth at hc
    rw [if_pos ho, cover_eq, hq] at hc
    unfold Verif.PropertyMerge.ind at hc
    by_contra hk
    rw [if_neg hk] at hc
    exact absurd hc (by decide)
  · intro hk
    have h1 : Verif.PropertyMerge.ind P (fun p => propDepth ins p q) = 1 := by
      unfold Verif.PropertyMerge.ind; rw [if_pos hk]
    rw [h1] at hq
    cases hf : find res P with
    | none => rw [hf] at hq; simp only at hq; exact absurd hq (by decide)
    | some s =>
      rw [hf] at hq
      simp only at hq
      refine ⟨s, rfl, ?_⟩
      unfold Covers depth
      rw [if_pos (e2 _ (find_mem hf)), cover_eq, hq]
      decide

/-- C43, in terms of membership: when no inserted set covers a point a negative number of times, the set
stored under `P` covers a point exactly when `P` is ordered without repetition and contains precisely the
properties with which some set covering the point was inserted. -/
theorem C43_merge_members {umin umax : Int} (ins : List (PSet × α)) (h : ∀ i ∈ ins, Valid umin umax i.1)
    (hn : ∀ i ∈ ins, ∀ q, 0 ≤ depth i.1 q) (sorted : List (VP α))
    (hp : sorted.Perm (pmd ins)) (hs : sorted.Pairwise (fun a b => a.x < b.x ∨ (a.x = b.x ∧ a.y ≤ b.y))) :
    ∃ res, merge sorted = some res ∧ ∀ P : List α, P ≠ [] → ∀ q,
      (∃ s, find res P = some s ∧ Covers s q) ↔
        P.Pairwise (· < ·) ∧ ∀ p, p ∈ P ↔ ∃ i ∈ ins, i.2 = p ∧ Covers i.1 q := by
  obtain ⟨res, e1, e2⟩ := C43_merge ins h sorted hp hs
  refine ⟨res, e1, fun P hP q => (e2 P hP q).trans ?_⟩
  unfold IsKey
  refine and_congr_right (fun _ => forall_congr' fun p => ?_)
  have hpos : 0 < propDepth ins p q ↔ ∃ i ∈ ins, i.2 = p ∧ Covers i.1 q := by
    clear hp hs e1 e2 h
    induction ins with
    | nil => simp [propDepth]
    | cons i l ih =>
      have hl : 0 ≤ propDepth l p q := by
        apply sum_nonneg'
        intro j hj
        split_ifs
        · exact hn j (by simp [hj]) q
        · exact le_refl _
      have hi := hn i (by simp) q
      have ih := ih (fun j hj => hn j (by simp [hj]))
      have e : propDepth (i :: l) p q = (if i.2 = p then depth i.1 q else 0) + propDepth l p q := by simp [propDepth]
      rw [e]
      constructor
      · intro hlt
        by_cases g : i.2 = p ∧ 0 < depth i.1 q
        · exact ⟨i, by simp, g.1, g.2⟩
        · obtain ⟨j, hj, hj2⟩ := ih.mp (by
            by_cases g1 : i.2 = p
            · rw [if_pos g1] at hlt
              have : ¬ 0 < depth i.1 q := fun k => g ⟨g1, k⟩
              omega
            · rw [if_neg g1] at hlt; omega)
          exact ⟨j, by simp [hj], hj2⟩
      · rintro ⟨j, hj, g1, g2⟩
        rcases List.mem_cons.mp hj with rfl | hj
        · rw [if_pos g1]; unfold Covers at g2; omega
        · have := ih.mpr ⟨j, hj, g1, g2⟩
          split_ifs <;> omega
  rw [hpos]

/-- C43: the sets of the result are pairwise disjoint, each covers a point at most once, and the counts of
its vertices cancel in every row and column. -/
theorem C43_merge_disjoint {umin umax : Int} (ins : List (PSet × α)) (h : ∀ i ∈ ins, Valid umin umax i.1) (sorted : List (VP α))
    (hp : sorted.Perm (pmd ins)) (hs : sorted.Pairwise (fun a b => a.x < b.x ∨ (a.x = b.x ∧ a.y ≤ b.y))) :
    ∃ res, merge sorted = some res ∧ (∀ P s, P ≠ [] → find res P = some s → Closed s.data ∧ ∀ q, depth s q = 0 ∨ depth s q = 1) ∧
      ∀ P Q s t, P ≠ [] → Q ≠ [] → P ≠ Q → find res P = some s → find res Q = some t → ∀ q, ¬ (Covers s q ∧ Covers t q) := by
  obtain ⟨res, e1, e2⟩ := C43_merge ins h sorted hp hs
  obtain ⟨res', e1', e3, e4⟩ := merge_depth ins h sorted hp hs
  obtain rfl : res' = res := Option.some.inj (e1'.symm.trans e1)
  refine ⟨res', e1, fun P s hP hf => ?_, fun P Q s t hP hQ hne hs ht q hc => ?_⟩
  · have hz : ∀ x z, coverZ s.data x z = Verif.PropertyMerge.ind P (quadr (pmd ins) x z) := by
      intro x z
      have := e4 P x z hP
      unfold rdep at this
      rwa [hf] at this
    refine ⟨?_, fun q => ?_⟩
    · -- far right and far up nothing is covered
      have far : (∃ x0, ∀ p x z, x0 ≤ x → quadr (pmd ins) x z p = 0) ∧ ∃ y0, ∀ p x z, y0 ≤ z → quadr (pmd ins) x z p = 0 := by
        have hv : ∀ i ∈ ins, (i.1.orient = HORIZONTAL ∨ i.1.orient = VERTICAL) ∧ Closed i.1.data := fun i hi => ⟨(h i hi).orient, (h i hi).closed⟩
        clear hz e4 e3 e1 e1' e2 hp hs h hf
        induction ins with
        | nil => exact ⟨⟨0, fun _ _ _ _ => rfl⟩, 0, fun _ _ _ _ => rfl⟩
        | cons i l ih =>
          obtain ⟨⟨x1, h1⟩, y1, h2⟩ := ih (fun j hj => hv j (by simp [hj]))
          obtain ⟨ho, hc⟩ := hv i (by simp)
          have e : ∀ x z p, quadr (pmd (i :: l)) x z p = (if i.2 = p then depth i.1 ((x : ℚ), (z : ℚ)) else 0) + quadr (pmd l) x z p := by
            intro x z p
            have e : pmd (i :: l) = populate i.1.data i.2 i.1.orient ++ pmd l := rfl
            have := quadr_populate i.1 ho p i.2 ((x : ℚ), (z : ℚ))
            simp only [Int.floor_intCast] at this
            rw [e, quadr_append, this]
          obtain ⟨x2, h3⟩ := cover_right hc
          obtain ⟨y2, h4⟩ := cover_top hc
          by_cases hV : i.1.orient = VERTICAL
          · refine ⟨⟨max x1 x2, fun p x z hx => ?_⟩, max y1 y2, fun p x z hx => ?_⟩
            · rw [e, h1 p x z (by omega), depth, if_pos hV]
              simp only [cover_int, h3 x z (by omega)]; simp
            · rw [e, h2 p x z (by omega), depth, if_pos hV]
              simp only [cover_int, h4 x z (by omega)]; simp
          · refine ⟨⟨max x1 y2, fun p x z hx => ?_⟩, max y1 x2, fun p x z hx => ?_⟩
            · rw [e, h1 p x z (by omega), depth, if_neg hV]
              simp only [cover_int, h4 z x (by omega)]; simp
            · rw [e, h2 p x z (by omega), depth, if_neg hV]
              simp only [cover_int, h3 z x (by omega)]; simp
      obtain ⟨⟨x0, h1⟩, y0, h2⟩ := far
      exact closed_of_cover ⟨x0, fun a y ha => by rw [hz, ind_congr (fun p => h1 p a y ha), ind_zero hP]⟩
        ⟨y0, fun a y ha => by rw [hz, ind_congr (fun p => h2 p a y ha), ind_zero hP]⟩
    · unfold depth
      rw [if_pos (e3 _ (find_mem hf)), cover_eq, hz]
      exact ind_cases _ _
  · exact hne (isKey_unique ((e2 P hP q).mp ⟨s, hs, hc.1⟩) ((e2 Q hQ q).mp ⟨t, ht, hc.2⟩))

/-- Two overlapping squares, the second with horizontal orientation and two properties given. -/
def exIns : List (PSet × Nat) :=
  [((PSet.mk0 VERTICAL).insertRect ⟨⟨0, 4⟩, ⟨0, 4⟩⟩ false, 7), ((PSet.mk0 HORIZONTAL).insertRect ⟨⟨2, 6⟩, ⟨1, 4⟩⟩ false, 3)]

def exSorted : List (VP Nat) :=
  [⟨0, 0, 7, 1⟩, ⟨0, 4, 7, -1⟩, ⟨2, 1, 3, 1⟩, ⟨2, 4, 3, -1⟩, ⟨4, 0, 7, -1⟩, ⟨4, 4, 7, 1⟩, ⟨6, 1, 3, -1⟩, ⟨6, 4, 3, 1⟩]

example : (∀ i ∈ exIns, Valid (-100) 100 i.1) ∧ exSorted.Perm (pmd exIns) ∧
    exSorted.Pairwise (fun a b => a.x < b.x ∨ (a.x = b.x ∧ a.y ≤ b.y)) := by
  refine ⟨?_, by decide +kernel, by simp [exSorted]⟩
  intro i hi
  simp only [exIns, List.mem_cons, List.not_mem_nil, or_false] at hi
  rcases hi with rfl | rfl
  · exact reach_valid (Reach.insertRect ⟨⟨0, 4⟩, ⟨0, 4⟩⟩ false (Reach.new _ (Or.inr rfl)) (by unfold RectIn; decide))
  · exact reach_valid (Reach.insertRect ⟨⟨2, 6⟩, ⟨1, 4⟩⟩ false (Reach.new _ (Or.inl rfl)) (by unfold RectIn; decide))

example : ∀ i ∈ exIns, ∀ q, 0 ≤ depth i.1 q := by
  intro i hi q
  simp only [exIns, List.mem_cons, List.not_mem_nil, or_false] at hi
  have h0 : ∀ o, depth (PSet.mk0 o) q = 0 := fun o => by simp [depth_def, PSet.mk0, coverZ]
  rcases hi with rfl | rfl
  · rw [insertRect_depth (Or.inr rfl) _ _ (by decide) (by decide), h0]; simp only [Bool.false_eq_true, if_false]; split_ifs <;> decide
  · rw [insertRect_depth (Or.inl rfl) _ _ (by decide) (by decide), h0]; simp only [Bool.false_eq_true, if_false]; split_ifs <;> decide

/-- What the merge of these returns: three keys. -/
example : (merge exSorted).map (fun r => r.map Prod.fst) = some [[7], [3, 7], [3]] := by
  simp [merge, performMerge, mergeGo, exSorted, mergeProperty, processVertex, Verif.PropertyMerge.lowerBound, List.span, List.span.loop, scan, stepBelow,
    stepOut, addElem, pushEdge, setProperty, mergeCount, mergeLoop, pushTmp, writeOutput, insertKey]

end Verif.Properties.PropertyMerge
