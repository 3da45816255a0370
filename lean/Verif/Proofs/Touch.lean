import Verif.Model.Touch
import Verif.Proofs.BooleanInterval
/-! Helper lemmas for the connectivity extraction: one interval of the scan. -/
namespace Verif.Touch
open Verif.BooleanOp Verif.Set90

/-! ### Sets and graphs -/

theorem mem_insId {i j : Nat} {s : Ids} : j ∈ insId i s ↔ j = i ∨ j ∈ s := by
  induction s with
  | nil => simp [insId]
  | cons a l ih =>
    unfold insId
    split_ifs with h1 h2
    · simp
    · subst h2; simp
    · simp only [List.mem_cons, ih]; tauto

theorem mem_eraseId {i j : Nat} {s : Ids} : j ∈ eraseId i s ↔ j ∈ s ∧ j ≠ i := by simp [eraseId]

theorem mem_toggle {i j : Nat} {s : Ids} : j ∈ toggle i s ↔ (j = i ∧ i ∉ s) ∨ (j ≠ i ∧ j ∈ s) := by
  unfold toggle
  split_ifs with h
  · rw [mem_eraseId]
    constructor
    · rintro ⟨a, b⟩; exact Or.inr ⟨b, a⟩
    · rintro (⟨a, b⟩ | ⟨a, b⟩)
      · exact absurd h b
      · exact ⟨b, a⟩
  · rw [mem_insId]
    by_cases e : j = i <;> simp [e, h]

theorem nodup_insId {i : Nat} {s : Ids} (h : s.Nodup) (hi : i ∉ s) : (insId i s).Nodup := by
  induction s with
  | nil => simp [insId]
  | cons a l ih =>
    obtain ⟨h1, h2⟩ := List.nodup_cons.mp h
    unfold insId
    split_ifs with g1 g2
    · exact List.nodup_cons.mpr ⟨hi, h⟩
    · exact h
    · refine List.nodup_cons.mpr ⟨?_, ih h2 (fun k => hi (by simp [k]))⟩
      rw [mem_insId]
      rintro (rfl | k)
      · exact g2 rfl
      · exact h1 k

theorem nodup_toggle {i : Nat} {s : Ids} (h : s.Nodup) : (toggle i s).Nodup := by
  unfold toggle
  split_ifs with g
  · exact List.Nodup.filter _ h
  · exact nodup_insId h g

theorem toggle_fold (l : Ids) : ∀ (s : Ids), l.Nodup →
    (∀ j, j ∈ l.foldl (fun s i => toggle i s) s ↔ (j ∈ l ∧ j ∉ s) ∨ (j ∉ l ∧ j ∈ s)) ∧
    (s.Nodup → (l.foldl (fun s i => toggle i s) s).Nodup) := by
  induction l with
  | nil => intro s _; simp
  | cons a l ih =>
    intro s h
    obtain ⟨h1, h2⟩ := List.nodup_cons.mp h
    obtain ⟨i1, i2⟩ := ih (toggle a s) h2
    refine ⟨fun j => ?_, fun hs => i2 (nodup_toggle hs)⟩
    rw [List.foldl_cons, i1 j, mem_toggle, List.mem_cons]
    by_cases e : j = a
    · subst e; simp [h1]
    · simp [e]

/-- The two pairs recorded for an edge between different nodes. -/
def Link (c d : Nat) (p : Nat × Nat) : Prop := c ≠ d ∧ (p = (c, d) ∨ p = (d, c))

theorem Link.symm {c d : Nat} {p : Nat × Nat} (h : Link c d p) : Link d c p := ⟨fun e => h.1 e.symm, h.2.symm⟩

theorem mem_borderId {ids : Ids} {c : Nat} {p : Nat × Nat} : ∀ {g : Graph}, p ∈ borderId g ids c ↔ p ∈ g ∨ ∃ d ∈ ids, Link c d p := by
  unfold borderId
  induction ids with
  | nil => simp
  | cons a l ih =>
    intro g
    rw [List.foldl_cons, ih]
    by_cases h : c = a
    · subst h; simp [Link]
    · rw [if_pos h]
      simp only [List.mem_append, List.mem_cons, List.not_mem_nil, or_false, Link, ne_eq, exists_eq_or_imp, h, not_false_eq_true, true_and]
      rw [or_assoc]

theorem mem_border {ids changing : Ids} {p : Nat × Nat} : ∀ {g : Graph}, p ∈ border g ids changing ↔
    p ∈ g ∨ ∃ c ∈ changing, ∃ d ∈ ids, Link c d p := by
  unfold border
  induction changing with
  | nil => simp
  | cons a l ih =>
    intro g
    rw [List.foldl_cons, ih, mem_borderId]
    simp only [List.mem_cons, exists_eq_or_imp]
    rw [or_assoc]

/-- `evaluateInterval_` for a leading edge. -/
theorem evalIvl_lead (ch : Ids) : ∀ (v : Ids) (g : Graph), ch.Nodup → (∀ c ∈ ch, c ∉ v) →
    (∀ j, j ∈ (evalIvl true (v, g) ch).1 ↔ j ∈ v ∨ j ∈ ch) ∧
    ∀ p, p ∈ (evalIvl true (v, g) ch).2 ↔ p ∈ g ∨ ∃ c ∈ ch, ∃ d, (d ∈ v ∨ d ∈ ch) ∧ Link c d p := by
  induction ch with
  | nil => intro v g _ _; simp [evalIvl]
  | cons a l ih =>
    intro v g hn hd
    obtain ⟨h1, h2⟩ := List.nodup_cons.mp hn
    have ha : a ∉ v := hd a (by simp)
    have e : evalIvl true (v, g) (a :: l) = evalIvl true (insId a v, borderId g v a) l := by
      unfold evalIvl; rw [List.foldl_cons]; congr 1; simp [evalId, ha]
    obtain ⟨i1, i2⟩ := ih (insId a v) (borderId g v a) h2 (by
      intro c hc
      rw [mem_insId]
      rintro (rfl | k)
      · exact h1 hc
      · exact hd c (by simp [hc]) k)
    rw [e]
    refine ⟨fun j => ?_, fun p => ?_⟩
    · rw [i1, mem_insId, List.mem_cons]; tauto
    · rw [i2, mem_borderId]
      constructor
      · rintro ((h | ⟨d, hd, hl⟩) | ⟨c, hc, d, hd, hl⟩)
        · exact Or.inl h
        · exact Or.inr ⟨a, by simp, d, Or.inl hd, hl⟩
        · refine Or.inr ⟨c, by simp [hc], d, ?_, hl⟩
          rw [mem_insId] at hd
          rcases hd with (rfl | hd) | hd
          · right; simp
          · exact Or.inl hd
          · right; simp [hd]
      · rintro (h | ⟨c, hc, d, hd, hl⟩)
        · exact Or.inl (Or.inl h)
        · rcases List.mem_cons.mp hc with rfl | hc
          · rcases hd with hd | hd
            · exact Or.inl (Or.inr ⟨d, hd, hl⟩)
            · rcases List.mem_cons.mp hd with rfl | hd
              · exact absurd rfl hl.1
              · exact Or.inr ⟨d, hd, c, Or.inl (mem_insId.mpr (Or.inl rfl)), hl.symm⟩
          · refine Or.inr ⟨c, hc, d, ?_, hl⟩
            rcases hd with hd | hd
            · exact Or.inl (mem_insId.mpr (Or.inr hd))
            · rcases List.mem_cons.mp hd with rfl | hd
              · exact Or.inl (mem_insId.mpr (Or.inl rfl))
              · exact Or.inr hd

/-- `evaluateInterval_` for a trailing edge. -/
theorem evalIvl_trail (ch : Ids) : ∀ (v : Ids) (g : Graph),
    (∀ j, j ∈ (evalIvl false (v, g) ch).1 ↔ j ∈ v ∧ j ∉ ch) ∧ (evalIvl false (v, g) ch).2 = g := by
  induction ch with
  | nil => intro v g; simp [evalIvl]
  | cons a l ih =>
    intro v g
    by_cases ha : a ∈ v
    · have e : evalIvl false (v, g) (a :: l) = evalIvl false (eraseId a v, g) l := by
        unfold evalIvl; rw [List.foldl_cons]; congr 1; simp [evalId, ha]
      obtain ⟨i1, i2⟩ := ih (eraseId a v) g
      rw [e]
      refine ⟨fun j => ?_, i2⟩
      rw [i1, mem_eraseId, List.mem_cons]; tauto
    · have e : evalIvl false (v, g) (a :: l) = evalIvl false (v, g) l := by
        unfold evalIvl; rw [List.foldl_cons]; congr 1; simp [evalId, ha]
      obtain ⟨i1, i2⟩ := ih v g
      rw [e]
      refine ⟨fun j => ?_, i2⟩
      rw [i1, List.mem_cons]
      constructor
      · rintro ⟨h1, h2⟩
        refine ⟨h1, ?_⟩
        rintro (rfl | k)
        · exact ha h1
        · exact h2 k
      · rintro ⟨h1, h2⟩; exact ⟨h1, fun k => h2 (Or.inr k)⟩

/-- The set part of `evaluateInterval_` does not depend on the graph. -/
theorem evalIvl_fst (lead : Bool) (ch : Ids) : ∀ (v : Ids) (g g' : Graph),
    (evalIvl lead (v, g) ch).1 = (evalIvl lead (v, g') ch).1 := by
  induction ch with
  | nil => intro v g g'; rfl
  | cons a l ih =>
    intro v g g'
    unfold evalIvl
    rw [List.foldl_cons, List.foldl_cons]
    have h : (evalId lead (v, g) a).1 = (evalId lead (v, g') a).1 := by
      unfold evalId; dsimp only; split_ifs <;> rfl
    have := ih (evalId lead (v, g) a).1 (evalId lead (v, g) a).2 (evalId lead (v, g') a).2
    unfold evalIvl at this
    rw [show evalId lead (v, g') a = ((evalId lead (v, g) a).1, (evalId lead (v, g') a).2) by rw [h]]
    exact this

/-- What the loop stores in an element. -/
def upd (lead : Bool) (ids : Ids) (e : Int × Ids) : Int × Ids := (e.1, (evalIvl lead (e.2, []) ids).1)

/-- What one interval adds to the graph, given the sets `W` met. -/
def Adds (lead : Bool) (ids : Ids) (W : Ids → Prop) (p : Nat × Nat) : Prop :=
  lead = true ∧ ∃ c ∈ ids, ∃ d, (d ∈ ids ∨ ∃ v, W v ∧ d ∈ v) ∧ Link c d p

theorem evalIvl_graph {lead : Bool} {ids v : Ids} (g : Graph) (hn : ids.Nodup) (hd : lead = true → ∀ c ∈ ids, c ∉ v) (p : Nat × Nat) :
    p ∈ (evalIvl lead (v, g) ids).2 ↔ p ∈ g ∨ Adds lead ids (fun w => w = v) p := by
  cases lead with
  | true =>
    rw [(evalIvl_lead ids v g hn (hd rfl)).2]
    unfold Adds
    simp only [true_and, exists_eq_left]
    constructor
    · rintro (h | ⟨c, hc, d, hd, hl⟩)
      · exact Or.inl h
      · exact Or.inr ⟨c, hc, d, hd.symm, hl⟩
    · rintro (h | ⟨c, hc, d, hd, hl⟩)
      · exact Or.inl h
      · exact Or.inr ⟨c, hc, d, hd.symm, hl⟩
  | false => rw [(evalIvl_trail ids v g).2]; simp [Adds]

theorem walk_eq (lead : Bool) (ids : Ids) (hn : ids.Nodup) (hi : Int) (w : Ids) (C : Map Ids) (B : Map Ids) :
    ∀ (A : Map Ids) (k : Int) (v : Ids) (fuel : Nat) (g : Graph),
    Sorted (A ++ (k, v) :: B ++ (hi, w) :: C) → B.length + 1 < fuel →
    (lead = true → ∀ e ∈ (k, v) :: B, ∀ c ∈ ids, c ∉ e.2) →
    ∃ g', walk lead ids hi fuel (A ++ (k, v) :: B ++ (hi, w) :: C) k g =
      some (A ++ ((k, v) :: B).map (upd lead ids) ++ (hi, w) :: C, g') ∧
      ∀ p, p ∈ g' ↔ p ∈ g ∨ Adds lead ids (fun u => ∃ e ∈ (k, v) :: B, e.2 = u) p := by
  induction B with
  | nil =>
    intro A k v fuel g hs hf hd
    obtain ⟨f, rfl⟩ : ∃ f, fuel = f + 1 + 1 := ⟨fuel - 2, by simp at hf; omega⟩
    simp only [List.append_assoc, List.cons_append, List.nil_append] at hs ⊢
    have hs1 := sorted_append.mp hs
    have hA : KLt A k := fun e he => hs1.2.2 e he (k, v) (by simp)
    have hR := (sorted_cons.mp hs1.2.1).1
    have hk : k ≠ hi := by have := hR (hi, w) (by simp); simp only at this; omega
    refine ⟨(evalIvl lead (v, g) ids).2, ?_, fun p => ?_⟩
    · rw [walk, if_neg hk]
      simp only [valAt_append hA, Option.bind_eq_bind, Option.bind_some]
      rw [setK_append hA hR, nextIt_append hA]
      simp only [Option.bind_some, beginIt, List.head?_cons, Option.map_some]
      rw [walk, if_pos rfl]
      simp [upd, evalIvl_fst lead ids v g []]
    · rw [evalIvl_graph g hn (fun hl => hd hl (k, v) (by simp))]
      simp [eq_comm]
  | cons b B ih =>
    intro A k v fuel g hs hf hd
    obtain ⟨f, rfl⟩ : ∃ f, fuel = f + 1 := ⟨fuel - 1, by simp at hf; omega⟩
    simp only [List.append_assoc, List.cons_append] at hs ⊢
    have hs1 := sorted_append.mp hs
    have hA : KLt A k := fun e he => hs1.2.2 e he (k, v) (by simp)
    have hR := (sorted_cons.mp hs1.2.1).1
    have hk : k ≠ hi := by have := hR (hi, w) (by simp); simp only at this; omega
    obtain ⟨bk, bv⟩ := b
    obtain ⟨g', e1, e2⟩ := ih (A ++ [(k, (evalIvl lead (v, g) ids).1)]) bk bv f (evalIvl lead (v, g) ids).2 (by
      simp only [List.append_assoc, List.cons_append, List.nil_append]
      rw [sorted_append, sorted_cons]
      refine ⟨hs1.1, ⟨hR, (sorted_cons.mp hs1.2.1).2⟩, ?_⟩
      intro a ha x hx
      rcases List.mem_cons.mp hx with rfl | hx
      · exact hA a ha
      · exact hs1.2.2 a ha x (by simp [List.mem_cons] at hx ⊢; right; exact hx)) (by simp at hf ⊢; omega)
      (fun hl e he => hd hl e (List.mem_cons_of_mem _ he))
    refine ⟨g', ?_, fun p => ?_⟩
    · rw [walk, if_neg hk]
      simp only [valAt_append hA, Option.bind_eq_bind, Option.bind_some]
      rw [setK_append hA hR, nextIt_append hA]
      simp only [Option.bind_some, beginIt, List.head?_cons, Option.map_some]
      simp only [List.append_assoc, List.cons_append, List.nil_append] at e1
      rw [e1]
      simp [upd, evalIvl_fst lead ids v g []]
    · rw [e2, evalIvl_graph g hn (fun hl => hd hl (k, v) (by simp))]
      unfold Adds
      constructor
      · rintro ((h | ⟨hl, c, hc, d, hd, hk⟩) | ⟨hl, c, hc, d, hd, hk⟩)
        · exact Or.inl h
        · refine Or.inr ⟨hl, c, hc, d, ?_, hk⟩
          rcases hd with hd | ⟨u, hu, hd⟩
          · exact Or.inl hd
          · exact Or.inr ⟨u, ⟨(k, v), by simp, hu.symm⟩, hd⟩
        · refine Or.inr ⟨hl, c, hc, d, ?_, hk⟩
          rcases hd with hd | ⟨u, ⟨e, he, hu⟩, hd⟩
          · exact Or.inl hd
          · exact Or.inr ⟨u, ⟨e, List.mem_cons_of_mem _ he, hu⟩, hd⟩
      · rintro (h | ⟨hl, c, hc, d, hd, hk⟩)
        · exact Or.inl (Or.inl h)
        · rcases hd with hd | ⟨u, ⟨e, he, hu⟩, hd⟩
          · exact Or.inr ⟨hl, c, hc, d, Or.inl hd, hk⟩
          · rcases List.mem_cons.mp he with rfl | he
            · exact Or.inl (Or.inr ⟨hl, c, hc, d, Or.inr ⟨u, hu.symm, hd⟩, hk⟩)
            · exact Or.inr ⟨hl, c, hc, d, Or.inr ⟨u, ⟨e, he, hu⟩, hd⟩, hk⟩

/-! ### Step functions -/

theorem valD_mem {d : Ids} {k : Int} {v : Ids} {B : Map Ids} {y : Int} (h : k ≤ y) : ∃ e ∈ (k, v) :: B, valD d ((k, v) :: B) y = e.2 := by
  induction B generalizing k v d with
  | nil => exact ⟨(k, v), by simp, by simp [valD]; omega⟩
  | cons b B ih =>
    obtain ⟨bk, bv⟩ := b
    by_cases hb : bk ≤ y
    · obtain ⟨e, he, hv⟩ := ih (d := v) (v := bv) hb
      refine ⟨e, List.mem_cons_of_mem _ he, ?_⟩
      rw [valD, if_neg (by simp only; omega)]
      exact hv
    · refine ⟨(k, v), by simp, ?_⟩
      simp only [valD]
      rw [if_neg (by omega), if_pos (by omega)]

theorem valD_at {d : Ids} {L : Map Ids} (hs : Sorted L) {e : Int × Ids} (he : e ∈ L) : valD d L e.1 = e.2 := by
  induction L generalizing d with
  | nil => simp at he
  | cons a L ih =>
    have h := sorted_cons.mp hs
    rcases List.mem_cons.mp he with rfl | he
    · rw [valD, if_neg (lt_irrefl _)]
      cases L with
      | nil => rfl
      | cons b L => rw [valD, if_pos (h.1 b (by simp))]
    · have := h.1 e he
      rw [valD, if_neg (by omega)]
      exact ih h.2 he

theorem valD_map_upd (lead : Bool) (ids : Ids) (B : Map Ids) : ∀ (d : Ids) (y : Int), (∃ e ∈ B.head?, e.1 ≤ y) →
    valD d (B.map (upd lead ids)) y = (evalIvl lead (valD d B y, []) ids).1 := by
  induction B with
  | nil => intro d y h; simp at h
  | cons b B ih =>
    intro d y h
    have hb : b.1 ≤ y := by simpa using h
    simp only [List.map_cons, valD, upd]
    rw [if_neg (by omega), if_neg (by omega)]
    cases B with
    | nil => rfl
    | cons c B =>
      by_cases hc : c.1 ≤ y
      · have h1 := ih ((evalIvl lead (b.2, []) ids).1) y ⟨c, by simp, hc⟩
        rw [h1]
        simp only [valD]
        rw [if_neg (by omega), if_neg (by omega)]
      · simp only [List.map_cons, valD, upd]
        rw [if_pos (by omega), if_pos (by omega)]

theorem borderHigh_eq (lead : Bool) (g : Graph) {X C : Map Ids} {hi : Int} (ids : Ids) (hs : Sorted (X ++ C))
    (hX : KLt X hi) (hC : KGe C hi) :
    ∃ (K : Prop) (g1 : Graph), borderHigh lead g (X ++ C) (beginIt C) hi ids = some g1 ∧
      (¬ K → valD 0 (X ++ C) hi = valD 0 (X ++ C) (hi - 1)) ∧
      ∀ p, p ∈ g1 ↔ p ∈ g ∨ (K ∧ lead = true ∧ ∃ c ∈ ids, ∃ d ∈ valD 0 (X ++ C) hi, Link c d p) := by
  have hXl : ∀ e ∈ X, e.1 ≤ hi - 1 := fun e he => by have := hX e he; omega
  have hXl' : ∀ e ∈ X, e.1 ≤ hi := fun e he => by have := hX e he; omega
  cases C with
  | nil =>
    refine ⟨False, g, rfl, fun _ => ?_, by simp⟩
    rw [List.append_nil, valD_of_le hXl', valD_of_le hXl]
  | cons e C =>
    obtain ⟨k, v⟩ := e
    have hk := hC (k, v) (by simp)
    by_cases h : k = hi
    · subst h
      have hv : valAt (X ++ (k, v) :: C) k = some v := valAt_append hX
      have hval : valD 0 (X ++ (k, v) :: C) k = v := valD_at hs (e := (k, v)) (by simp)
      cases lead with
      | true =>
        refine ⟨True, border g v ids, ?_, fun h => absurd trivial h, fun p => ?_⟩
        · simp [borderHigh, beginIt, hv]
        · rw [mem_border, hval]; simp
      | false => exact ⟨True, g, by simp [borderHigh, beginIt], fun h => absurd trivial h, by simp⟩
    · simp only at hk
      have hlt : hi < k := by omega
      refine ⟨False, g, by simp [borderHigh, beginIt, hlt], fun _ => ?_, by simp⟩
      have hg : KGt ((k, v) :: C) hi := by
        intro x hx
        rcases List.mem_cons.mp hx with rfl | hx
        · exact hlt
        · have := (sorted_cons.mp (sorted_append.mp hs).2.1).1 x hx; simp only at this; omega
      rw [valD_append_left hg, valD_append_left (fun x hx => by have := hg x hx; omega), valD_of_le hXl', valD_of_le hXl]

theorem borderLow_eq (lead : Bool) (g : Graph) {A R : Map Ids} {lo k : Int} {v : Ids} (ids : Ids) (hs : Sorted (A ++ (k, v) :: R))
    (hA : KLt A lo) (hk : lo ≤ k) :
    ∃ (K : Prop) (g1 : Graph), borderLow lead g (A ++ (k, v) :: R) k lo ids = some g1 ∧
      (¬ K → lastVal 0 A = [] ∨ lo < k) ∧
      ∀ p, p ∈ g1 ↔ p ∈ g ∨ (K ∧ lead = true ∧ ∃ c ∈ ids, ∃ d ∈ lastVal (0 : Ids) A, Link c d p) := by
  unfold borderLow
  by_cases h : k > lo
  · rw [if_pos h]
    exact ⟨False, g, rfl, fun _ => Or.inr h, by simp⟩
  · rw [if_neg h]
    have hkl : k = lo := by omega
    subst hkl
    rcases eq_nil_or_snoc A with rfl | ⟨Y, p, rfl⟩
    · refine ⟨False, g, ?_, fun _ => Or.inl rfl, by simp⟩
      rw [if_neg (by simp [beginIt])]
    · have hb : some k ≠ beginIt (Y ++ [p] ++ (k, v) :: R) := by
        cases Y with
        | nil => have := hA p (by simp); simp [beginIt]; omega
        | cons q Y => have := hA q (by simp); simp [beginIt]; omega
      have hp : prevIt (Y ++ [p] ++ (k, v) :: R) (some k) = some p.1 := by
        have := prevIt_append (A := Y) (R := (k, v) :: R) (p := p) (by simpa using hs)
        simpa [beginIt] using this
      have hv : valAt (Y ++ [p] ++ (k, v) :: R) p.1 = some p.2 := by
        have : KLt Y p.1 := by
          intro x hx; exact (sorted_append.mp (sorted_append.mp hs).1).2.2 x hx p (by simp)
        have := valAt_append (R := (k, v) :: R) (v := p.2) this
        simpa using this
      cases lead with
      | true =>
        refine ⟨True, border g p.2 ids, ?_, fun h => absurd trivial h, fun q => ?_⟩
        · rw [if_pos (by simpa using hb), hp]
          simp only [Option.bind_eq_bind, Option.bind_some, hv]; rfl
        · rw [mem_border, lastVal_snoc]; simp
      | false => exact ⟨True, g, by simp, fun h => absurd trivial h, by simp⟩

/-- One interval of the scan. `S` is the step function of the scan before. -/
theorem processInterval_spec (lead : Bool) (g : Graph) (s : State Ids) (lo hi : Int) (ids : Ids) (hs : Sorted s.scan)
    (hz : lastVal (0 : Ids) s.scan = 0) (hn : NextOK s lo) (hlt : lo < hi) (hnd : ids.Nodup)
    (hl : lead = true → ∀ y, lo ≤ y → y < hi → ∀ c ∈ ids, c ∉ valD (0 : Ids) s.scan y)
    (ht : lead = false → ids ≠ [] ∧ ∀ y, lo ≤ y → y < hi → ∀ c ∈ ids, c ∈ valD (0 : Ids) s.scan y) :
    ∃ s' g', processInterval lead g s lo hi ids = some (s', g') ∧
      Sorted s'.scan ∧ lastVal (0 : Ids) s'.scan = 0 ∧ NextOK s' hi ∧
      (∀ y j, j ∈ valD 0 s'.scan y ↔ if lo ≤ y ∧ y < hi then (if lead then j ∈ valD 0 s.scan y ∨ j ∈ ids else j ∈ valD 0 s.scan y ∧ j ∉ ids)
        else j ∈ valD 0 s.scan y) ∧
      ∀ p, p ∈ g' ↔ p ∈ g ∨ Adds lead ids (fun v => ∃ y, lo - 1 ≤ y ∧ y ≤ hi ∧ v = valD 0 s.scan y) p := by
  obtain ⟨A, R, hm, hA, hR⟩ := split_at s.scan hs lo
  have hsR : Sorted R := by rw [hm, sorted_append] at hs; exact hs.2.1
  obtain ⟨B, C, rfl, hB2, hC⟩ := split_at R hsR hi
  have hB : KGe B lo := fun e he => hR e (by simp [he])
  have e1 := lookup_eq hn hm hs hA hR
  have e2 : lookup ⟨s.scan, beginIt (B ++ C)⟩ hi = (beginIt C, ⟨s.scan, beginIt C⟩) := by
    apply lookup_eq (A := A ++ B)
    · exact ⟨A, B ++ C, hm, rfl, fun e he => by have := hA e he; omega⟩
    · simp [hm]
    · exact hs
    · intro x hx
      rcases List.mem_append.mp hx with hx | hx
      · have := hA x hx; omega
      · exact hB2 x hx
    · exact hC
  unfold processInterval
  rw [e1]
  simp only
  rw [e2]
  simp only
  rcases hlk : beginIt (B ++ C) with _ | lowK
  · -- past the end
    have hBC : B ++ C = [] := by
      cases h : B ++ C with
      | nil => rfl
      | cons e r => rw [h] at hlk; simp [beginIt] at hlk
    obtain ⟨rfl, rfl⟩ := List.append_eq_nil_iff.mp hBC
    simp only [List.append_nil] at hm
    have hv0 : ∀ y, lo - 1 ≤ y → valD 0 s.scan y = 0 := by
      intro y hy
      rw [valD_of_le, hz]
      intro e he; rw [hm] at he; have := hA e he; omega
    have hlead : lead = true := by
      by_contra h
      obtain ⟨h1, h2⟩ := ht (by simpa using h)
      obtain ⟨c, hc⟩ := List.exists_mem_of_ne_nil _ h1
      have := h2 lo (le_refl _) hlt c hc
      rw [hv0 lo (by omega)] at this
      exact absurd this (by show c ∉ ([] : List Nat); simp)
    subst hlead
    have i1 : insertKV A lo ids = A ++ [(lo, ids)] := by
      have := insertKV_append (R := []) (v := ids) hA (by simp [KGt])
      simpa using this
    have hA2 : KLt (A ++ [(lo, ids)]) hi := by
      intro x hx
      rcases List.mem_append.mp hx with hx | hx
      · have := hA x hx; omega
      · simp at hx; rw [hx]; exact hlt
    have i2 : insertKV (A ++ [(lo, ids)]) hi (0 : Ids) = A ++ [(lo, ids)] ++ [(hi, 0)] := by
      have := insertKV_append (R := []) (v := (0 : Ids)) hA2 (by simp [KGt])
      simpa using this
    refine ⟨⟨A ++ [(lo, ids)] ++ [(hi, 0)], some hi⟩, border g ids ids, ?_, ?_, ?_, ?_, ?_, ?_⟩
    · rw [insert_of_valid (s := ⟨s.scan, beginIt []⟩) (by rfl)]
      simp only [hm, i1, Option.bind_eq_bind, Option.bind_some]
      rw [insert_of_valid (validIt_mem (e := (lo, ids)) (by simp))]
      simp only [Option.bind_some, i2]; rfl
    · rw [sorted_append, sorted_append]
      rw [hm] at hs
      refine ⟨⟨hs, by simp [Sorted], ?_⟩, by simp [Sorted], ?_⟩
      · intro a ha b hb; simp at hb; rw [hb]; exact hA a ha
      · intro a ha b hb; simp at hb; rw [hb]; exact hA2 a ha
    · exact lastVal_snoc
    · exact ⟨A ++ [(lo, ids)], [(hi, 0)], rfl, rfl, hA2⟩
    · intro y j
      simp only
      by_cases c1 : y < lo
      · rw [if_neg (by omega), List.append_assoc, valD_append_left, hm]
        intro x hx; simp at hx; rcases hx with rfl | rfl
        · exact c1
        · simp only; omega
      · have hle : ∀ e ∈ A, e.1 ≤ y := fun e he => by have := hA e he; omega
        rw [List.append_assoc, valD_append_right hle]
        simp only [List.cons_append, List.nil_append, valD, if_neg c1]
        rw [hv0 y (by omega)]
        by_cases c2 : y < hi
        · rw [if_pos c2, if_pos (by omega)]
          rw [if_pos trivial]
          show j ∈ ids ↔ j ∈ ([] : List Nat) ∨ j ∈ ids
          simp
        · rw [if_neg c2, if_neg (by omega)]
    · intro p
      rw [mem_border]
      unfold Adds
      constructor
      · rintro (h | ⟨c, hc, d, hd, hk⟩)
        · exact Or.inl h
        · exact Or.inr ⟨rfl, c, hc, d, Or.inl hd, hk⟩
      · rintro (h | ⟨-, c, hc, d, hd, hk⟩)
        · exact Or.inl h
        · rcases hd with hd | ⟨v, ⟨y, h1, h2, rfl⟩, hd⟩
          · exact Or.inr ⟨c, hc, d, hd, hk⟩
          · rw [hv0 y h1] at hd
            exact absurd hd (by show d ∉ ([] : List Nat); simp)
  · rw [hm] at hs hz
    obtain ⟨s1, u, B', w, C', n', f1, f2, f3, f4, f5⟩ :=
      splits_eq (n := beginIt C) hs hA hB hB2 hC hlt hlk hz
    have hX : KLt (A ++ B) hi := by
      intro x hx
      rcases List.mem_append.mp hx with hx | hx
      · have := hA x hx; omega
      · exact hB2 x hx
    have hsX : Sorted (A ++ B ++ C) := by simpa using hs
    have hne : A ++ B ++ C ≠ [] := by
      intro h
      simp only [List.append_eq_nil_iff] at h
      obtain ⟨⟨rfl, rfl⟩, rfl⟩ := h
      simp [beginIt] at hlk
    obtain ⟨w', D', n2, q1, q2, q3, q4⟩ := splitHigh_eq (n := beginIt C) hsX hX hC hne
    have hs1 : s1 = ⟨A ++ B ++ (hi, w') :: D', n2⟩ := by
      rw [List.append_assoc] at q1
      rw [q1] at f1
      exact (Prod.mk.inj (Option.some.inj f1)).1.symm
    obtain ⟨KH, gH, bh1, bh2, bh3⟩ := borderHigh_eq lead g ids hsX hX hC
    rw [List.append_assoc] at bh1 bh2 bh3
    -- the element `lowItr` in the map after the upper split
    have hlow : ∃ v R', s1.scan = A ++ (lowK, v) :: R' ∨ (∃ v', s1.scan = A ++ (hi, v') :: (lowK, v) :: R' ∧ lo < lowK) := by
      rw [hs1]
      cases B with
      | cons b B =>
        simp only [List.cons_append, beginIt, List.head?_cons, Option.map_some, Option.some.injEq] at hlk
        exact ⟨b.2, B ++ (hi, w') :: D', Or.inl (by simp [← hlk])⟩
      | nil =>
        cases C with
        | nil => simp [beginIt] at hlk
        | cons c C =>
          simp only [List.nil_append, beginIt, List.head?_cons, Option.map_some, Option.some.injEq] at hlk
          rcases q4 with q4 | ⟨q4, -⟩
          · refine ⟨c.2, D', Or.inl ?_⟩
            have : c = (hi, w') := (List.cons.inj q4).1
            rw [← hlk, this]; simp
          · refine ⟨c.2, C, Or.inr ⟨w', ?_, ?_⟩⟩
            · rw [← q4, ← hlk]; simp
            · have := q2 c (by rw [← q4]; simp)
              omega
    have hsS1 : Sorted s1.scan := by
      rw [hs1]
      have h := sorted_append.mp hsX
      rw [sorted_append, sorted_cons]
      refine ⟨h.1, ⟨q2, ?_⟩, ?_⟩
      · rcases q4 with q4 | ⟨q4, -⟩
        · rw [q4] at h; exact (sorted_cons.mp h.2.1).2
        · rw [← q4]; exact h.2.1
      · intro a ha b hb
        rcases List.mem_cons.mp hb with rfl | hb
        · exact hX a ha
        · have h1 := hX a ha
          have h2 := q2 b hb
          omega
    have hlowK : lo ≤ lowK := by
      cases hBC : B ++ C with
      | nil => rw [hBC] at hlk; simp [beginIt] at hlk
      | cons e r =>
        have := hR e (by rw [hBC]; simp)
        rw [hBC] at hlk
        simp only [beginIt, List.head?_cons, Option.map_some, Option.some.injEq] at hlk
        omega
    obtain ⟨KL, gL, bl1, bl2, bl3⟩ : ∃ (K : Prop) (g1 : Graph), borderLow lead gH s1.scan lowK lo ids = some g1 ∧
      (¬ K → lastVal (0 : Ids) A = [] ∨ lo < lowK) ∧
      ∀ p, p ∈ g1 ↔ p ∈ gH ∨ (K ∧ lead = true ∧ ∃ c ∈ ids, ∃ d ∈ lastVal (0 : Ids) A, Link c d p) := by
      obtain ⟨v, R', h | ⟨v', h, hlt'⟩⟩ := hlow
      · rw [h] at hsS1 ⊢
        exact borderLow_eq lead gH ids hsS1 hA hlowK
      · refine ⟨False, gH, ?_, fun _ => Or.inr hlt', by simp⟩
        unfold borderLow
        rw [if_pos hlt']
    have hs3 := sorted_append.mp f3
    have hs4 := sorted_append.mp hs3.1
    have hAhi : KLt (A ++ (lo, u) :: B') hi := fun e he => hs3.2.2 e he (hi, w) (by simp)
    have hB' : KGt B' lo := (sorted_cons.mp hs4.2.1).1
    have hC' : KGt C' hi := (sorted_cons.mp hs3.2.1).1
    -- the elements between `lo` and `hi` hold the values of the step function
    have hSmid : ∀ y, lo ≤ y → y < hi → valD 0 s.scan y = valD (lastVal 0 A) ((lo, u) :: B') y := by
      intro y h1 h2
      rw [hm, ← f5 y]
      have hle : ∀ e ∈ A, e.1 ≤ y := fun e he => by have := hA e he; omega
      rw [List.append_assoc, valD_append_right hle, valD_append_left]
      intro x hx
      rcases List.mem_cons.mp hx with rfl | hx
      · exact h2
      · have := hC' x hx; omega
    have hSe : ∀ e ∈ (lo, u) :: B', valD 0 s.scan e.1 = e.2 ∧ lo ≤ e.1 ∧ e.1 < hi := by
      intro e he
      have h1 : lo ≤ e.1 := by
        rcases List.mem_cons.mp he with rfl | he
        · exact le_refl _
        · have := hB' e he; omega
      have h2 : e.1 < hi := hAhi e (List.mem_append_right _ he)
      exact ⟨by rw [hSmid _ h1 h2]; exact valD_at hs4.2.1 he, h1, h2⟩
    have hSlow : valD 0 s.scan (lo - 1) = lastVal (0 : Ids) A := by
      rw [hm, valD_append_left (fun e he => by have := hR e he; omega), valD_of_le]
      intro e he; have := hA e he; omega
    obtain ⟨gW, f6, f7⟩ := walk_eq lead ids hnd hi w C' B' A lo u ((A ++ (lo, u) :: B' ++ (hi, w) :: C').length + 1) gL f3
      (by simp; omega) (fun h e he c hc => by
        obtain ⟨h1, h2, h3⟩ := hSe e he
        rw [← h1]; exact hl h _ h2 h3 c hc)
    have hmap : ∀ (e : Int × Ids) (L : Map Ids), e ∈ L.map (upd lead ids) → ∃ x ∈ L, x.1 = e.1 := by
      intro e L he
      obtain ⟨x, hx, rfl⟩ := List.mem_map.mp he
      exact ⟨x, hx, rfl⟩
    have hsm : Sorted (A ++ ((lo, u) :: B').map (upd lead ids) ++ (hi, w) :: C') := by
      rw [sorted_append, sorted_append]
      refine ⟨⟨hs4.1, ?_, ?_⟩, hs3.2.1, ?_⟩
      · exact List.Pairwise.map _ (fun a b h => h) hs4.2.1
      · intro a ha b hb
        obtain ⟨x, hx, hxe⟩ := hmap b _ hb
        rw [← hxe]; exact hs4.2.2 a ha x hx
      · intro a ha b hb
        rcases List.mem_append.mp ha with ha | ha
        · exact hs3.2.2 a (by simp [ha]) b hb
        · obtain ⟨x, hx, hxe⟩ := hmap a _ ha
          rw [← hxe]; exact hs3.2.2 x (List.mem_append_right _ hx) b hb
    obtain ⟨B2, g1, g2, g3, g4⟩ := mergeLow_eq (A := A) (B := B'.map (upd lead ids))
      (R := (hi, w) :: C') (lo := lo) (u := (evalIvl lead (u, []) ids).1) (by simpa [upd] using hsm)
    have hsB2 : Sorted (A ++ B2 ++ (hi, w) :: C') := by
      rcases g3 with rfl | rfl
      · simpa [upd] using hsm
      · simp only [List.append_assoc, List.map_cons, List.cons_append] at hsm ⊢
        have h := sorted_append.mp hsm
        rw [sorted_append]
        exact ⟨h.1, (sorted_cons.mp h.2.1).2, fun a ha b hb => h.2.2 a ha b (by simp at hb ⊢; right; exact hb)⟩
    obtain ⟨C2, k1, k2, k3, k4⟩ := mergeHigh_eq hsB2 g2 f4
    have hX2 : KLt (A ++ B2) hi := fun e he => (sorted_append.mp hsB2).2.2 e he (hi, w) (by simp)
    have hval : ∀ y, valD 0 (A ++ B2 ++ C2) y =
        if lo ≤ y ∧ y < hi then (evalIvl lead (valD 0 s.scan y, []) ids).1 else valD 0 s.scan y := by
      intro y
      rw [k4, g4]
      by_cases c1 : y < lo
      · rw [if_neg (by omega), hm, ← f5 y, List.append_assoc, List.append_assoc, valD_append_left, valD_append_left]
        · intro x hx
          simp only [List.cons_append] at hx
          rcases List.mem_cons.mp hx with rfl | hx
          · exact c1
          · rcases List.mem_append.mp hx with hx | hx
            · have := hB' x hx; omega
            · rcases List.mem_cons.mp hx with rfl | hx
              · simp only; omega
              · have := hC' x hx; omega
        · intro x hx
          simp only [List.cons_append] at hx
          rcases List.mem_cons.mp hx with rfl | hx
          · exact c1
          · rcases List.mem_append.mp hx with hx | hx
            · obtain ⟨z, hz, hze⟩ := hmap x _ hx
              have := hB' z hz; omega
            · rcases List.mem_cons.mp hx with rfl | hx
              · simp only; omega
              · have := hC' x hx; omega
      · have hle : ∀ e ∈ A, e.1 ≤ y := fun e he => by have := hA e he; omega
        by_cases c2 : y < hi
        · rw [if_pos (by omega), hSmid y (by omega) c2]
          have hg : KGt ((hi, w) :: C') y := by
            intro x hx
            rcases List.mem_cons.mp hx with rfl | hx
            · exact c2
            · have := hC' x hx; omega
          rw [List.append_assoc, valD_append_right hle, valD_append_left hg,
            ← valD_map_upd lead ids ((lo, u) :: B') _ y ⟨(lo, u), by simp, by simp only; omega⟩]
          rfl
        · rw [if_neg (by omega), hm, ← f5 y]
          have h1 : ∀ e ∈ (lo, u) :: B', e.1 ≤ y := fun e he => by have := hAhi e (List.mem_append_right _ he); omega
          have h2 : ∀ e ∈ ((lo, (evalIvl lead (u, []) ids).1) :: B'.map (upd lead ids)), e.1 ≤ y := by
            intro e he
            rcases List.mem_cons.mp he with rfl | he
            · simp only; omega
            · obtain ⟨z, hz, hze⟩ := hmap e _ he
              have := h1 z (List.mem_cons_of_mem _ hz); omega
          rw [List.append_assoc, List.append_assoc, valD_append_right hle, valD_append_right hle, valD_append_right h1, valD_append_right h2]
          simp only [valD, if_neg c2]
    refine ⟨⟨A ++ B2 ++ C2, beginIt C2⟩, gW, ?_, k2, k3, ⟨A ++ B2, C2, rfl, rfl, hX2⟩, ?_, ?_⟩
    · simp only [hm, bh1, f1, Option.bind_eq_bind, Option.bind_some, bl1, f2, f6]
      rw [show A ++ ((lo, u) :: B').map (upd lead ids) ++ (hi, w) :: C' =
        A ++ (lo, (evalIvl lead (u, []) ids).1) :: B'.map (upd lead ids) ++ (hi, w) :: C' from by simp [upd]]
      rw [g1, Option.bind_some, k1]
      simp
    · intro y j
      rw [hval]
      by_cases c : lo ≤ y ∧ y < hi
      · rw [if_pos c, if_pos c]
        cases lead with
        | true => rw [if_pos rfl]; exact (evalIvl_lead ids _ [] hnd (hl rfl y c.1 c.2)).1 j
        | false => rw [if_neg (by simp)]; exact (evalIvl_trail ids _ []).1 j
      · rw [if_neg c, if_neg c]
    · intro p
      rw [f7, bl3, bh3]
      unfold Adds
      constructor
      · rintro (((h | ⟨-, hl, c, hc, d, hd, hk⟩) | ⟨-, hl, c, hc, d, hd, hk⟩) | ⟨hl, c, hc, d, hd, hk⟩)
        · exact Or.inl h
        · refine Or.inr ⟨hl, c, hc, d, Or.inr ⟨_, ⟨hi, by omega, le_refl _, rfl⟩, ?_⟩, hk⟩
          rw [hm]; exact hd
        · refine Or.inr ⟨hl, c, hc, d, Or.inr ⟨_, ⟨lo - 1, le_refl _, by omega, rfl⟩, ?_⟩, hk⟩
          rw [hSlow]; exact hd
        · refine Or.inr ⟨hl, c, hc, d, ?_, hk⟩
          rcases hd with hd | ⟨v, ⟨e, he, rfl⟩, hd⟩
          · exact Or.inl hd
          · obtain ⟨h1, h2, h3⟩ := hSe e he
            exact Or.inr ⟨_, ⟨e.1, by omega, by omega, rfl⟩, by rw [h1]; exact hd⟩
      · rintro (h | ⟨hld, c, hc, d, hd, hk⟩)
        · exact Or.inl (Or.inl (Or.inl h))
        · have mid : ∀ y, lo ≤ y → y < hi → d ∈ valD 0 s.scan y → ∃ v, (∃ e ∈ (lo, u) :: B', e.2 = v) ∧ d ∈ v := by
            intro y h1 h2 h3
            rw [hSmid y h1 h2] at h3
            obtain ⟨e, he, hv⟩ := valD_mem (d := lastVal 0 A) (v := u) (B := B') h1
            rw [hv] at h3
            exact ⟨e.2, ⟨e, he, rfl⟩, h3⟩
          rcases hd with hd | ⟨v, ⟨y, h1, h2, rfl⟩, hd⟩
          · exact Or.inr ⟨hld, c, hc, d, Or.inl hd, hk⟩
          · by_cases y1 : y = lo - 1
            · subst y1
              by_cases hKL : KL
              · rw [hSlow] at hd
                exact Or.inl (Or.inr ⟨hKL, hld, c, hc, d, hd, hk⟩)
              · rcases bl2 hKL with h | h
                · rw [hSlow, h] at hd; simp at hd
                · -- no element at `lo`: the value continues
                  have : valD 0 s.scan (lo - 1) = valD 0 s.scan lo := by
                    rw [hSlow, hm, valD_append_left, valD_of_le]
                    · intro e he; have := hA e he; omega
                    · intro e he
                      have : lowK ≤ e.1 := by
                        cases hBC : B ++ C with
                        | nil => rw [hBC] at he; simp at he
                        | cons e' r =>
                          rw [hBC] at hlk he hsR
                          simp only [beginIt, List.head?_cons, Option.map_some, Option.some.injEq] at hlk
                          rcases List.mem_cons.mp he with rfl | he
                          · omega
                          · have := (sorted_cons.mp hsR).1 e he; omega
                      omega
                  rw [this] at hd
                  exact Or.inr ⟨hld, c, hc, d, Or.inr (mid lo (le_refl _) hlt hd), hk⟩
            · by_cases y2 : y = hi
              · subst y2
                by_cases hKH : KH
                · rw [hm] at hd
                  exact Or.inl (Or.inl (Or.inr ⟨hKH, hld, c, hc, d, hd, hk⟩))
                · have := bh2 hKH
                  rw [hm, this, ← hm] at hd
                  exact Or.inr ⟨hld, c, hc, d, Or.inr (mid (y - 1) (by omega) (by omega) hd), hk⟩
              · exact Or.inr ⟨hld, c, hc, d, Or.inr (mid y (by omega) (by omega) hd), hk⟩

end Verif.Touch
