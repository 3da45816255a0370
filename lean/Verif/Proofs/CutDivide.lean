import Verif.Proofs.CutChain
/-! What the search for cutting points finds. -/
namespace Verif.Cut
open Verif Verif.Arb Verif.Contains Verif.PolySet Verif.Spec Verif.Spec.Arb

theorem mem_add (ip : Pts) (i j : Nat) (p q : Pt) : p ∈ ip.add i q j ↔ p ∈ ip j ∨ (j = i ∧ p = q) := by
  unfold Pts.add
  by_cases c : j = i
  · rw [if_pos c, queueInsert_mem]; tauto
  · rw [if_neg c]; tauto

theorem srt_add {ip : Pts} (i : Nat) (q : Pt) (h : ∀ j, (ip j).Pairwise plt) : ∀ j, (ip.add i q j).Pairwise plt := by
  intro j
  unfold Pts.add
  split_ifs
  · exact queueInsert_srt _ _ (h j)
  · exact h j

/-! ### The inner loop -/

/-- Every point the state has after comes from before or from an intersection. -/
theorem inner_sound (fp : FP) (minY : Int) (o : Seg) : ∀ (l : List Seg) (s : Pts × List Pt),
    (∀ j p, p ∈ (inner fp minY o l s).1 j → p ∈ s.1 j ∨ ∃ f ∈ l, computeIntersection fp o.1 f.1 = some p ∧ (j = f.2 ∨ j = o.2)) ∧
    (∀ p ∈ (inner fp minY o l s).2, p ∈ s.2 ∨ ∃ f ∈ l, computeIntersection fp o.1 f.1 = some p) := by
  intro l
  induction l with
  | nil => intro s; exact ⟨fun j p hp => Or.inl hp, fun p hp => Or.inl hp⟩
  | cons f r ih =>
    intro s
    have skip : (∀ j p, p ∈ (inner fp minY o r s).1 j → p ∈ s.1 j ∨ ∃ g ∈ f :: r, computeIntersection fp o.1 g.1 = some p ∧ (j = g.2 ∨ j = o.2)) ∧
        (∀ p ∈ (inner fp minY o r s).2, p ∈ s.2 ∨ ∃ g ∈ f :: r, computeIntersection fp o.1 g.1 = some p) := by
      obtain ⟨h1, h2⟩ := ih s
      refine ⟨fun j p hp => ?_, fun p hp => ?_⟩
      · rcases h1 j p hp with h | ⟨g, h3, h4⟩
        · exact Or.inl h
        · exact Or.inr ⟨g, List.mem_cons_of_mem _ h3, h4⟩
      · rcases h2 p hp with h | ⟨g, h3, h4⟩
        · exact Or.inl h
        · exact Or.inr ⟨g, List.mem_cons_of_mem _ h3, h4⟩
    rw [inner]
    by_cases c1 : (above minY o.1 || above minY f.1) = true
    · rw [if_pos c1]
      by_cases c2 : o.1 = f.1
      · rw [if_pos c2]; exact skip
      · rw [if_neg c2]
        by_cases c3 : min f.1.1.1 f.1.2.1 ≥ max o.1.2.1 o.1.1.1
        · rw [if_pos c3]; exact ⟨fun j p hp => Or.inl hp, fun p hp => Or.inl hp⟩
        · rw [if_neg c3]
          by_cases c4 : o.1.1 = f.1.1 ∨ o.1.2 = f.1.2
          · rw [if_pos c4]; exact skip
          · rw [if_neg c4]
            match hc : computeIntersection fp o.1 f.1 with
            | none => exact skip
            | some x =>
              obtain ⟨h1, h2⟩ := ih ((s.1.add f.2 x).add o.2 x, s.2 ++ [x])
              refine ⟨fun j p hp => ?_, fun p hp => ?_⟩
              · rcases h1 j p hp with h | ⟨g, h3, h4⟩
                · rw [mem_add, mem_add] at h
                  rcases h with (h | ⟨h, rfl⟩) | ⟨h, rfl⟩
                  · exact Or.inl h
                  · exact Or.inr ⟨f, List.mem_cons_self .., hc, Or.inl h⟩
                  · exact Or.inr ⟨f, List.mem_cons_self .., hc, Or.inr h⟩
                · exact Or.inr ⟨g, List.mem_cons_of_mem _ h3, h4⟩
              · rcases h2 p hp with h | ⟨g, h3, h4⟩
                · rcases List.mem_append.1 h with h | h
                  · exact Or.inl h
                  · rw [List.mem_singleton] at h; subst h; exact Or.inr ⟨f, List.mem_cons_self .., hc⟩
                · exact Or.inr ⟨g, List.mem_cons_of_mem _ h3, h4⟩
    · rw [if_neg c1]; exact skip

/-- Points are only added, and the sets stay sorted. -/
theorem inner_mono (fp : FP) (minY : Int) (o : Seg) : ∀ (l : List Seg) (s : Pts × List Pt),
    (∀ j p, p ∈ s.1 j → p ∈ (inner fp minY o l s).1 j) ∧ (∀ p ∈ s.2, p ∈ (inner fp minY o l s).2) ∧
    ((∀ j, (s.1 j).Pairwise plt) → ∀ j, ((inner fp minY o l s).1 j).Pairwise plt) := by
  intro l
  induction l with
  | nil => intro s; exact ⟨fun j p hp => hp, fun p hp => hp, fun h => h⟩
  | cons f r ih =>
    intro s
    rw [inner]
    split_ifs
    · exact ih s
    · exact ⟨fun j p hp => hp, fun p hp => hp, fun h => h⟩
    · exact ih s
    · match computeIntersection fp o.1 f.1 with
      | none => exact ih s
      | some x =>
        obtain ⟨h1, h2, h3⟩ := ih ((s.1.add f.2 x).add o.2 x, s.2 ++ [x])
        refine ⟨fun j p hp => h1 j p ?_, fun p hp => h2 p ?_, fun h => h3 ?_⟩
        · rw [mem_add, mem_add]; exact Or.inl (Or.inl hp)
        · exact List.mem_append_left _ hp
        · exact srt_add _ _ (srt_add _ _ h)
    · exact ih s

/-- The left end of an edge. -/
def minX (e : HE) : Int := min e.1.1 e.2.1
def maxX (e : HE) : Int := max e.1.1 e.2.1

/-- Pairs that are compared. -/
def Compared (minY : Int) (o f : HE) : Prop :=
  (above minY o = true ∨ above minY f = true) ∧ o ≠ f ∧ minX f < maxX o ∧ o.1 ≠ f.1 ∧ o.2 ≠ f.2

theorem inner_complete (fp : FP) (minY : Int) (o : Seg) : ∀ (l : List Seg) (s : Pts × List Pt), l.Pairwise (fun a b => minX a.1 ≤ minX b.1) →
    ∀ f ∈ l, Compared minY o.1 f.1 → ∀ p, computeIntersection fp o.1 f.1 = some p →
    p ∈ (inner fp minY o l s).1 o.2 ∧ p ∈ (inner fp minY o l s).1 f.2 ∧ p ∈ (inner fp minY o l s).2 := by
  intro l
  induction l with
  | nil => intro s _ f hf; simp at hf
  | cons g r ih =>
    intro s hs f hf hc p hp
    rw [List.pairwise_cons] at hs
    rw [inner]
    obtain ⟨k1, k2, k3, k4, k5⟩ := hc
    rcases List.mem_cons.1 hf with rfl | hf'
    · rw [if_pos (by rw [Bool.or_eq_true]; exact k1), if_neg k2,
        if_neg (by unfold minX maxX at k3; omega), if_neg (by rintro (h | h); exacts [k4 h, k5 h])]
      simp only [hp]
      obtain ⟨h1, h2, _⟩ := inner_mono fp minY o r ((s.1.add f.2 p).add o.2 p, s.2 ++ [p])
      refine ⟨h1 _ _ ?_, h1 _ _ ?_, h2 _ ?_⟩
      · rw [mem_add]; exact Or.inr ⟨rfl, rfl⟩
      · rw [mem_add, mem_add]; exact Or.inl (Or.inr ⟨rfl, rfl⟩)
      · simp
    · have ih' := fun s => ih s hs.2 f hf' ⟨k1, k2, k3, k4, k5⟩ p hp
      have hm := hs.1 f hf'
      split_ifs with c1 c2 c3 c4
      · exact ih' s
      · unfold minX maxX at *; omega
      · exact ih' s
      · match computeIntersection fp o.1 g.1 with
        | none => exact ih' s
        | some x => exact ih' _
      · exact ih' s

/-! ### The outer loop -/

theorem outer_mono (fp : FP) (minY : Int) : ∀ (l : List Seg) (s : Pts × List Pt),
    (∀ j p, p ∈ s.1 j → p ∈ (outer fp minY l s).1 j) ∧ (∀ p ∈ s.2, p ∈ (outer fp minY l s).2) ∧
    ((∀ j, (s.1 j).Pairwise plt) → ∀ j, ((outer fp minY l s).1 j).Pairwise plt) := by
  intro l
  induction l with
  | nil => intro s; exact ⟨fun j p hp => hp, fun p hp => hp, fun h => h⟩
  | cons o r ih =>
    intro s
    rw [outer]
    obtain ⟨h1, h2, h3⟩ := ih (inner fp minY o (o :: r) (s.1, s.2 ++ [o.1.1, o.1.2] ++ (s.1 o.2).filter (fun p => decide (p.2 ≥ minY))))
    obtain ⟨g1, g2, g3⟩ := inner_mono fp minY o (o :: r) (s.1, s.2 ++ [o.1.1, o.1.2] ++ (s.1 o.2).filter (fun p => decide (p.2 ≥ minY)))
    exact ⟨fun j p hp => h1 j p (g1 j p hp), fun p hp => h2 p (g2 p (by simp [hp])), fun h => h3 (g3 h)⟩

theorem outer_sound (fp : FP) (minY : Int) : ∀ (l : List Seg) (s : Pts × List Pt),
    (∀ j p, p ∈ (outer fp minY l s).1 j → p ∈ s.1 j ∨ ∃ o ∈ l, ∃ f ∈ l, computeIntersection fp o.1 f.1 = some p ∧ (j = f.2 ∨ j = o.2)) ∧
    (∀ p ∈ (outer fp minY l s).2, p ∈ s.2 ∨ ∃ o ∈ l, p = o.1.1 ∨ p = o.1.2 ∨ p ∈ s.1 o.2 ∨ ∃ f ∈ l, ∃ g ∈ l, computeIntersection fp f.1 g.1 = some p) := by
  intro l
  induction l with
  | nil => intro s; exact ⟨fun j p hp => Or.inl hp, fun p hp => Or.inl hp⟩
  | cons o r ih =>
    intro s
    rw [outer]
    generalize hs0 : ((s.1, s.2 ++ [o.1.1, o.1.2] ++ (s.1 o.2).filter (fun p => decide (p.2 ≥ minY))) : Pts × List Pt) = s0
    obtain ⟨i1, i2⟩ := inner_sound fp minY o (o :: r) s0
    obtain ⟨h1, h2⟩ := ih (inner fp minY o (o :: r) s0)
    have e1 : s0.1 = s.1 := by rw [← hs0]
    have e2 : s0.2 = s.2 ++ [o.1.1, o.1.2] ++ (s.1 o.2).filter (fun p => decide (p.2 ≥ minY)) := by rw [← hs0]
    have ho : o ∈ o :: r := List.mem_cons_self ..
    rw [e1] at i1
    refine ⟨fun j p hp => ?_, fun p hp => ?_⟩
    · rcases h1 j p hp with h | ⟨a, ha, b, hb, h⟩
      · rcases i1 j p h with h | ⟨f, hf, h⟩
        · exact Or.inl h
        · exact Or.inr ⟨o, ho, f, hf, h⟩
      · exact Or.inr ⟨a, List.mem_cons_of_mem _ ha, b, List.mem_cons_of_mem _ hb, h⟩
    · rcases h2 p hp with h | ⟨a, ha, h⟩
      · rcases i2 p h with h | ⟨f, hf, h⟩
        · rw [e2] at h
          rcases List.mem_append.1 h with h | h
          · rcases List.mem_append.1 h with h | h
            · exact Or.inl h
            · refine Or.inr ⟨o, ho, ?_⟩
              simp only [List.mem_cons, List.not_mem_nil, or_false] at h
              tauto
          · exact Or.inr ⟨o, ho, Or.inr (Or.inr (Or.inl (List.mem_filter.1 h).1))⟩
        · exact Or.inr ⟨o, ho, Or.inr (Or.inr (Or.inr ⟨o, ho, f, hf, h⟩))⟩
      · right
        rcases h with h | h | h | ⟨b, hb, c, hc, h⟩
        · exact ⟨a, List.mem_cons_of_mem _ ha, Or.inl h⟩
        · exact ⟨a, List.mem_cons_of_mem _ ha, Or.inr (Or.inl h)⟩
        · rcases i1 _ p h with h | ⟨f, hf, h, _⟩
          · exact ⟨a, List.mem_cons_of_mem _ ha, Or.inr (Or.inr (Or.inl h))⟩
          · exact ⟨o, ho, Or.inr (Or.inr (Or.inr ⟨o, ho, f, hf, h⟩))⟩
        · exact ⟨a, List.mem_cons_of_mem _ ha, Or.inr (Or.inr (Or.inr ⟨b, List.mem_cons_of_mem _ hb, c, List.mem_cons_of_mem _ hc, h⟩))⟩

theorem outer_points (fp : FP) (minY : Int) : ∀ (l : List Seg) (s : Pts × List Pt), ∀ o ∈ l,
    o.1.1 ∈ (outer fp minY l s).2 ∧ o.1.2 ∈ (outer fp minY l s).2 ∧ ∀ p ∈ s.1 o.2, minY ≤ p.2 → p ∈ (outer fp minY l s).2 := by
  intro l
  induction l with
  | nil => intro s o ho; simp at ho
  | cons a r ih =>
    intro s o ho
    rw [outer]
    generalize hs0 : ((s.1, s.2 ++ [a.1.1, a.1.2] ++ (s.1 a.2).filter (fun p => decide (p.2 ≥ minY))) : Pts × List Pt) = s0
    obtain ⟨i1, i2, _⟩ := inner_mono fp minY a (a :: r) s0
    obtain ⟨h1, h2, _⟩ := outer_mono fp minY r (inner fp minY a (a :: r) s0)
    have e1 : s0.1 = s.1 := by rw [← hs0]
    have e2 : s0.2 = s.2 ++ [a.1.1, a.1.2] ++ (s.1 a.2).filter (fun p => decide (p.2 ≥ minY)) := by rw [← hs0]
    rcases List.mem_cons.1 ho with rfl | ho
    · refine ⟨h2 _ (i2 _ ?_), h2 _ (i2 _ ?_), fun p hp hy => h2 _ (i2 _ ?_)⟩
      · rw [e2]; simp
      · rw [e2]; simp
      · rw [e2]; exact List.mem_append_right _ (List.mem_filter.2 ⟨hp, by simpa using hy⟩)
    · obtain ⟨g1, g2, g3⟩ := ih (inner fp minY a (a :: r) s0) o ho
      exact ⟨g1, g2, fun p hp hy => g3 p (i1 _ _ (by rw [e1]; exact hp)) hy⟩

theorem outer_complete (fp : FP) (minY : Int) : ∀ (l : List Seg) (s : Pts × List Pt), l.Pairwise (fun a b => minX a.1 ≤ minX b.1) →
    ∀ A o B f, l = A ++ o :: B → f ∈ B → Compared minY o.1 f.1 → ∀ p, computeIntersection fp o.1 f.1 = some p →
    p ∈ (outer fp minY l s).1 o.2 ∧ p ∈ (outer fp minY l s).1 f.2 ∧ p ∈ (outer fp minY l s).2 := by
  intro l
  induction l with
  | nil => intro s _ A o B f h; simp at h
  | cons a r ih =>
    intro s hs A o B f h hf hc p hp
    rw [outer]
    generalize ((s.1, s.2 ++ [a.1.1, a.1.2] ++ (s.1 a.2).filter (fun p => decide (p.2 ≥ minY))) : Pts × List Pt) = s0
    obtain ⟨h1, h2, _⟩ := outer_mono fp minY r (inner fp minY a (a :: r) s0)
    cases A with
    | nil =>
      simp only [List.nil_append, List.cons.injEq] at h
      obtain ⟨rfl, rfl⟩ := h
      obtain ⟨g1, g2, g3⟩ := inner_complete fp minY a (a :: r) s0 hs f (List.mem_cons_of_mem _ hf) hc p hp
      exact ⟨h1 _ _ g1, h1 _ _ g2, h2 _ g3⟩
    | cons b A =>
      simp only [List.cons_append, List.cons.injEq] at h
      obtain ⟨rfl, rfl⟩ := h
      exact ih _ (List.pairwise_cons.1 hs).2 A o B f rfl hf hc p hp

/-! ### The second loop -/

theorem grid_inBox {p : Pt} {e : HE} (h : grid p e = true) : inBox e p = true := by
  unfold grid at h
  by_cases c1 : p = e.2
  · rw [c1, inBox_iff]; omega
  · by_cases c2 : p = e.1
    · rw [c2, inBox_iff]; omega
    · rw [if_neg c1, if_neg c2] at h
      by_contra c3
      rw [if_pos (by simpa using c3)] at h; simp at h

theorem grid_fst (e : HE) : grid e.1 e = true := by
  unfold grid
  by_cases c : e.1 = e.2
  · rw [if_pos c]
  · rw [if_neg c, if_pos rfl]

theorem grid_snd (e : HE) : grid e.2 e = true := by
  unfold grid; rw [if_pos rfl]

theorem fold_add (i : Nat) : ∀ (H : List Pt) (ip : Pts), (∀ j p, p ∈ (H.foldl (fun ip p => ip.add i p) ip) j ↔ p ∈ ip j ∨ (j = i ∧ p ∈ H)) ∧
    ((∀ j, (ip j).Pairwise plt) → ∀ j, ((H.foldl (fun ip p => ip.add i p) ip) j).Pairwise plt) := by
  intro H
  induction H with
  | nil => intro ip; simp
  | cons a r ih =>
    intro ip
    obtain ⟨h1, h2⟩ := ih (ip.add i a)
    refine ⟨fun j p => ?_, fun h => h2 (srt_add _ _ h)⟩
    rw [List.foldl_cons, h1, mem_add, List.mem_cons]; tauto

theorem mem_dropWhile_srt {p : Pt} {x : Int} : ∀ (L : List Pt), L.Pairwise plt → (p ∈ L.dropWhile (fun q => decide (q.1 < x)) ↔ p ∈ L ∧ x ≤ p.1)
  | [], _ => by simp
  | a :: r, h => by
    rw [List.pairwise_cons] at h
    by_cases c : a.1 < x
    · rw [List.dropWhile_cons_of_pos (by simpa using c), mem_dropWhile_srt r h.2, List.mem_cons]
      constructor
      · rintro ⟨h1, h2⟩; exact ⟨Or.inr h1, h2⟩
      · rintro ⟨rfl | h1, h2⟩
        · omega
        · exact ⟨h1, h2⟩
    · rw [List.dropWhile_cons_of_neg (by simpa using c)]
      constructor
      · intro hp
        refine ⟨hp, ?_⟩
        rcases List.mem_cons.1 hp with rfl | hp
        · omega
        · have := h.1 p hp; omega
      · exact fun hp => hp.1

theorem mem_takeWhile_srt {p : Pt} {x : Int} : ∀ (L : List Pt), L.Pairwise plt → (p ∈ L.takeWhile (fun q => decide (q.1 ≤ x)) ↔ p ∈ L ∧ p.1 ≤ x)
  | [], _ => by simp
  | a :: r, h => by
    rw [List.pairwise_cons] at h
    by_cases c : a.1 ≤ x
    · rw [List.takeWhile_cons_of_pos (by simpa using c), List.mem_cons, mem_takeWhile_srt r h.2, List.mem_cons]
      constructor
      · rintro (rfl | ⟨h1, h2⟩)
        · exact ⟨Or.inl rfl, c⟩
        · exact ⟨Or.inr h1, h2⟩
      · rintro ⟨rfl | h1, h2⟩
        · exact Or.inl rfl
        · exact Or.inr ⟨h1, h2⟩
    · rw [List.takeWhile_cons_of_neg (by simpa using c)]
      constructor
      · intro hp; simp at hp
      · rintro ⟨hp, hx⟩
        rcases List.mem_cons.1 hp with rfl | hp
        · omega
        · have := h.1 p hp; omega

theorem start_x (e : HE) : (if lessPoint e.2 e.1 then e.2 else e.1).1 = minX e := by
  unfold minX
  by_cases c : lessPoint e.2 e.1 = true
  · rw [if_pos c]; rw [Contains.lessPoint_iff] at c; omega
  · rw [if_neg c]; rw [Contains.lessPoint_iff] at c; omega

theorem stop_x (e : HE) : (if lessPoint e.1 e.2 then e.2 else e.1).1 = maxX e := by
  unfold maxX
  by_cases c : lessPoint e.1 e.2 = true
  · rw [if_pos c]; rw [Contains.lessPoint_iff] at c; omega
  · rw [if_neg c]; rw [Contains.lessPoint_iff] at c; omega

theorem gridLoop_spec : ∀ (l : List Seg) (pts : List Pt) (ip : Pts), l.Pairwise (fun a b => minX a.1 ≤ minX b.1) → pts.Pairwise plt →
    (∀ j p, p ∈ gridLoop l pts ip j ↔ p ∈ ip j ∨ ∃ o ∈ l, j = o.2 ∧ p ∈ pts ∧ grid p o.1 = true) ∧
    ((∀ j, (ip j).Pairwise plt) → ∀ j, (gridLoop l pts ip j).Pairwise plt) := by
  intro l
  induction l with
  | nil => intro pts ip _ _; simp [gridLoop]
  | cons o r ih =>
    intro pts ip hl hp
    rw [List.pairwise_cons] at hl
    rw [gridLoop]
    simp only [start_x, stop_x]
    generalize hlf : pts.dropWhile (fun p => decide (p.1 < minX o.1)) = lf
    have hsub : lf.Sublist pts := hlf ▸ List.dropWhile_sublist _
    have hlfs : lf.Pairwise plt := hp.sublist hsub
    have hmem : ∀ p, p ∈ lf ↔ p ∈ pts ∧ minX o.1 ≤ p.1 := fun p => by rw [← hlf, mem_dropWhile_srt _ hp]
    generalize hH : (lf.takeWhile (fun p => decide (p.1 ≤ maxX o.1))).filter (fun p => grid p o.1) = H
    have hHm : ∀ p, p ∈ H ↔ p ∈ pts ∧ grid p o.1 = true := by
      intro p
      rw [← hH, List.mem_filter, mem_takeWhile_srt _ hlfs, hmem]
      constructor
      · rintro ⟨⟨⟨h1, _⟩, _⟩, h2⟩; exact ⟨h1, h2⟩
      · rintro ⟨h1, h2⟩
        have := (inBox_iff _ _).1 (grid_inBox h2)
        unfold minX maxX
        exact ⟨⟨⟨h1, this.1⟩, this.2.1⟩, h2⟩
    obtain ⟨f1, f2⟩ := fold_add o.2 H ip
    obtain ⟨i1, i2⟩ := ih lf (H.foldl (fun ip p => ip.add o.2 p) ip) hl.2 hlfs
    refine ⟨fun j p => ?_, fun h => i2 (f2 h)⟩
    rw [i1, f1, hHm]
    constructor
    · rintro ((h | ⟨h1, h2⟩) | ⟨a, ha, h1, h2, h3⟩)
      · exact Or.inl h
      · exact Or.inr ⟨o, List.mem_cons_self .., h1, h2⟩
      · exact Or.inr ⟨a, List.mem_cons_of_mem _ ha, h1, ((hmem p).1 h2).1, h3⟩
    · rintro (h | ⟨a, ha, h1, h2, h3⟩)
      · exact Or.inl (Or.inl h)
      · rcases List.mem_cons.1 ha with rfl | ha
        · exact Or.inl (Or.inr ⟨h1, h2, h3⟩)
        · refine Or.inr ⟨a, ha, h1, (hmem p).2 ⟨h2, ?_⟩, h3⟩
          have := hl.1 a ha
          have h4 := (inBox_iff _ _).1 (grid_inBox h3)
          unfold minX at this ⊢; omega

/-! ### Sorting segments -/

theorem insertSeg_mem (a p : Seg) (L : List Seg) : p ∈ insertSeg a L ↔ p = a ∨ p ∈ L := by
  induction L with
  | nil => simp [insertSeg]
  | cons b r ih =>
    rw [insertSeg]
    split_ifs
    · rw [List.mem_cons, ih, List.mem_cons]; tauto
    · rw [List.mem_cons]

theorem sortSeg_mem (p : Seg) (L : List Seg) : p ∈ sortSeg L ↔ p ∈ L := by
  induction L with
  | nil => simp [sortSeg]
  | cons b r ih => rw [sortSeg, insertSeg_mem, ih, List.mem_cons]

/-- The order of the segments. -/
def sle (a b : Seg) : Prop := plt a.1.1 b.1.1 ∨ (a.1.1 = b.1.1 ∧ (plt a.1.2 b.1.2 ∨ (a.1.2 = b.1.2 ∧ a.2 ≤ b.2)))

theorem lessSeg_sle {a b : Seg} (h : lessSeg a b = true) : sle a b := by
  unfold lessSeg at h
  unfold sle
  by_cases c1 : lessPoint a.1.1 b.1.1 = true
  · exact Or.inl ((Contains.lessPoint_iff _ _).1 c1)
  rw [if_neg c1] at h
  by_cases c2 : lessPoint b.1.1 a.1.1 = true
  · rw [if_pos c2] at h; simp at h
  rw [if_neg c2] at h
  rw [Contains.lessPoint_iff] at c1 c2
  have e1 : a.1.1 = b.1.1 := Prod.ext (by omega) (by omega)
  refine Or.inr ⟨e1, ?_⟩
  by_cases c3 : lessPoint a.1.2 b.1.2 = true
  · exact Or.inl ((Contains.lessPoint_iff _ _).1 c3)
  rw [if_neg c3] at h
  by_cases c4 : lessPoint b.1.2 a.1.2 = true
  · rw [if_pos c4] at h; simp at h
  rw [if_neg c4] at h
  rw [Contains.lessPoint_iff] at c3 c4
  exact Or.inr ⟨Prod.ext (by omega) (by omega), by have := of_decide_eq_true h; omega⟩

theorem not_lessSeg_sle {a b : Seg} (h : ¬ lessSeg b a = true) : sle a b := by
  unfold lessSeg at h
  unfold sle
  by_cases c1 : lessPoint b.1.1 a.1.1 = true
  · rw [if_pos c1] at h; simp at h
  rw [if_neg c1] at h
  by_cases c2 : lessPoint a.1.1 b.1.1 = true
  · exact Or.inl ((Contains.lessPoint_iff _ _).1 c2)
  rw [if_neg c2] at h
  rw [Contains.lessPoint_iff] at c1 c2
  have e1 : a.1.1 = b.1.1 := Prod.ext (by omega) (by omega)
  refine Or.inr ⟨e1, ?_⟩
  by_cases c3 : lessPoint b.1.2 a.1.2 = true
  · rw [if_pos c3] at h; simp at h
  rw [if_neg c3] at h
  by_cases c4 : lessPoint a.1.2 b.1.2 = true
  · exact Or.inl ((Contains.lessPoint_iff _ _).1 c4)
  rw [if_neg c4] at h
  rw [Contains.lessPoint_iff] at c3 c4
  exact Or.inr ⟨Prod.ext (by omega) (by omega), by simpa using h⟩

theorem plt_trans {a b c : Pt} (h1 : plt a b) (h2 : plt b c) : plt a c := by unfold plt at *; omega

theorem sle_trans {a b c : Seg} (h1 : sle a b) (h2 : sle b c) : sle a c := by
  unfold sle at *
  rcases h1 with h1 | ⟨e1, h1⟩ <;> rcases h2 with h2 | ⟨e2, h2⟩
  · exact Or.inl (plt_trans h1 h2)
  · rw [← e2]; exact Or.inl h1
  · rw [e1]; exact Or.inl h2
  · refine Or.inr ⟨e1.trans e2, ?_⟩
    rcases h1 with h1 | ⟨e3, h1⟩ <;> rcases h2 with h2 | ⟨e4, h2⟩
    · exact Or.inl (plt_trans h1 h2)
    · rw [← e4]; exact Or.inl h1
    · rw [e3]; exact Or.inl h2
    · exact Or.inr ⟨e3.trans e4, by omega⟩

theorem insertSeg_srt (a : Seg) (L : List Seg) (h : L.Pairwise sle) : (insertSeg a L).Pairwise sle := by
  induction L with
  | nil => simp [insertSeg]
  | cons b r ih =>
    rw [insertSeg]
    rw [List.pairwise_cons] at h
    by_cases c : lessSeg b a = true
    · rw [if_pos c, List.pairwise_cons]
      refine ⟨fun p hp => ?_, ih h.2⟩
      rcases (insertSeg_mem a p r).1 hp with rfl | hp
      · exact lessSeg_sle c
      · exact h.1 p hp
    · rw [if_neg c, List.pairwise_cons, List.pairwise_cons]
      refine ⟨fun p hp => ?_, h⟩
      rcases List.mem_cons.1 hp with rfl | hp
      · exact not_lessSeg_sle c
      · exact sle_trans (not_lessSeg_sle c) (h.1 p hp)

theorem sortSeg_srt (L : List Seg) : (sortSeg L).Pairwise sle := by
  induction L with
  | nil => simp [sortSeg]
  | cons b r ih => exact insertSeg_srt b _ ih

/-- The segment with its lesser end point first. -/
def nrm (e : HE) : HE := if lessPoint e.2 e.1 then (e.2, e.1) else e

theorem norm_eq (s : Seg) : norm s = (nrm s.1, s.2) := by
  unfold norm nrm; split_ifs <;> rfl

theorem nrm_min (e : HE) : minX (nrm e) = (nrm e).1.1 := by
  unfold minX nrm
  by_cases c : lessPoint e.2 e.1 = true
  · rw [if_pos c]; rw [Contains.lessPoint_iff] at c; dsimp only; omega
  · rw [if_neg c]; rw [Contains.lessPoint_iff] at c; omega

theorem nrm_box (e : HE) (p : Pt) : inBox (nrm e) p = inBox e p := by
  rw [Bool.eq_iff_iff, inBox_iff, inBox_iff]
  unfold nrm
  split_ifs
  · dsimp only; omega
  · rfl

theorem nrm_ends (e : HE) : ((nrm e).1 = e.1 ∧ (nrm e).2 = e.2) ∨ ((nrm e).1 = e.2 ∧ (nrm e).2 = e.1) := by
  unfold nrm; split_ifs <;> simp

theorem nrm_dir {e : HE} (h : Directed e) : nrm e = e := by
  unfold nrm Spec.Arb.Directed at *
  rw [if_neg]
  rw [Contains.lessPoint_iff]; omega

theorem data_srt (L : List Seg) : (sortSeg (L.map norm)).Pairwise (fun a b => minX a.1 ≤ minX b.1) := by
  have hm : ∀ a ∈ sortSeg (L.map norm), minX a.1 = a.1.1.1 := by
    intro a ha
    rw [sortSeg_mem, List.mem_map] at ha
    obtain ⟨b, _, rfl⟩ := ha
    rw [norm_eq]; exact nrm_min _
  refine (sortSeg_srt (L.map norm)).imp_of_mem ?_
  intro a b ha hb h
  rw [hm a ha, hm b hb]
  rcases h with h | ⟨h, _⟩
  · unfold plt at h; omega
  · rw [h]

/-! ### One bin -/

theorem validate_srt (fp : FP) (minY : Int) (L : List Seg) (ip : Pts) (h : ∀ j, (ip j).Pairwise plt) : ∀ j, (validate fp minY L ip j).Pairwise plt := by
  unfold validate
  dsimp only
  exact (gridLoop_spec _ _ _ (data_srt L) (queueFold _ [] List.Pairwise.nil).1).2 ((outer_mono fp minY _ _).2.2 h)

theorem validate_mono (fp : FP) (minY : Int) (L : List Seg) (ip : Pts) (j : Nat) (p : Pt) (hp : p ∈ ip j) : p ∈ validate fp minY L ip j := by
  unfold validate
  dsimp only
  rw [(gridLoop_spec _ _ _ (data_srt L) (queueFold _ [] List.Pairwise.nil).1).1]
  exact Or.inl ((outer_mono fp minY _ _).1 j p hp)

theorem mem_data {L : List Seg} {a : Seg} (h : a ∈ L) : (nrm a.1, a.2) ∈ sortSeg (L.map norm) := by
  rw [sortSeg_mem, List.mem_map]; exact ⟨a, h, norm_eq a⟩

theorem of_data {L : List Seg} {a : Seg} (h : a ∈ sortSeg (L.map norm)) : ∃ b ∈ L, a = (nrm b.1, b.2) := by
  rw [sortSeg_mem, List.mem_map] at h
  obtain ⟨b, hb, rfl⟩ := h
  exact ⟨b, hb, norm_eq b⟩

/-- Where the points come from. -/
theorem validate_sound (fp : FP) (minY : Int) (L : List Seg) (ip : Pts) (j : Nat) (p : Pt) (hp : p ∈ validate fp minY L ip j) :
    p ∈ ip j ∨ (∃ a ∈ L, ∃ b ∈ L, computeIntersection fp (nrm a.1) (nrm b.1) = some p ∧ (j = a.2 ∨ j = b.2)) ∨
    ∃ a ∈ L, j = a.2 ∧ grid p (nrm a.1) = true ∧ ∃ b ∈ L, p = b.1.1 ∨ p = b.1.2 ∨ p ∈ ip b.2 ∨
      ∃ c ∈ L, ∃ d ∈ L, computeIntersection fp (nrm c.1) (nrm d.1) = some p := by
  unfold validate at hp
  dsimp only at hp
  obtain ⟨s1, s2⟩ := outer_sound fp minY (sortSeg (L.map norm)) (ip, [])
  rw [(gridLoop_spec _ _ _ (data_srt L) (queueFold _ [] List.Pairwise.nil).1).1] at hp
  rcases hp with hp | ⟨o, ho, h1, h2, h3⟩
  · rcases s1 j p hp with h | ⟨a, ha, b, hb, h4, h5⟩
    · exact Or.inl h
    · obtain ⟨a', ha', rfl⟩ := of_data ha
      obtain ⟨b', hb', rfl⟩ := of_data hb
      exact Or.inr (Or.inl ⟨a', ha', b', hb', h4, h5.symm⟩)
  · right; right
    obtain ⟨o', ho', rfl⟩ := of_data ho
    refine ⟨o', ho', h1, h3, ?_⟩
    rw [(queueFold _ [] List.Pairwise.nil).2] at h2
    rcases h2 with h2 | h2
    · rcases s2 p h2 with h | ⟨b, hb, h⟩
      · simp at h
      · obtain ⟨b', hb', rfl⟩ := of_data hb
        refine ⟨b', hb', ?_⟩
        dsimp only at h
        rcases h with h | h | h | ⟨c, hc, d, hd, h⟩
        · rcases nrm_ends b'.1 with ⟨g1, g2⟩ | ⟨g1, g2⟩
          · rw [g1] at h; exact Or.inl h
          · rw [g1] at h; exact Or.inr (Or.inl h)
        · rcases nrm_ends b'.1 with ⟨g1, g2⟩ | ⟨g1, g2⟩
          · rw [g2] at h; exact Or.inr (Or.inl h)
          · rw [g2] at h; exact Or.inl h
        · exact Or.inr (Or.inr (Or.inl h))
        · obtain ⟨c', hc', rfl⟩ := of_data hc
          obtain ⟨d', hd', rfl⟩ := of_data hd
          exact Or.inr (Or.inr (Or.inr ⟨c', hc', d', hd', h⟩))
    · simp at h2

/-- The end points of the segments, and the points known before, are put where the grid test succeeds. -/
theorem validate_ends (fp : FP) (minY : Int) (L : List Seg) (ip : Pts) {a b : Seg} (ha : a ∈ L) (hb : b ∈ L) {p : Pt}
    (hp : p = b.1.1 ∨ p = b.1.2 ∨ (p ∈ ip b.2 ∧ minY ≤ p.2)) (hg : grid p (nrm a.1) = true) : p ∈ validate fp minY L ip a.2 := by
  unfold validate
  dsimp only
  rw [(gridLoop_spec _ _ _ (data_srt L) (queueFold _ [] List.Pairwise.nil).1).1]
  refine Or.inr ⟨_, mem_data ha, rfl, ?_, hg⟩
  rw [(queueFold _ [] List.Pairwise.nil).2]
  left
  obtain ⟨h1, h2, h3⟩ := outer_points fp minY (sortSeg (L.map norm)) (ip, []) _ (mem_data hb)
  dsimp only at h1 h2 h3
  rcases hp with rfl | rfl | ⟨hp, hy⟩
  · rcases nrm_ends b.1 with ⟨g1, g2⟩ | ⟨g1, g2⟩
    · rw [← g1]; exact h1
    · rw [← g2]; exact h2
  · rcases nrm_ends b.1 with ⟨g1, g2⟩ | ⟨g1, g2⟩
    · rw [← g2]; exact h2
    · rw [← g1]; exact h1
  · exact h3 p hp hy

/-- The intersection of two segments that are compared is found. -/
theorem validate_cross (fp : FP) (minY : Int) (L : List Seg) (ip : Pts) {a b : Seg} (ha : a ∈ L) (hb : b ∈ L) {p : Pt}
    (h1 : Compared minY (nrm a.1) (nrm b.1)) (h2 : Compared minY (nrm b.1) (nrm a.1))
    (h3 : computeIntersection fp (nrm a.1) (nrm b.1) = some p) (h4 : computeIntersection fp (nrm b.1) (nrm a.1) = some p) :
    p ∈ validate fp minY L ip a.2 ∧ p ∈ validate fp minY L ip b.2 ∧ ∀ c ∈ L, grid p (nrm c.1) = true → p ∈ validate fp minY L ip c.2 := by
  have key : p ∈ (outer fp minY (sortSeg (L.map norm)) (ip, [])).1 a.2 ∧ p ∈ (outer fp minY (sortSeg (L.map norm)) (ip, [])).1 b.2 ∧
      p ∈ (outer fp minY (sortSeg (L.map norm)) (ip, [])).2 := by
    obtain ⟨A, B, hAB⟩ := List.append_of_mem (mem_data ha)
    have hb' := mem_data hb
    rw [hAB] at hb'
    rcases List.mem_append.1 hb' with h | h
    · obtain ⟨C, D, hCD⟩ := List.append_of_mem h
      obtain ⟨g1, g2, g3⟩ := outer_complete fp minY _ (ip, []) (data_srt L) C (nrm b.1, b.2) (D ++ (nrm a.1, a.2) :: B) (nrm a.1, a.2)
        (by rw [hAB, hCD]; simp) (by simp) h2 p h4
      exact ⟨g2, g1, g3⟩
    · rcases List.mem_cons.1 h with h | h
      · have : nrm b.1 = nrm a.1 := (Prod.ext_iff.1 h).1
        exact absurd this.symm h1.2.1
      · exact outer_complete fp minY _ (ip, []) (data_srt L) A _ B _ hAB h h1 p h3
  unfold validate
  dsimp only
  have hs := (gridLoop_spec _ ((outer fp minY (sortSeg (L.map norm)) (ip, [])).2.foldl queueInsert []) (outer fp minY (sortSeg (L.map norm)) (ip, [])).1
    (data_srt L) (queueFold _ [] List.Pairwise.nil).1).1
  refine ⟨(hs _ _).2 (Or.inl key.1), (hs _ _).2 (Or.inl key.2.1), fun c hc hg => (hs _ _).2 (Or.inr ⟨_, mem_data hc, rfl, ?_, hg⟩)⟩
  rw [(queueFold _ [] List.Pairwise.nil).2]
  exact Or.inl key.2.2

end Verif.Cut
