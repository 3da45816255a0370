import Verif.Proofs.S45Loop
/-! # One whole step of the 45-degree scanline to the next stop -/
namespace Verif.Deg45

variable {C : Type}

theorem filter_mem_cons {α : Type} (f : α → Int) {L : List α} (h : L.Pairwise (fun a b => f a ≤ f b)) {y : Int}
    {ys : List Int} (hy : ∀ z ∈ ys, y < z) :
    L.filter (fun e => decide (f e ∈ y :: ys)) =
      L.filter (fun e => decide (f e = y)) ++ L.filter (fun e => decide (f e ∈ ys)) := by
  induction L with
  | nil => rfl
  | cons e L ih =>
    obtain ⟨h1, h2⟩ := List.pairwise_cons.1 h
    have ih := ih h2
    by_cases c1 : f e = y
    · have c2 : f e ∉ ys := fun h => by have := hy _ h; omega
      rw [List.filter_cons_of_pos (by simp [c1]), List.filter_cons_of_pos (by simpa using c1),
        List.filter_cons_of_neg (by simpa using c2), ih]
      rfl
    · by_cases c2 : f e ∈ ys
      · have hlt := hy _ c2
        have hn : L.filter (fun e => decide (f e = y)) = [] := by
          rw [List.filter_eq_nil_iff]; intro g hg; have := h1 g hg; simp; omega
        rw [List.filter_cons_of_pos (by simp [c2]), List.filter_cons_of_neg (by simpa using c1),
          List.filter_cons_of_pos (by simpa using c2), ih, hn]
        simp
      · rw [List.filter_cons_of_neg (by simp [c1, c2]), List.filter_cons_of_neg (by simpa using c1),
          List.filter_cons_of_neg (by simpa using c2), ih]

theorem flatMap_grp {X : Int} {L : List (El C)} (h : L.Pairwise (fun a b => a.eval X ≤ b.eval X)) {ys : List Int}
    (ha : ys.Pairwise (· < ·)) :
    ys.flatMap (grpAt X L) = L.filter (fun e => decide (e.eval X ∈ ys)) := by
  induction ys with
  | nil => simp
  | cons y ys ih =>
    obtain ⟨h1, h2⟩ := List.pairwise_cons.1 ha
    rw [filter_mem_cons (fun e : El C => e.eval X) h h1, List.flatMap_cons, ih h2]
    rfl

theorem eraseOne_mid [DecidableEq C] {pre L : List (El C)} {e : El C} (sv : List (El C)) (h : e ∉ pre) :
    ∃ sv', eraseOne (pre ++ e :: L, sv) e = (pre ++ L, sv') ∧ (∀ a ∈ sv', a ∈ sv ∨ a ∈ pre) ∧
      (∀ a ∈ sv, a ∈ sv') ∧ (∀ a, pre.getLast? = some a → a ∈ sv') := by
  have e1 : (pre ++ e :: L).takeWhile (fun f => decide (f ≠ e)) = pre := by
    rw [List.takeWhile_append_of_pos, List.takeWhile_cons_of_neg (by simp), List.append_nil]
    intro f hf; simp only [decide_eq_true_eq]; rintro rfl; exact h hf
  have e2 : (pre ++ e :: L).dropWhile (fun f => decide (f ≠ e)) = e :: L := by
    rw [List.dropWhile_append_of_pos, List.dropWhile_cons_of_neg (by simp)]
    intro f hf; simp only [decide_eq_true_eq]; rintro rfl; exact h hf
  unfold eraseOne
  simp only [e1, e2, List.tail_cons]
  refine ⟨_, rfl, ?_⟩
  cases hl : pre.getLast? with
  | none => exact ⟨fun a h => Or.inl h, fun a h => h, fun a h => by simp at h⟩
  | some p =>
    simp only
    have hp := List.mem_of_getLast? hl
    split_ifs with c
    · refine ⟨fun a ha => Or.inl ha, fun a ha => ha, fun a ha => ?_⟩
      cases ha; exact List.mem_of_getLast? c
    · refine ⟨fun a ha => ?_, fun a ha => by simp [ha], fun a ha => by cases ha; simp⟩
      rcases List.mem_append.1 ha with h | h
      · exact Or.inl h
      · right; rw [List.mem_singleton.1 h]; exact hp

theorem erase_fold [DecidableEq C] (p : El C → Bool) (R : El C → El C → Prop) : ∀ (L pre sv : List (El C)),
    (pre ++ L).Nodup → (∀ e ∈ pre, p e = false) → (pre ++ L).IsChain (fun a b => R a b ∨ a ∈ sv) →
    ∃ sv', (L.filter p).foldl eraseOne (pre ++ L, sv) = (pre ++ L.filter (fun e => !p e), sv') ∧
      (∀ a ∈ sv', a ∈ sv ∨ a ∈ pre ++ L.filter (fun e => !p e)) ∧
      (pre ++ L.filter (fun e => !p e)).IsChain (fun a b => R a b ∨ a ∈ sv') := by
  intro L
  induction L with
  | nil => intro pre sv _ _ hc; exact ⟨sv, rfl, fun a h => Or.inl h, hc⟩
  | cons e L ih =>
    intro pre sv hn hp hc
    by_cases c : p e = true
    · obtain ⟨sv1, s1, s2, s3, s4⟩ := eraseOne_mid (L := L) sv (e := e) (pre := pre) (fun h => by
        have := (List.nodup_append.1 hn).2.2 e h e List.mem_cons_self; exact this rfl)
      obtain ⟨h1, h2, h3⟩ := List.isChain_append.1 hc
      have hn' : (pre ++ L).Nodup := hn.sublist ((List.Sublist.refl pre).append (List.sublist_cons_self e L))
      obtain ⟨sv2, t1, t2, t3⟩ := ih pre sv1 hn' hp (by
        rw [List.isChain_append]
        refine ⟨h1.imp (fun {a b} h => h.imp id (s3 a)), (List.isChain_cons.1 h2).2.imp (fun {a b} h => h.imp id (s3 a)), ?_⟩
        intro a ha b hb
        exact Or.inr (s4 a ha))
      refine ⟨sv2, ?_, ?_, ?_⟩
      · rw [List.filter_cons_of_pos (by simpa using c), List.foldl_cons, s1, t1, List.filter_cons_of_neg (by simpa using c)]
      · intro a ha
        rw [List.filter_cons_of_neg (by simpa using c)]
        rcases t2 a ha with h | h
        · rcases s2 a h with h | h
          · exact Or.inl h
          · right; simp [h]
        · exact Or.inr h
      · rw [List.filter_cons_of_neg (by simpa using c)]; exact t3
    · have ea : pre ++ e :: L = (pre ++ [e]) ++ L := by simp
      rw [ea] at hn hc
      obtain ⟨sv2, t1, t2, t3⟩ := ih (pre ++ [e]) sv hn (by
        intro f hf
        rcases List.mem_append.1 hf with h | h
        · exact hp f h
        · rw [List.mem_singleton.1 h]; simpa using c) hc
      refine ⟨sv2, ?_, ?_, ?_⟩
      · rw [List.filter_cons_of_neg (by simpa using c), List.filter_cons_of_pos (by simpa using c), ea, t1]; simp
      · rw [List.filter_cons_of_pos (by simpa using c)]
        intro a ha; have := t2 a ha; simpa using this
      · rw [List.filter_cons_of_pos (by simpa using c)]; simpa using t3

theorem findCrossIn_mid [DecidableEq C] {X : Int} {lo hi : List (El C)} {e : El C} {Q : List P} (h : e ∉ lo) :
    findCrossIn X (lo ++ e :: hi) e Q = findCross X lo.getLast? e hi.head? Q := by
  unfold findCrossIn
  rw [List.dropWhile_append_of_pos (fun f hf => by simp only [decide_eq_true_eq]; rintro rfl; exact h hf),
    List.dropWhile_cons_of_neg (by simp),
    List.takeWhile_append_of_pos (fun f hf => by simp only [decide_eq_true_eq]; rintro rfl; exact h hf),
    List.takeWhile_cons_of_neg (by simp), List.append_nil]

theorem findAll_spec [DecidableEq C] {X : Int} {L : List (El C)} (hsl : ∀ e ∈ L, Slope e)
    (hs : L.Pairwise (LtA X)) (hn : L.Nodup) : ∀ (es : List (El C)) (Q : List P), (∀ e ∈ es, e ∈ L) →
    (∃ Q', findAll X L es Q = .ok Q' ∧ (∀ p ∈ Q, p ∈ Q') ∧ (∀ p ∈ Q', p ∈ Q ∨ X < p.1) ∧
      (QSorted Q → QSorted Q') ∧ (∀ lo a b hi, L = lo ++ a :: b :: hi → a ∈ es → Sched Q' a b)) ∨
    (findAll X L es Q = .error .precision ∧ ¬ ∀ e ∈ L, EvenEl e) := by
  intro es
  induction es with
  | nil =>
    intro Q _
    left
    exact ⟨Q, rfl, fun p h => h, fun p h => Or.inl h, id, fun _ _ _ _ _ h => by simp at h⟩
  | cons e es ih =>
    intro Q hm
    obtain ⟨lo, hi, hL⟩ := List.append_of_mem (hm e List.mem_cons_self)
    have hne : e ∉ lo := by
      intro h; rw [hL] at hn
      exact (List.nodup_append.1 hn).2.2 e h e List.mem_cons_self rfl
    have hlo : ∀ b ∈ lo.getLast?, b ∈ lo := fun b hb => List.mem_of_getLast? hb
    have hhi : ∀ b ∈ hi.head?, b ∈ hi := fun b hb => List.mem_of_mem_head? hb
    have mlo : ∀ b ∈ lo, b ∈ L := fun b hb => by rw [hL]; simp [hb]
    have mhi : ∀ b ∈ hi, b ∈ L := fun b hb => by rw [hL]; simp [hb]
    have hp := hs
    rw [hL] at hp
    obtain ⟨_, p2, p3⟩ := List.pairwise_append.1 hp
    unfold findAll
    have hf := findCrossIn_mid (X := X) (hi := hi) (Q := Q) hne
    rw [← hL] at hf
    rw [hf]
    cases hc : findCross X lo.getLast? e hi.head? Q with
    | error err =>
      right
      obtain ⟨e1, e2⟩ := findCross_err (hsl e (hm e List.mem_cons_self)) hc
      subst e1
      exact ⟨rfl, fun h => e2 ⟨h e (hm e List.mem_cons_self), fun b hb => h b (mlo b (hlo b hb)),
        fun b hb => h b (mhi b (hhi b hb))⟩⟩
    | ok Q1 =>
      obtain ⟨_, f2, f3, f4, f5, _⟩ := findCross_spec (hsl e (hm e List.mem_cons_self))
        (fun b hb => hsl b (mlo b (hlo b hb))) (fun b hb => hsl b (mhi b (hhi b hb)))
        (fun b hb => p3 b (hlo b hb) e List.mem_cons_self) (fun b hb => (List.pairwise_cons.1 p2).1 b (hhi b hb)) hc
      simp only
      rcases ih Q1 (fun e h => hm e (List.mem_cons_of_mem _ h)) with ⟨Q', g1, g2, g3, g4, g5⟩ | h
      · left
        refine ⟨Q', g1, fun p h => g2 p (f3 p h), fun p h => ?_, fun h => g4 (f5 h), ?_⟩
        · rcases g3 p h with h | h
          · exact f4 p h
          · exact Or.inr h
        · intro lo' a b hi' e' ha
          rcases List.mem_cons.1 ha with rfl | ha
          · have e3 : lo' = lo ∧ hi = b :: hi' := by
              have hne' : a ∉ lo' := by
                intro h; rw [e'] at hn
                exact (List.nodup_append.1 hn).2.2 a h a List.mem_cons_self rfl
              have := e'.symm.trans hL
              have t1 := congrArg (List.takeWhile (fun f => decide (f ≠ a))) this
              rw [List.takeWhile_append_of_pos (fun f hf' => by simp only [decide_eq_true_eq]; intro he; rw [he] at hf'; exact hne' hf'),
                List.takeWhile_append_of_pos (fun f hf' => by simp only [decide_eq_true_eq]; intro he; rw [he] at hf'; exact hne hf'),
                List.takeWhile_cons_of_neg (by simp), List.takeWhile_cons_of_neg (by simp), List.append_nil,
                List.append_nil] at t1
              rw [t1] at this
              have := List.append_cancel_left this
              simp only [List.cons.injEq, true_and] at this
              exact ⟨t1, this.symm⟩
            exact (f2 b (by rw [e3.2]; rfl)).mono g2
          · exact g5 lo' a b hi' e' ha
      · right; exact h

theorem LtA.irrefl {x : Int} {a : El C} : ¬ LtA x a a := by unfold LtA; omega

theorem nodup_of_sorted {x : Int} {L : List (El C)} (h : L.Pairwise (LtA x)) : L.Nodup :=
  h.imp (fun {a b} h e => by subst e; exact LtA.irrefl h)

/-- What a step to the next stop leaves. -/
structure AdvSpec {O : Type} [AddCommGroup C] (g : Fn C O) (X : Int) (L : List (El C)) (out : List O)
    (L' : List (El C)) (Q' : List P) (out' : List O) (cv : List (Vert C)) (ys : List Int) : Prop where
  asc : ys.Pairwise (· < ·)
  mem : ∀ y, y ∈ ys ↔ isX X L y = true
  left_eq : L' = L.filter (fun e => !isX X L (e.eval X))
  sorted : L'.Pairwise (fun a b => a.eval X < b.eval X)
  chain : L'.IsChain (Sched Q')
  qsorted : QSorted Q'
  qgt : ∀ p ∈ Q', X < p.1
  cv_eq : cv = ys.map (fun y => ((X, y), crossQ (lastc 0 (ltAt X L y)) (grpAt X L y)))
  out_eq : out' = ys.foldl (fun o y => emitLows g (X, y) (lastc 0 (ltAt X L y)) (grpAt X L y) o) out

theorem isX_of_eq {X : Int} {L l1 l2 l3 : List (El C)} {a b : El C} (e : L = l1 ++ a :: l2 ++ b :: l3)
    (h : a.eval X = b.eval X) : isX X L (a.eval X) = true := by
  unfold isX grpAt
  rw [e, List.filter_append, List.filter_append, List.filter_cons_of_pos (by simp), List.filter_cons_of_pos (by simpa using h.symm)]
  simp only [List.length_append, List.length_cons, decide_eq_true_eq]
  omega

theorem advance_spec {O : Type} [AddCommGroup C] [DecidableEq C] (g : Fn C O) {x X : Int} {L : List (El C)} {Q : List P}
    (hG : Good x L Q) (hX : x < X) (hQ : ∀ p ∈ Q, X ≤ p.1) (out : List O) :
    (∃ L' Q' out' cv ys, advance g X L Q out = .ok (L', Q', out', cv) ∧ AdvSpec g X L out L' Q' out' cv ys) ∨
    (advance g X L Q out = .error .precision ∧ ¬ ∀ e ∈ L, EvenEl e) := by
  have hleB := good_move hG hX hQ
  have hle := pairwise_le hleB
  have hnd := nodup_of_sorted hG.sorted
  unfold advance
  rcases advanceLoop_spec g hG.slope hleB (Q.length + 1) Q out [] [] hG.qsorted hQ
    (by have := List.length_filter_le (fun p : P => decide (p.1 = X)) Q; omega) with
    ⟨Q1, o1, er, cv, ys, e1, sp⟩ | ⟨h, h'⟩
  · rw [e1]
    simp only
    have hmem : ∀ y, y ∈ ys ↔ isX X L y = true := by
      intro y
      rw [sp.mem]
      refine ⟨fun h => h.2, fun h => ⟨?_, h⟩⟩
      have h0 := h
      unfold isX at h
      simp only [decide_eq_true_eq] at h
      have hp : (grpAt X L y).Pairwise (LeB X Q) := hleB.sublist List.filter_sublist
      rcases hg : grpAt X L y with _ | ⟨a, _ | ⟨b, r⟩⟩
      · rw [hg] at h; simp at h
      · rw [hg] at h; simp at h
      · rw [hg] at hp
        have hab := (List.pairwise_cons.1 hp).1 b List.mem_cons_self
        have ma : a ∈ grpAt X L y := by rw [hg]; simp
        have mb : b ∈ grpAt X L y := by rw [hg]; simp
        have ma := (List.mem_filter.1 ma).2
        have mb := (List.mem_filter.1 mb).2
        simp only [decide_eq_true_eq] at ma mb
        unfold LeB at hab
        rcases hab with hab | hab
        · omega
        · rw [ma] at hab; exact hab.2.1
    have her : er = L.filter (fun e => isX X L (e.eval X)) := by
      rw [sp.er_eq, List.nil_append, flatMap_grp hle sp.asc]
      apply List.filter_congr
      intro e _
      have := hmem (e.eval X)
      by_cases c : e.eval X ∈ ys
      · rw [this.1 c]; simpa using c
      · rw [decide_eq_false c]; symm; rw [Bool.eq_false_iff]; exact fun h => c (this.2 h)
    obtain ⟨sv, f1, f2, f3⟩ := erase_fold (fun e : El C => isX X L (e.eval X))
      (fun a b => Sched Q1 a b ∨ isX X L (a.eval X) = true ∨ isX X L (b.eval X) = true) L [] [] hnd (by simp) (by
        rw [List.nil_append, List.isChain_iff_forall_rel_of_append_cons_cons]
        intro a b lo hi e
        left
        by_cases c : isX X L (a.eval X) = true
        · exact Or.inr (Or.inl c)
        left
        have hs := (List.isChain_iff_forall_rel_of_append_cons_cons.1 hG.chain) e
        by_cases c2 : (X, a.eval X) ∈ Q
        · exact sp.sched lo a b hi e c2 (by simpa using c)
        · have hk : ∀ z, (z, atX a.line z) ∈ Q → (z, atX a.line z) ∈ Q1 := by
            intro z hz
            refine sp.keep _ hz ?_
            have := hQ _ hz
            simp only at this ⊢
            rcases lt_or_eq_of_le this with h | h
            · exact h
            · exfalso; apply c2; rw [← h] at hz; rw [El.eval_line]; exact hz
          exact ⟨fun h => hk _ (hs.1 h), fun h => hk _ (hs.2 h)⟩)
    simp only [List.nil_append] at f1 f2 f3
    rw [her, f1]
    simp only
    have hsub : (L.filter (fun e => !isX X L (e.eval X))).Sublist L := List.filter_sublist
    have hstr : (L.filter (fun e => !isX X L (e.eval X))).Pairwise (fun a b => a.eval X < b.eval X) := by
      rw [List.pairwise_filter]
      have : L.Pairwise (fun a b => a.eval X = b.eval X → isX X L (a.eval X) = true) := by
        rw [List.pairwise_iff_forall_sublist]
        intro a b hs he
        unfold isX
        simp only [decide_eq_true_eq]
        have := (hs.filter (fun e => decide (e.eval X = a.eval X))).length_le
        rw [List.filter_cons_of_pos (by simp), List.filter_cons_of_pos (by simpa using he.symm)] at this
        exact this
      refine (hle.and this).imp ?_
      rintro a b ⟨h1, h2⟩ h3 h4
      rcases lt_or_eq_of_le h1 with h | h
      · exact h
      · have := h2 h; rw [this] at h3; simp at h3
    have hlt : (L.filter (fun e => !isX X L (e.eval X))).Pairwise (LtA X) := hstr.imp (fun h => Or.inl h)
    rcases findAll_spec (fun e he => hG.slope e (hsub.subset he)) hlt (hnd.sublist hsub) sv Q1
      (fun e he => by rcases f2 e he with h | h; simp at h; exact h) with ⟨Q2, g1, g2, g3, g4, g5⟩ | ⟨h, h'⟩
    · left
      rw [g1]
      refine ⟨_, _, _, _, ys, rfl,
        { asc := sp.asc, mem := hmem, left_eq := rfl, sorted := hstr, chain := ?_, qsorted := g4 sp.qsorted, qgt := ?_
          cv_eq := by rw [sp.cv_eq]; simp, out_eq := sp.out_eq }⟩
      · rw [List.isChain_iff_forall_rel_of_append_cons_cons] at f3 ⊢
        intro a b lo hi e
        have ma : a ∈ L.filter (fun e => !isX X L (e.eval X)) := by rw [e]; simp
        have mb : b ∈ L.filter (fun e => !isX X L (e.eval X)) := by rw [e]; simp
        have ma := (List.mem_filter.1 ma).2
        have mb := (List.mem_filter.1 mb).2
        rcases f3 e with (h | h | h) | h
        · exact h.mono g2
        · rw [h] at ma; simp at ma
        · rw [h] at mb; simp at mb
        · exact g5 lo a b hi e h
      · intro p hp
        rcases g3 p hp with h | h
        · exact sp.qgt p h
        · exact h
    · right
      rw [h]
      exact ⟨rfl, fun h2 => h' (fun e he => h2 e (hsub.subset he))⟩
  · right; rw [h]; exact ⟨rfl, h'⟩

end Verif.Deg45
