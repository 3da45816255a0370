import Verif.Proofs.S45Column
/-! # The start of a column of the 45-degree scanline -/
namespace Verif.Deg45

variable {C : Type} [AddCommGroup C] [DecidableEq C]
variable {g : C → Bool} {X : Int} {Lold : List (El C)} {done ins : List (Vert C)} {EV : Prop}

theorem exists_lower (l : List Int) : ∃ m : Int, ∀ a ∈ l, m < a := by
  induction l with
  | nil => exact ⟨0, by simp⟩
  | cons a l ih =>
    obtain ⟨m, hm⟩ := ih
    refine ⟨min m (a - 1), fun b hb => ?_⟩
    rcases List.mem_cons.1 hb with rfl | hb
    · omega
    · have := hm b hb; omega

theorem mid_start (hC : Col X Lold ins EV) {Lcur : List (El C)} {Q : List P} {out : List V45} {ev : List (Vert C)}
    (hL : Lcur = Lold.filter (fun e => !isX X Lold (e.eval X))) (hs : Lcur.Pairwise (fun a b => a.eval X < b.eval X))
    (hc : Lcur.IsChain (Sched Q)) (hqs : QSorted Q) (hq : ∀ p ∈ Q, X < p.1)
    (rin : Eqv (rays done) (deltas id 0 Lold))
    (rout : ∀ f, sumOn f (oRays out) = sumOn (fun l => f l && !isX X Lold (atX l X)) (deltas (gi g) 0 Lold))
    (bal0 : ∀ pt : P, pt.1 ≠ X → bal out pt = 0)
    (balX : ∀ y, bal out (X, y) =
      -(if isX X Lold y then sumOn (fun l => decide (atX l X = y)) (deltas (gi g) 0 Lold) else 0))
    (evs : YSorted ev) (evx : ∀ v ∈ ev, v.1.1 = X)
    (tot : ∀ y, totQ y ev = (totQ y ins).add (if isX X Lold y then cq X Lold y else ⟨0, 0, 0, 0⟩))
    (coverI : ∀ v ∈ ins, ∃ w ∈ ev, w.1.2 = v.1.2) (coverX : ∀ y, isX X Lold y = true → ∃ w ∈ ev, w.1.2 = y)
    (vsum : (ev.map (fun w => w.2.v)).sum = 0) :
    ∃ yp, Mid g X Lold done ins EV [] Lcur Lold [] Q out 0 yp 0 ev := by
  obtain ⟨yp, hyp⟩ := exists_lower (Lold.map (fun e => e.eval X) ++ ev.map (fun v => v.1.2) ++ ins.map (fun v => v.1.2))
  have h1 : ∀ e ∈ Lold, yp < e.eval X := fun e he => hyp _ (by simp only [List.mem_append, List.mem_map]; exact Or.inl (Or.inl ⟨e, he, rfl⟩))
  have h2 : ∀ v ∈ ev, yp < v.1.2 := fun e he => hyp _ (by simp only [List.mem_append, List.mem_map]; exact Or.inl (Or.inr ⟨e, he, rfl⟩))
  have h3 : ∀ v ∈ ins, yp < v.1.2 := fun e he => hyp _ (by simp only [List.mem_append, List.mem_map]; exact Or.inr ⟨e, he, rfl⟩)
  refine ⟨yp, { split := rfl, hi_eq := hL, pre_le := by simp, H_gt := h1, lo_le := by simp
                ws_gt := fun w hw => ⟨evx w hw, h2 w hw⟩, ws_sorted := evs, slope := by simp, orig := by simp
                sorted := hs.imp (fun h => Or.inl h), chain := hc, qsorted := hqs, qgt := hq, cnt := by simp [lastc]
                rin := ?_, rout := ?_, bal0 := bal0, balX := ?_, tot := fun y _ => tot y
                coverI := fun v hv _ => coverI v hv, coverX := fun y _ => coverX y, even := by simp
                vsum := by rw [vsum]; simp }⟩
  · intro f
    rw [rays_append, sumOn_append, rin f, List.filter_eq_self.2 (fun v hv => by simpa using h3 v hv)]
    simp [deltas, lastc]
  · intro f; rw [rout f]; simp [deltas, lastc]
  · intro y; rw [balX y]; simp [lastc]

/-! ### The output of the crossings -/

omit [AddCommGroup C] [DecidableEq C] in
theorem mem_grpAt {y : Int} {e : El C} (h : e ∈ grpAt X Lold y) : e ∈ Lold ∧ e.eval X = y := by
  unfold grpAt at h
  have := List.mem_filter.1 h
  exact ⟨this.1, by simpa using this.2⟩

theorem deltas_at {A : Type} [AddCommGroup A] (φ : C → A) (f : Line → Bool)
    (hs : Lold.Pairwise (fun a b => a.eval X ≤ b.eval X)) (y : Int) :
    sumOn f (deltas φ (lastc 0 (ltAt X Lold y)) (grpAt X Lold y)) =
      sumOn (fun l => f l && decide (atX l X = y)) (deltas φ 0 Lold) := by
  have sp := split3 (fun e : El C => e.eval X) hs y
  have e : Lold = ltAt X Lold y ++ grpAt X Lold y ++ gtAt X Lold y := by
    rw [List.append_assoc]; exact sp
  conv_rhs => rw [e]
  rw [deltas_append, deltas_append, sumOn_append, sumOn_append, sumOn_deltas_none φ _ _ (ltAt X Lold y),
    sumOn_deltas_none φ _ _ (gtAt X Lold y)]
  · rw [zero_add, add_zero]
    have hg : ∀ e ∈ grpAt X Lold y, e.eval X = y := fun e he => by simpa using (List.mem_filter.1 he).2
    generalize lastc 0 (ltAt X Lold y) = b
    generalize grpAt X Lold y = G at hg
    clear e sp
    induction G generalizing b with
    | nil => rfl
    | cons e G ih =>
      simp only [deltas, sumOn_cons]
      rw [ih _ (fun e he => hg e (by simp [he])), atX_line, hg e (by simp)]
      simp
  · intro e he
    have : y < e.eval X := by simpa using (List.mem_filter.1 he).2
    rw [atX_line, decide_eq_false (by omega)]; simp
  · intro e he
    have : e.eval X < y := by simpa using (List.mem_filter.1 he).2
    rw [atX_line, decide_eq_false (by omega)]; simp

theorem sumOn_or {A : Type} [AddCommGroup A] {f h1 h2 : Line → Bool} (R : List (Line × A))
    (hd : ∀ l, h1 l = true → h2 l = false) :
    sumOn (fun l => f l && (h1 l || h2 l)) R = sumOn (fun l => f l && h1 l) R + sumOn (fun l => f l && h2 l) R := by
  induction R with
  | nil => simp
  | cons r R ih =>
    simp only [sumOn_cons]
    rw [ih]
    have := hd r.1
    cases f r.1 <;> cases c1 : h1 r.1 <;> cases c2 : h2 r.1 <;> simp_all <;> abel

theorem fold_rays (g : C → Bool) (f : Line → Bool) (hsl : ∀ e ∈ Lold, Slope e)
    (hs : Lold.Pairwise (fun a b => a.eval X ≤ b.eval X)) : ∀ (ys : List Int) (out : List V45), ys.Pairwise (· < ·) →
    sumOn f (oRays (ys.foldl (fun o y => emitLows g (X, y) (lastc 0 (ltAt X Lold y)) (grpAt X Lold y) o) out)) =
      sumOn f (oRays out) - sumOn (fun l => f l && decide (atX l X ∈ ys)) (deltas (gi g) 0 Lold) := by
  intro ys
  induction ys with
  | nil =>
    intro out _
    have : sumOn (fun l => f l && decide (atX l X ∈ ([] : List Int))) (deltas (gi g) 0 Lold) = 0 := by
      rw [sumOn_deltas_none]; intro e _; simp
    rw [this]; simp
  | cons y ys ih =>
    intro out ha
    obtain ⟨h1, h2⟩ := List.pairwise_cons.1 ha
    rw [List.foldl_cons, ih _ h2, emitLows_rays g f _ _ _ (fun e he => hsl e (mem_grpAt he).1)
      (fun e he => (mem_grpAt he).2), deltas_at (gi g) f hs]
    have e : (fun l : Line => f l && decide (atX l X ∈ y :: ys)) =
        (fun l => f l && (decide (atX l X = y) || decide (atX l X ∈ ys))) := by
      funext l; simp [List.mem_cons]
    rw [e, sumOn_or]
    · ring
    · intro l hl
      simp only [decide_eq_true_eq] at hl
      simp only [decide_eq_false_iff_not]
      intro h; have := h1 _ h; omega

theorem fold_bal (g : C → Bool) (hsl : ∀ e ∈ Lold, Slope e)
    (hs : Lold.Pairwise (fun a b => a.eval X ≤ b.eval X)) (q : P) : ∀ (ys : List Int) (out : List V45), ys.Pairwise (· < ·) →
    bal (ys.foldl (fun o y => emitLows g (X, y) (lastc 0 (ltAt X Lold y)) (grpAt X Lold y) o) out) q =
      bal out q - (if q.1 = X ∧ q.2 ∈ ys then sumOn (fun l => decide (atX l X = q.2)) (deltas (gi g) 0 Lold) else 0) := by
  intro ys
  induction ys with
  | nil => intro out _; simp
  | cons y ys ih =>
    intro out ha
    obtain ⟨h1, h2⟩ := List.pairwise_cons.1 ha
    rw [List.foldl_cons, ih _ h2, emitLows_bal g q _ _ _ (fun e he => hsl e (mem_grpAt he).1)]
    have e : gi g (lastc (lastc 0 (ltAt X Lold y)) (grpAt X Lold y)) - gi g (lastc 0 (ltAt X Lold y)) =
        sumOn (fun l => decide (atX l X = y)) (deltas (gi g) 0 Lold) := by
      have := deltas_at (X := X) (gi g) (fun _ => true) hs y
      rw [sumOn_deltas_all _ _ _ _ (fun _ _ => rfl)] at this
      simpa using this
    rw [e]
    by_cases c : (X, y) = q
    · subst c
      have : y ∉ ys := fun h => by have := h1 y h; omega
      simp [this]
    · rw [if_neg c]
      have : ¬ (q.1 = X ∧ q.2 = y) := fun h => c (Prod.ext h.1.symm h.2.symm)
      by_cases c2 : q.1 = X
      · have c3 : q.2 ≠ y := fun h => this ⟨c2, h⟩
        simp [c2, c3]
      · simp [c2]

theorem fold_ext (g : C → Bool) (hsl : ∀ e ∈ Lold, Slope e) : ∀ (ys : List Int) (out : List V45),
    Ext X out (ys.foldl (fun o y => emitLows g (X, y) (lastc 0 (ltAt X Lold y)) (grpAt X Lold y) o) out) := by
  intro ys
  induction ys with
  | nil => intro out; exact Ext.refl _ _
  | cons y ys ih =>
    intro out
    rw [List.foldl_cons]
    exact (emitLows_ext g _ _ _ (fun e he => hsl e (mem_grpAt he).1)).trans (ih _)

/-! ### Merging the crossings into the vertices -/

omit [AddCommGroup C] [DecidableEq C] in
theorem mergeCross_perm : ∀ (cv ins : List (Vert C)), (mergeCross cv ins).Perm (cv ++ ins) := by
  intro cv
  induction cv with
  | nil => intro ins; simp [mergeCross]
  | cons v cv ih =>
    intro ins
    unfold mergeCross
    refine ((List.Perm.refl _).append ((ih _).cons v)).trans ?_
    refine List.perm_middle.trans ?_
    refine List.Perm.cons v ?_
    rw [← List.append_assoc]
    refine (List.perm_append_comm.append_right _).trans ?_
    rw [List.append_assoc, List.takeWhile_append_dropWhile]
    exact List.Perm.refl _

omit [AddCommGroup C] [DecidableEq C] in
theorem mergeCross_sorted : ∀ (cv ins : List (Vert C)), YSorted cv → YSorted ins → YSorted (mergeCross cv ins) := by
  intro cv
  induction cv with
  | nil => intro ins _ h; simpa [mergeCross] using h
  | cons v cv ih =>
    intro ins hc hi
    obtain ⟨h1, h2⟩ := List.pairwise_cons.1 hc
    have tl := takeWhile_lt (fun w : Vert C => w.1.2) hi v.1.2
    unfold mergeCross
    rw [tl.1, tl.2]
    have hrest : ∀ w ∈ mergeCross cv (ins.filter (fun w => decide (¬ w.1.2 < v.1.2))), v.1.2 ≤ w.1.2 := by
      intro w hw
      rcases List.mem_append.1 ((mergeCross_perm _ _).mem_iff.1 hw) with h | h
      · exact h1 w h
      · have := (List.mem_filter.1 h).2; simpa using this
    unfold YSorted at *
    rw [List.pairwise_append]
    refine ⟨hi.sublist List.filter_sublist, List.pairwise_cons.2 ⟨hrest, ih _ h2 (hi.sublist List.filter_sublist)⟩, ?_⟩
    intro a ha b hb
    have h3 : a.1.2 < v.1.2 := by simpa using (List.mem_filter.1 ha).2
    rcases List.mem_cons.1 hb with rfl | hb
    · omega
    · have := hrest b hb; omega

theorem totQ_perm {y : Int} {a b : List (Vert C)} (h : a.Perm b) : totQ y a = totQ y b := by
  unfold totQ
  rw [((h.filter _).map _).sum_eq, ((h.filter _).map _).sum_eq, ((h.filter _).map _).sum_eq, ((h.filter _).map _).sum_eq]

theorem totQ_cv {ys : List Int} (ha : ys.Pairwise (· < ·)) (q : Int → Quad C) (y : Int) :
    totQ y (ys.map (fun z => (((X, z), q z) : Vert C))) = if y ∈ ys then q y else ⟨0, 0, 0, 0⟩ := by
  induction ys with
  | nil => simp [totQ]
  | cons z ys ih =>
    obtain ⟨h1, h2⟩ := List.pairwise_cons.1 ha
    rw [List.map_cons, totQ_cons, ih h2]
    simp only
    by_cases c : z = y
    · subst c
      have : z ∉ ys := fun h => by have := h1 z h; omega
      simp [this, Quad.add_zero]
    · have : ¬ y = z := fun h => c h.symm
      simp [c, this]

end Verif.Deg45
