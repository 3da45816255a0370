import Verif.Proofs.S45Start
/-! # The 45-degree scanline from stop to stop -/
namespace Verif.Deg45

variable {C : Type} [AddCommGroup C] [DecidableEq C]
variable {g : C → Bool} {EV : Prop}

/-- The lines below a point. -/
def under (q : ℚ × ℚ) (l : Line) : Bool := decide (lineQ l q.1 ≤ q.2)

/-- The result holds at a point if and only if the condition holds for the counts of the input there. -/
def Hist (g : C → Bool) (done : List (Vert C)) (out : List V45) (q : ℚ × ℚ) : Prop :=
  sumOn (under q) (oRays (out.filter (fun v => decide ((v.pt.1 : ℚ) ≤ q.1)))) =
    gi g (sumOn (under q) (rays (done.filter (fun v => decide ((v.1.1 : ℚ) ≤ q.1)))))

/-- The state between two columns. -/
structure Inv (g : C → Bool) (EV : Prop) (st : St C) (done : List (Vert C)) (out : List V45) : Prop where
  dn : Done g st.x done st.L st.Q out
  even : EV → ∀ e ∈ st.L, EvenEl e
  inx : ∀ v ∈ done, v.1.1 ≤ st.x
  outx : ∀ v ∈ out, v.pt.1 ≤ st.x ∧ (v.rise = -1 ∨ v.rise = 0 ∨ v.rise = 1 ∨ v.rise = 2)
  hist : ∀ q : ℚ × ℚ, q.1 < st.x → Hist g done out q

theorem split_le {α : Type} (f : α → ℚ) (c : ℚ) {L : List α} (h : L.Pairwise (fun a b => f a ≤ f b)) :
    ∃ A B, L = A ++ B ∧ (∀ a ∈ A, f a ≤ c) ∧ ∀ b ∈ B, ¬ f b ≤ c := by
  induction L with
  | nil => exact ⟨[], [], rfl, by simp, by simp⟩
  | cons a L ih =>
    obtain ⟨h1, h2⟩ := List.pairwise_cons.1 h
    by_cases c1 : f a ≤ c
    · obtain ⟨A, B, e, hA, hB⟩ := ih h2
      refine ⟨a :: A, B, by rw [e]; rfl, ?_, hB⟩
      intro x hx
      rcases List.mem_cons.1 hx with rfl | hx
      · exact c1
      · exact hA x hx
    · refine ⟨[], a :: L, rfl, by simp, ?_⟩
      intro x hx
      rcases List.mem_cons.1 hx with rfl | hx
      · exact c1
      · exact fun h' => c1 (le_trans (h1 x hx) h')

/-- Between the present stop and the next one the scanline tells the counts. -/
theorem done_hist {x X : Int} {done : List (Vert C)} {L : List (El C)} {Q : List P} {out : List V45}
    (h0 : g 0 = false) (d : Done g x done L Q out) (hX : x < X) (hQ : ∀ p ∈ Q, X ≤ p.1) {q : ℚ × ℚ}
    (h1 : (x : ℚ) ≤ q.1) (h2 : q.1 ≤ X) :
    sumOn (under q) (oRays out) = gi g (sumOn (under q) (rays done)) := by
  have hs := good_between d.good hX hQ q.1 h1 h2
  obtain ⟨A, B, e, hA, hB⟩ := split_le (fun e : El C => lineQ e.line q.1) q.2 hs
  have hA' : ∀ e ∈ A, under q e.line = true := fun e he => by unfold under; simpa using hA e he
  have hB' : ∀ e ∈ B, under q e.line = false := fun e he => by unfold under; simpa using hB e he
  rw [d.rout, d.rin, e, deltas_append, deltas_append, sumOn_append, sumOn_append, sumOn_deltas_all _ _ _ _ hA',
    sumOn_deltas_none _ _ _ _ hB', sumOn_deltas_all _ _ _ _ hA', sumOn_deltas_none _ _ _ _ hB']
  simp [gi, h0]

theorem filter_le_all {α : Type} {l : List α} {f : α → Int} {t : ℚ} {x : Int} (h : ∀ a ∈ l, f a ≤ x) (hx : (x : ℚ) ≤ t) :
    l.filter (fun a => decide ((f a : ℚ) ≤ t)) = l := by
  rw [List.filter_eq_self]
  intro a ha
  have : (f a : ℚ) ≤ x := by exact_mod_cast h a ha
  simpa using le_trans this hx

theorem filter_gt_all {α : Type} {l : List α} {f : α → Int} {t : ℚ} {x : Int} (h : ∀ a ∈ l, f a = x) (hx : t < x) :
    l.filter (fun a => decide ((f a : ℚ) ≤ t)) = [] := by
  rw [List.filter_eq_nil_iff]
  intro a ha
  rw [h a ha]
  simpa using hx

/-- The column of a stop is done: the state is in order again. -/
theorem inv_column {st : St C} {done ins : List (Vert C)} {out out' : List V45} {X : Int} {L' : List (El C)} {Q' : List P}
    (h0 : g 0 = false) (i : Inv g EV st done out) (hX : st.x ≤ X)
    (hQ : st.x < X → ∀ p ∈ st.Q, X ≤ p.1) (hins : ∀ v ∈ ins, v.1.1 = X)
    (d : Done g X (done ++ ins) L' Q' out') (de : EV → ∀ e ∈ L', EvenEl e) (hext : Ext X out out') :
    Inv g EV ⟨L', Q', X⟩ (done ++ ins) out' := by
  obtain ⟨t, rfl, ht⟩ := hext
  refine { dn := d, even := de, inx := ?_, outx := ?_, hist := ?_ }
  · intro v hv
    rcases List.mem_append.1 hv with h | h
    · exact le_trans (i.inx v h) hX
    · exact le_of_eq (hins v h)
  · intro v hv
    rcases List.mem_append.1 hv with h | h
    · have := i.outx v h; exact ⟨le_trans this.1 hX, this.2⟩
    · exact ⟨le_of_eq (ht v h).1, (ht v h).2⟩
  · intro q hq
    simp only at hq
    unfold Hist
    rw [List.filter_append, List.filter_append, filter_gt_all (f := fun v : V45 => v.pt.1) (fun v hv => (ht v hv).1) hq,
      filter_gt_all (f := fun v : Vert C => v.1.1) hins hq, List.append_nil, List.append_nil]
    by_cases c : q.1 < st.x
    · exact i.hist q c
    · push Not at c
      have hlt : st.x < X := by
        have : (st.x : ℚ) < X := lt_of_le_of_lt c hq
        exact_mod_cast this
      rw [filter_le_all (f := fun v : V45 => v.pt.1) (fun v hv => (i.outx v hv).1) c,
        filter_le_all (f := fun v : Vert C => v.1.1) i.inx c]
      exact done_hist h0 i.dn hlt (hQ hlt) c (le_of_lt hq)

/-- What is asked of the vertices of one abscissa. -/
structure ColIn (X : Int) (EV : Prop) (ins : List (Vert C)) : Prop where
  insx : ∀ v ∈ ins, v.1.1 = X
  sorted : YSorted ins
  balanced : ∀ y, (totQ y ins).n + (totQ y ins).z + (totQ y ins).p = (totQ y ins).v
  vsum : (ins.map (fun v => v.2.v)).sum = 0
  even : EV → ∀ v ∈ ins, EvenV v

theorem totQ_nil (y : Int) : totQ y ([] : List (Vert C)) = ⟨0, 0, 0, 0⟩ := rfl

theorem ColIn.nil (X : Int) (EV : Prop) : ColIn X EV ([] : List (Vert C)) :=
  { insx := by simp, sorted := List.Pairwise.nil, balanced := fun y => by rw [totQ_nil]; simp, vsum := by simp, even := by simp }

/-- The state at the start of a column after a step to the right. -/
theorem adv_mid {st : St C} {done ins ev : List (Vert C)} {out out1 : List V45} {X : Int} {L : List (El C)}
    {Q : List P} {cv : List (Vert C)} {ys : List Int}
    (i : Inv g EV st done out) (hX : st.x < X) (hQ : ∀ p ∈ st.Q, X ≤ p.1)
    (sp : AdvSpec g X st.L out L Q out1 cv ys) (ci : ColIn X EV ins)
    (hev : ev.Perm (cv ++ ins)) (hes : YSorted ev) :
    Col X st.L ins EV ∧ ∃ yp, Mid g X st.L done ins EV [] L st.L [] Q out1 0 yp 0 ev := by
  have hG := i.dn.good
  have hleB := good_move hG hX hQ
  have hle := pairwise_le hleB
  have hC : Col X st.L ins EV :=
    { slope := hG.slope, sorted := hleB.imp (fun h => by unfold LeB at h; omega)
      orig := fun e he => lt_of_le_of_lt (hG.orig e he) hX, insx := ci.insx, balanced := ci.balanced
      evenL := i.even, evenI := ci.even }
  have hdec : ∀ l : Line, decide (atX l X ∈ ys) = isX X st.L (atX l X) := by
    intro l
    have := sp.mem (atX l X)
    by_cases c : atX l X ∈ ys
    · rw [this.1 c]; simpa using c
    · rw [decide_eq_false c]; symm; rw [Bool.eq_false_iff]; exact fun h => c (this.2 h)
  have hcvx : ∀ v ∈ cv, v.1.1 = X := by
    intro v hv; rw [sp.cv_eq] at hv; obtain ⟨y, _, rfl⟩ := List.mem_map.1 hv; rfl
  obtain ⟨yp, m⟩ := mid_start (g := g) (done := done) hC (Lcur := L) (Q := Q) (out := out1) (ev := ev) sp.left_eq sp.sorted
    sp.chain sp.qsorted sp.qgt i.dn.rin
    (by
      intro f
      rw [sp.out_eq, fold_rays g f hG.slope hle ys out sp.asc, i.dn.rout f]
      have e : sumOn f (deltas (gi g) 0 st.L) =
          sumOn (fun l => f l && decide (atX l X ∈ ys)) (deltas (gi g) 0 st.L) +
          sumOn (fun l => f l && !isX X st.L (atX l X)) (deltas (gi g) 0 st.L) := by
        rw [← sumOn_or (h1 := fun l => decide (atX l X ∈ ys)) (h2 := fun l => !isX X st.L (atX l X))]
        · congr 1; funext l; simp only [hdec]; cases f l <;> simp
        · intro l hl; simp only [hdec] at hl; simp [hl]
      rw [e]; ring)
    (by
      intro pt hpt
      rw [sp.out_eq, fold_bal g hG.slope hle pt ys out sp.asc, i.dn.bal pt]
      simp [hpt])
    (by
      intro y
      rw [sp.out_eq, fold_bal g hG.slope hle (X, y) ys out sp.asc, i.dn.bal (X, y)]
      simp only [true_and, zero_sub]
      congr 1
      by_cases c : isX X st.L y = true
      · rw [if_pos ((sp.mem y).2 c), if_pos c]
      · rw [if_neg (fun h => c ((sp.mem y).1 h)), if_neg c])
    hes
    (by
      intro v hv
      rcases List.mem_append.1 (hev.mem_iff.1 hv) with h | h
      · exact hcvx v h
      · exact ci.insx v h)
    (by
      intro y
      rw [totQ_perm hev, totQ_append, Quad.add_comm]
      congr 1
      rw [sp.cv_eq, totQ_cv sp.asc (fun y => crossQ (lastc 0 (ltAt X st.L y)) (grpAt X st.L y)) y]
      by_cases c : isX X st.L y = true
      · rw [if_pos ((sp.mem y).2 c), if_pos c]; rfl
      · rw [if_neg (fun h => c ((sp.mem y).1 h)), if_neg c])
    (fun v hv => ⟨v, hev.mem_iff.2 (List.mem_append.2 (Or.inr hv)), rfl⟩)
    (by
      intro y hy
      refine ⟨((X, y), crossQ (lastc 0 (ltAt X st.L y)) (grpAt X st.L y)), hev.mem_iff.2 (List.mem_append.2 (Or.inl ?_)), rfl⟩
      rw [sp.cv_eq]
      exact List.mem_map.2 ⟨y, (sp.mem y).2 hy, rfl⟩)
    (by
      rw [(hev.map _).sum_eq, List.map_append, List.sum_append, ci.vsum, sp.cv_eq, List.map_map]
      rw [add_zero]
      apply List.sum_eq_zero
      intro c hc
      obtain ⟨y, _, rfl⟩ := List.mem_map.1 hc
      rfl)
  exact ⟨hC, yp, m⟩

/-- A column after a step to the right. -/
theorem adv_column {st : St C} {done ins ev tail : List (Vert C)} {out out1 : List V45} {X : Int} {L : List (El C)}
    {Q : List P} {cv : List (Vert C)} {ys : List Int}
    (h0 : g 0 = false) (i : Inv g EV st done out) (hX : st.x < X) (hQ : ∀ p ∈ st.Q, X ≤ p.1)
    (sp : AdvSpec g X st.L out L Q out1 cv ys) (ci : ColIn X EV ins)
    (hev : ev.Perm (cv ++ ins)) (hes : YSorted ev) (htail : ∀ t ∈ tail.head?, t.1.1 ≠ X) :
    (∃ L' Q' out', processEvent g X (ev ++ tail) L Q out1 = .ok (tail, L', Q', out') ∧
      Inv g EV ⟨L', Q', X⟩ (done ++ ins) out' ∧ Ext X out out') ∨
    (processEvent g X (ev ++ tail) L Q out1 = .error .precision ∧ ¬ EV) := by
  obtain ⟨hC, yp, m⟩ := adv_mid i hX hQ sp ci hev hes
  have hG := i.dn.good
  unfold processEvent
  rcases procLoop_spec hC ((ev ++ tail).length + L.length) [] L st.L [] Q out1 0 yp 0 ev tail (0, 0) none m
    (fun h => absurd rfl h) (fun h => absurd rfl h) htail (by rw [List.length_append]) with
    ⟨L', Q', out', s1, s2, s3, s4⟩ | s
  · left
    have hext : Ext X out out' := by
      refine Ext.trans ?_ s4
      rw [sp.out_eq]; exact fold_ext g hG.slope ys out
    exact ⟨L', Q', out', s1, inv_column h0 i (le_of_lt hX) (fun _ => hQ) ci.insx s2 s3 hext, hext⟩
  · right; exact s

/-- The state at the start of a column at the present stop. -/
theorem now_mid {st : St C} {done ins : List (Vert C)} {out : List V45}
    (i : Inv g EV st done out) (ho : ∀ e ∈ st.L, e.x < st.x)
    (hs : st.L.Pairwise (fun a b => a.eval st.x < b.eval st.x)) (ci : ColIn st.x EV ins) :
    Col st.x st.L ins EV ∧ (∀ y, isX st.x st.L y = false) ∧ ∃ yp, Mid g st.x st.L done ins EV [] st.L st.L [] st.Q out 0 yp 0 ins := by
  have hG := i.dn.good
  have hC : Col st.x st.L ins EV :=
    { slope := hG.slope, sorted := hs.imp (fun h => Or.inl h)
      orig := ho, insx := ci.insx, balanced := ci.balanced, evenL := i.even, evenI := ci.even }
  have hx : ∀ y, isX st.x st.L y = false := by
    intro y
    unfold isX
    simp only [decide_eq_false_iff_not, not_le]
    have hp : (grpAt st.x st.L y).Pairwise (fun a b => a.eval st.x < b.eval st.x) := hs.sublist List.filter_sublist
    have hm : ∀ e ∈ grpAt st.x st.L y, e.eval st.x = y := fun e he => (mem_grpAt he).2
    rcases hg : grpAt st.x st.L y with _ | ⟨a, _ | ⟨b, r⟩⟩
    · simp
    · simp
    · rw [hg] at hp hm
      have h1 := (List.pairwise_cons.1 hp).1 b (by simp)
      have h2 := hm a (by simp); have h3 := hm b (by simp)
      omega
  have hL : st.L = st.L.filter (fun e => !isX st.x st.L (e.eval st.x)) := by
    symm; rw [List.filter_eq_self]; intro e _; rw [hx]; rfl
  obtain ⟨yp, m⟩ := mid_start (g := g) (done := done) hC (Lcur := st.L) (Q := st.Q) (out := out) (ev := ins) hL hs
    hG.chain hG.qsorted hG.qgt i.dn.rin
    (by
      intro f; rw [i.dn.rout f]; congr 1; funext l; rw [hx]; simp)
    (fun pt _ => i.dn.bal pt)
    (by intro y; rw [i.dn.bal, hx]; simp)
    ci.sorted ci.insx
    (by intro y; rw [hx]; simp [Quad.add_zero])
    (fun v hv => ⟨v, hv, rfl⟩)
    (by intro y hy; rw [hx] at hy; simp at hy)
    ci.vsum
  exact ⟨hC, hx, yp, m⟩

/-- A column at the present stop. -/
theorem now_column {st : St C} {done ins tail : List (Vert C)} {out : List V45}
    (h0 : g 0 = false) (i : Inv g EV st done out) (ho : ∀ e ∈ st.L, e.x < st.x)
    (hs : st.L.Pairwise (fun a b => a.eval st.x < b.eval st.x)) (ci : ColIn st.x EV ins)
    (htail : ∀ t ∈ tail.head?, t.1.1 ≠ st.x) :
    (∃ L' Q' out', processEvent g st.x (ins ++ tail) st.L st.Q out = .ok (tail, L', Q', out') ∧
      Inv g EV ⟨L', Q', st.x⟩ (done ++ ins) out' ∧ Ext st.x out out') ∨
    (processEvent g st.x (ins ++ tail) st.L st.Q out = .error .precision ∧ ¬ EV) := by
  obtain ⟨hC, -, yp, m⟩ := now_mid i ho hs ci
  unfold processEvent
  rcases procLoop_spec hC ((ins ++ tail).length + st.L.length) [] st.L st.L [] st.Q out 0 yp 0 ins tail (0, 0) none m
    (fun h => absurd rfl h) (fun h => absurd rfl h) htail (by rw [List.length_append]) with
    ⟨L', Q', out', s1, s2, s3, s4⟩ | s
  · left
    exact ⟨L', Q', out', s1, inv_column h0 i (le_refl _) (fun h => absurd h (lt_irrefl _)) ci.insx s2 s3 s4, s4⟩
  · right; exact s

/-! ### The loop over the stops -/

/-- What is asked of the vertices. -/
structure InOK (EV : Prop) (vs : List (Vert C)) : Prop where
  sorted : vs.Pairwise (fun v w => v.1.1 < w.1.1 ∨ (v.1.1 = w.1.1 ∧ v.1.2 ≤ w.1.2))
  cols : ∀ X, ColIn X EV (vs.filter (fun v => decide (v.1.1 = X)))

/-- The scanline has just arrived at a stop where there are vertices. -/
def Fresh (st : St C) (vs : List (Vert C)) : Prop :=
  (∀ v ∈ vs, st.x < v.1.1) ∨
    ((∀ e ∈ st.L, e.x < st.x) ∧ st.L.Pairwise (fun a b => a.eval st.x < b.eval st.x) ∧ ∀ v ∈ vs, st.x ≤ v.1.1)

theorem takeWhile_x {vs : List (Vert C)} (hs : vs.Pairwise (fun v w => v.1.1 < w.1.1 ∨ (v.1.1 = w.1.1 ∧ v.1.2 ≤ w.1.2)))
    {X : Int} (hX : ∀ v ∈ vs, X ≤ v.1.1) :
    vs.takeWhile (fun v => decide (v.1.1 = X)) = vs.filter (fun v => decide (v.1.1 = X)) ∧
    vs.dropWhile (fun v => decide (v.1.1 = X)) = vs.filter (fun v => decide (X < v.1.1)) := by
  have hs' : vs.Pairwise (fun v w => v.1.1 ≤ w.1.1) := hs.imp (fun h => by omega)
  have e := takeWhile_eq (fun v : Vert C => v.1.1) hs' X
  have e1 : vs.filter (fun v => decide (¬ v.1.1 < X)) = vs := by
    rw [List.filter_eq_self]; intro v hv; have := hX v hv; simp; omega
  rw [e1] at e
  exact e

theorem InOK.rest {vs : List (Vert C)} (h : InOK EV vs) (X : Int) : InOK EV (vs.filter (fun v => decide (X < v.1.1))) := by
  refine { sorted := h.sorted.sublist List.filter_sublist, cols := fun Y => ?_ }
  rw [List.filter_filter]
  by_cases c : X < Y
  · have : vs.filter (fun v => decide (v.1.1 = Y) && decide (X < v.1.1)) = vs.filter (fun v => decide (v.1.1 = Y)) := by
      apply List.filter_congr
      intro v _
      by_cases c2 : v.1.1 = Y
      · simp [c2, c]
      · simp [c2]
    rw [this]; exact h.cols Y
  · have : vs.filter (fun v => decide (v.1.1 = Y) && decide (X < v.1.1)) = [] := by
      rw [List.filter_eq_nil_iff]; intro v _; simp; omega
    rw [this]; exact ColIn.nil _ _

theorem filter_rest {vs : List (Vert C)} (hs : vs.Pairwise (fun v w => v.1.1 < w.1.1 ∨ (v.1.1 = w.1.1 ∧ v.1.2 ≤ w.1.2)))
    {X : Int} (hX : ∀ v ∈ vs, X ≤ v.1.1) :
    vs = vs.filter (fun v => decide (v.1.1 = X)) ++ vs.filter (fun v => decide (X < v.1.1)) := by
  have := takeWhile_x hs hX
  rw [← this.1, ← this.2, List.takeWhile_append_dropWhile]

/-- The output of some rounds: everything new lies at or after `x`, and after `x` if `b`. -/
def New (x : Int) (b : Prop) (out out' : List V45) : Prop :=
  ∃ t, out' = out ++ t ∧ ∀ v ∈ t, x ≤ v.pt.1 ∧ (b → x < v.pt.1)

theorem New.refl (x : Int) (b : Prop) (out : List V45) : New x b out out := ⟨[], by simp, by simp⟩

theorem New.trans {x X : Int} {b b' : Prop} {o1 o2 o3 : List V45} (h : Ext X o1 o2) (h' : New X b' o2 o3) (hx : x ≤ X) (hb : b → x < X) :
    New x b o1 o3 := by
  obtain ⟨t, rfl, h1⟩ := h
  obtain ⟨u, rfl, h2⟩ := h'
  refine ⟨t ++ u, by simp, fun v hv => ?_⟩
  rcases List.mem_append.1 hv with h | h
  · have := (h1 v h).1; exact ⟨by omega, fun g => by have := hb g; omega⟩
  · have := (h2 v h).1; exact ⟨by omega, fun g => by have := hb g; omega⟩

theorem scanLoop_spec (h0 : g 0 = false) {M : Int} : ∀ (k : Nat) (st : St C) (vs done : List (Vert C)) (out : List V45),
    Inv g EV st done out → InOK EV vs → Fresh st vs → st.x ≤ M → (∀ v ∈ vs, v.1.1 ≤ M) →
    vs.length + (M - st.x).toNat ≤ k →
    (∃ st' out', scanLoop g k st vs out = .ok (st', out') ∧ Inv g EV st' (done ++ vs) out' ∧ (st'.x ≤ M ∧ st.x ≤ st'.x) ∧
      New st.x (∀ v ∈ vs, st.x < v.1.1) out out') ∨
    (scanLoop g k st vs out = .error .precision ∧ ¬ EV) := by
  intro k
  induction k with
  | zero =>
    intro st vs done out i _ _ hxM _ hk
    have : vs = [] := List.eq_nil_of_length_eq_zero (by omega)
    subst this
    left; exact ⟨st, out, by simp [scanLoop], by simpa using i, ⟨hxM, le_refl _⟩, New.refl _ _ _⟩
  | succ k ih =>
    intro st vs done out i hin hfr hxM hM hk
    cases vs with
    | nil => left; exact ⟨st, out, by simp [scanLoop], by simpa using i, ⟨hxM, le_refl _⟩, New.refl _ _ _⟩
    | cons w ws =>
      have hge : ∀ v ∈ w :: ws, w.1.1 ≤ v.1.1 := by
        intro v hv
        rcases List.mem_cons.1 hv with rfl | hv
        · exact le_refl _
        · have := (List.pairwise_cons.1 hin.sorted).1 v hv; omega
      have hwx : st.x ≤ w.1.1 := by
        rcases hfr with h | h
        · exact le_of_lt (h w (by simp))
        · exact h.2.2 w (by simp)
      have hwM := hM w (by simp)
      unfold scanLoop
      by_cases c : w.1.1 ≠ st.x
      · rw [if_pos c]
        simp only
        have hwlt : st.x < w.1.1 := by omega
        -- the next stop
        obtain ⟨X, hXd, hX1, hX2, hX3⟩ : ∃ X, nextStop st.Q w.1.1 = X ∧ st.x < X ∧ X ≤ w.1.1 ∧ ∀ p ∈ st.Q, X ≤ p.1 := by
          refine ⟨_, rfl, ?_⟩
          unfold nextStop
          cases hQ : st.Q with
          | nil => exact ⟨hwlt, le_refl _, by simp⟩
          | cons p Q =>
            have hp : st.x < p.1 := i.dn.good.qgt p (by rw [hQ]; simp)
            have hs := i.dn.good.qsorted
            rw [hQ] at hs
            have hall : ∀ r ∈ p :: Q, p.1 ≤ r.1 := by
              intro r hr
              rcases List.mem_cons.1 hr with rfl | hr
              · exact le_refl _
              · have := (List.pairwise_cons.1 hs).1 r hr; omega
            simp only
            split_ifs with c2
            · exact ⟨by omega, by omega, fun r hr => by have := hall r hr; omega⟩
            · exact ⟨hwlt, le_refl _, fun r hr => by have := hall r hr; omega⟩
        rw [hXd]
        have hfuel : ∀ vs' : List (Vert C), vs'.length ≤ (w :: ws).length → vs'.length + (M - X).toNat ≤ k := by
          intro vs' h
          simp only [List.length_cons] at h hk
          omega
        rcases advance_spec g i.dn.good hX1 hX3 out with ⟨L, Q, out1, cv, ys, e1, sp⟩ | ⟨e1, e2⟩
        swap
        · right; rw [e1]; exact ⟨rfl, fun h => e2 (i.even h)⟩
        rw [e1]
        simp only
        by_cases c2 : cv ≠ [] ∧ X = w.1.1
        · rw [if_pos c2]
          simp only
          have hXw : ∀ v ∈ w :: ws, X ≤ v.1.1 := fun v hv => by have := hge v hv; omega
          obtain ⟨t1, t2⟩ := takeWhile_x hin.sorted hXw
          rw [t1, t2]
          have hcvs : YSorted cv := by
            rw [sp.cv_eq]; unfold YSorted
            rw [List.pairwise_map]
            exact sp.asc.imp (fun h => by simp only; omega)
          have := adv_column (tail := []) h0 i hX1 hX3 sp (hin.cols X)
            (mergeCross_perm cv ((w :: ws).filter (fun v => decide (v.1.1 = X))))
            (mergeCross_sorted _ _ hcvs (hin.cols X).sorted) (by simp)
          rw [List.append_nil] at this
          rcases this with ⟨L', Q', out', s1, s2, s3⟩ | ⟨s1, s2⟩
          · rw [s1]
            simp only
            have hr : ∀ v ∈ (w :: ws).filter (fun v => decide (X < v.1.1)), X < v.1.1 ∧ v ∈ w :: ws := by
              intro v hv; have := List.mem_filter.1 hv; exact ⟨by simpa using this.2, this.1⟩
            rcases ih ⟨L', Q', X⟩ _ _ out' s2 (hin.rest X) (Or.inl (fun v hv => (hr v hv).1)) (by simp only; omega)
              (fun v hv => hM v (hr v hv).2) (hfuel _ (List.length_filter_le _ _)) with ⟨st', o', u1, u2, u3, u4⟩ | u
            · left
              refine ⟨st', o', u1, ?_, ⟨u3.1, by have := u3.2; simp only at this; omega⟩, New.trans s3 u4 (le_of_lt hX1) (fun _ => hX1)⟩
              rw [List.append_assoc, ← filter_rest hin.sorted hXw] at u2
              exact u2
            · right; exact u
          · right; rw [s1]; exact ⟨rfl, s2⟩
        · rw [if_neg c2]
          simp only
          have hcvs : YSorted cv := by
            rw [sp.cv_eq]; unfold YSorted
            rw [List.pairwise_map]
            exact sp.asc.imp (fun h => by simp only; omega)
          by_cases c3 : cv = []
          · -- nothing crosses here
            have hpe : processEvent g X cv L Q out1 = .ok ([], L, Q, out1) := by
              rw [c3]; unfold processEvent procLoop; rfl
            have := adv_column (ev := cv) (ins := []) (tail := []) h0 i hX1 hX3 sp (ColIn.nil X EV)
              (by rw [List.append_nil]) hcvs (by simp)
            rw [List.append_nil, List.append_nil, hpe] at this
            rcases this with ⟨L', Q', out', s1, s2, s3⟩ | ⟨s1, s2⟩
            · simp only [Except.ok.injEq, Prod.mk.injEq, true_and] at s1
              obtain ⟨rfl, rfl, rfl⟩ := s1
              rw [hpe]
              simp only
              have hf : Fresh ⟨L, Q, X⟩ (w :: ws) := by
                right
                refine ⟨?_, sp.sorted, fun v hv => by have := hge v hv; simp only; omega⟩
                intro e he
                have he' : e ∈ st.L := by rw [sp.left_eq] at he; exact (List.mem_filter.1 he).1
                have := i.dn.good.orig e he'
                simp only; omega
              rcases ih ⟨L, Q, X⟩ (w :: ws) done out1 s2 hin hf (by simp only; omega) hM (hfuel _ (le_refl _)) with
                ⟨st', o', u1, u2, u3, u4⟩ | u
              · exact Or.inl ⟨st', o', u1, u2, ⟨u3.1, by have := u3.2; simp only at this; omega⟩, New.trans s3 u4 (le_of_lt hX1) (fun _ => hX1)⟩
              · exact Or.inr u
            · simp at s1
          · have hlt : X < w.1.1 := by
              rcases lt_or_eq_of_le hX2 with h | h
              · exact h
              · exact absurd ⟨c3, h⟩ c2
            have := adv_column (ev := cv) (ins := []) (tail := []) h0 i hX1 hX3 sp (ColIn.nil X EV)
              (by rw [List.append_nil]) hcvs (by simp)
            rw [List.append_nil, List.append_nil] at this
            rcases this with ⟨L', Q', out', s1, s2, s3⟩ | ⟨s1, s2⟩
            · rw [s1]
              simp only
              rcases ih ⟨L', Q', X⟩ (w :: ws) done out' s2 hin
                (Or.inl (fun v hv => by have := hge v hv; simp only; omega)) (by simp only; omega) hM (hfuel _ (le_refl _)) with
                ⟨st', o', u1, u2, u3, u4⟩ | u
              · exact Or.inl ⟨st', o', u1, u2, ⟨u3.1, by have := u3.2; simp only at this; omega⟩, New.trans s3 u4 (le_of_lt hX1) (fun _ => hX1)⟩
              · exact Or.inr u
            · right; rw [s1]; exact ⟨rfl, s2⟩
      · rw [if_neg c]
        push Not at c
        have hfr' : (∀ e ∈ st.L, e.x < st.x) ∧ st.L.Pairwise (fun a b => a.eval st.x < b.eval st.x) := by
          rcases hfr with h | h
          · have := h w (by simp); omega
          · exact ⟨h.1, h.2.1⟩
        have hXw : ∀ v ∈ w :: ws, st.x ≤ v.1.1 := fun v hv => by have := hge v hv; omega
        have hsp := filter_rest hin.sorted hXw
        have hr : ∀ v ∈ (w :: ws).filter (fun v => decide (st.x < v.1.1)), st.x < v.1.1 ∧ v ∈ w :: ws := by
          intro v hv; have := List.mem_filter.1 hv; exact ⟨by simpa using this.2, this.1⟩
        have := now_column (tail := (w :: ws).filter (fun v => decide (st.x < v.1.1))) h0 i hfr'.1 hfr'.2 (hin.cols st.x)
          (fun t ht => by have := (hr t (List.mem_of_mem_head? ht)).1; omega)
        rw [← hsp] at this
        rcases this with ⟨L', Q', out', s1, s2, s3⟩ | ⟨s1, s2⟩
        · rw [s1]
          simp only
          have hlen : ((w :: ws).filter (fun v => decide (st.x < v.1.1))).length + (M - st.x).toNat ≤ k := by
            rw [List.filter_cons_of_neg (by simp; omega)]
            have := List.length_filter_le (fun v : Vert C => decide (st.x < v.1.1)) ws
            simp only [List.length_cons] at hk
            omega
          rcases ih ⟨L', Q', st.x⟩ _ _ out' s2 (hin.rest st.x) (Or.inl (fun v hv => (hr v hv).1)) hxM
            (fun v hv => hM v (hr v hv).2) hlen with ⟨st', o', u1, u2, u3, u4⟩ | u
          · left
            refine ⟨st', o', u1, ?_, ⟨u3.1, by have := u3.2; simp only at this; omega⟩, New.trans s3 u4 (le_refl _) (fun h => by have := h w (by simp); omega)⟩
            rw [List.append_assoc, ← hsp] at u2
            exact u2
          · right; exact u
        · right; rw [s1]; exact ⟨rfl, s2⟩

/-- One call of the scanline. -/
theorem scan_spec (h0 : g 0 = false) {st : St C} {vs done : List (Vert C)} {out : List V45} (i : Inv g EV st done out)
    (hin : InOK EV vs) (hfr : Fresh st vs) :
    (∃ st' out', scan g st vs out = .ok (st', out') ∧ Inv g EV st' (done ++ vs) out' ∧
      ((∀ M, st.x ≤ M → (∀ v ∈ vs, v.1.1 ≤ M) → st'.x ≤ M) ∧ st.x ≤ st'.x) ∧ New st.x (∀ v ∈ vs, st.x < v.1.1) out out') ∨
    (scan g st vs out = .error .precision ∧ ¬ EV) := by
  have hmax : ∀ (l : List (Vert C)) (a : Int), a ≤ l.foldl (fun m v => max m v.1.1) a ∧
      (∀ v ∈ l, v.1.1 ≤ l.foldl (fun m v => max m v.1.1) a) ∧
      (∀ M, a ≤ M → (∀ v ∈ l, v.1.1 ≤ M) → l.foldl (fun m v => max m v.1.1) a ≤ M) := by
    intro l
    induction l with
    | nil => intro a; simp
    | cons v l ih =>
      intro a
      obtain ⟨h1, h2, h3⟩ := ih (max a v.1.1)
      simp only [List.foldl_cons]
      refine ⟨by omega, ?_, ?_⟩
      · intro u hu
        rcases List.mem_cons.1 hu with rfl | hu
        · omega
        · exact h2 u hu
      · intro M ha hv
        exact h3 M (by have := hv v (by simp); omega) (fun u hu => hv u (by simp [hu]))
  obtain ⟨h1, h2, h3⟩ := hmax vs st.x
  unfold scan
  rcases scanLoop_spec h0 (M := vs.foldl (fun m v => max m v.1.1) st.x) _ st vs done out i hin hfr h1 h2 (le_refl _) with
    ⟨st', o', s1, s2, s3, s4⟩ | s
  · left; exact ⟨st', o', s1, s2, ⟨fun M ha hv => le_trans s3.1 (h3 M ha hv), s3.2⟩, s4⟩
  · right; exact s

end Verif.Deg45
