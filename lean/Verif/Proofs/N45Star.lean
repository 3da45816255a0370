import Verif.Proofs.T45Scan
import Verif.Proofs.N45Local
/-!
# Where two lines of the result meet, the 45-degree scanline writes both

If the result changes twice as one goes up just left of a grid point, two edges of different slopes end there, and the
scanline writes both ends.
-/
namespace Verif.N45
open Verif.Deg45 Verif.Set45

variable {C : Type} [AddCommGroup C] [DecidableEq C]
variable {g : C → Bool} {EV : Prop}

/-- Two events with different slopes at a point. -/
def Two (out : List V45) (p : P) : Prop := ∃ a ∈ out, ∃ b ∈ out, a.pt = p ∧ b.pt = p ∧ a.rise ≠ b.rise ∧ a.count ≠ 0 ∧ b.count ≠ 0

theorem Two.mono {out out' : List V45} {p : P} (h : ∀ e ∈ out, e ∈ out') (t : Two out p) : Two out' p := by
  obtain ⟨a, ha, b, hb, r⟩ := t
  exact ⟨a, h a ha, b, h b hb, r⟩

/-- The two changes of the result are at edges that end in the point. -/
theorem star_grp {X y : Int} {L : List (El C)} (hs : SideSorted (-1) X L) (hsl : ∀ e ∈ L, Deg45.Slope e) {f : ℚ × ℚ → Int}
    (hf : ∀ q : ℚ × ℚ, (X : ℚ) - 1 ≤ q.1 → q.1 < X → f q = gi g (sval L q)) (h : Left2 f (X, y)) :
    ∃ A M M' R, grpAt X L y = A ++ (M ++ (M' ++ R)) ∧ gi g (lastc (lastc 0 (ltAt X L y)) A) ≠ gi g (lastc (lastc 0 (ltAt X L y)) (A ++ M)) ∧
      gi g (lastc (lastc 0 (ltAt X L y)) (A ++ M)) ≠ gi g (lastc (lastc 0 (ltAt X L y)) (A ++ M ++ M')) := by
  obtain ⟨t, z1, z2, z3, t0, t1, c1, c2, c3, c4, d1, d2⟩ := h (1 / 4) (by norm_num)
  simp only at c1 c4 d1 d2
  have sp := split3 (fun e : El C => e.eval X) (hs.imp (fun h => by omega) : L.Pairwise (fun a b => a.eval X ≤ b.eval X)) y
  have e1 : L.filter (fun e => decide (e.eval X < y)) = ltAt X L y := rfl
  have e2 : L.filter (fun e => decide (e.eval X = y)) = grpAt X L y := rfl
  rw [e1, e2] at sp
  have es : (X : ℚ) - t - X = -t := by ring
  have hv : ∀ z : ℚ, (y : ℚ) - 1 / 4 < z → z < y + 1 / 4 →
      f ((X : ℚ) - t, z) = gi g (lastc (lastc 0 (ltAt X L y)) ((grpAt X L y).filter (fun e => under ((X : ℚ) - t, z) e.line))) := by
    intro z h1 h2
    rw [hf _ (by simp only; linarith) (by simp only; linarith)]
    have hA : ∀ e ∈ ltAt X L y, under ((X : ℚ) - t, z) e.line = true := by
      intro e he
      have h1 := List.mem_filter.1 he
      have h2 : e.eval X ≤ y - 1 := by have := h1.2; simp at this; omega
      have h3 : (e.eval X : ℚ) ≤ y - 1 := by exact_mod_cast h2
      have := slope_abs (hsl e h1.1) (-t) (ε := 1 / 4) (by linarith) (by linarith)
      unfold under
      rw [line_at e X, decide_eq_true_eq]
      simp only [es]
      linarith
    have hB : ∀ e ∈ L.filter (fun e => decide (y < e.eval X)), under ((X : ℚ) - t, z) e.line = false := by
      intro e he
      have h1 := List.mem_filter.1 he
      have h2 : y + 1 ≤ e.eval X := by have := h1.2; simp at this; omega
      have h3 : (y : ℚ) + 1 ≤ e.eval X := by exact_mod_cast h2
      have := slope_abs (hsl e h1.1) (-t) (ε := 1 / 4) (by linarith) (by linarith)
      unfold under
      rw [line_at e X, decide_eq_false_iff_not]
      simp only [es]
      linarith
    unfold sval
    have ef : L.filter (fun e => under ((X : ℚ) - t, z) e.line) = ltAt X L y ++ (grpAt X L y).filter (fun e => under ((X : ℚ) - t, z) e.line) := by
      conv_lhs => rw [sp]
      rw [List.filter_append, List.filter_append, List.filter_eq_self.2 hA,
        (List.filter_eq_nil_iff (l := L.filter (fun e => decide (y < e.eval X)))).2 (fun e he => by rw [hB e he]; simp), List.append_nil]
    rw [ef, lastc_append]
  rw [hv z1 (by linarith) (by linarith), hv z2 (by linarith) (by linarith)] at d1
  rw [hv z2 (by linarith) (by linarith), hv z3 (by linarith) (by linarith)] at d2
  have hg : (grpAt X L y).Pairwise (fun a b => lineQ a.line ((X : ℚ) - t) ≤ lineQ b.line ((X : ℚ) - t)) := by
    have hp : (grpAt X L y).Pairwise (fun a b => a.eval X < b.eval X ∨ (a.eval X = b.eval X ∧ (-1) * a.rise < (-1) * b.rise)) :=
      hs.sublist List.filter_sublist
    refine hp.imp_of_mem (fun {a b} ha hb h => ?_)
    have := side_lt (σ := -1) (Or.inr rfl) (hsl a (mem_grpAt ha).1) (hsl b (mem_grpAt hb).1) h t0 t1
    push_cast at this
    rw [show (X : ℚ) + -1 * t = X - t by ring] at this
    exact le_of_lt this
  obtain ⟨A, B1, eA, hA, hB1⟩ := split_le (fun e : El C => lineQ e.line ((X : ℚ) - t)) z1 hg
  rw [eA] at hg
  obtain ⟨M, B2, eM, hM, hB2⟩ := split_le (fun e : El C => lineQ e.line ((X : ℚ) - t)) z2 (List.pairwise_append.1 hg).2.1
  rw [eM] at hg hB1
  obtain ⟨M', R, eM', hM', hR⟩ := split_le (fun e : El C => lineQ e.line ((X : ℚ) - t)) z3 (List.pairwise_append.1 (List.pairwise_append.1 hg).2.1).2.1
  have eg : grpAt X L y = A ++ (M ++ (M' ++ R)) := by rw [eA, eM, eM']
  rw [eM'] at hB2 hB1
  have full : ∀ (K : List (El C)) (z : ℚ), (∀ e ∈ K, lineQ e.line ((X : ℚ) - t) ≤ z) → K.filter (fun e => under ((X : ℚ) - t, z) e.line) = K := by
    intro K z hK
    rw [List.filter_eq_self]
    intro e he; unfold under; simpa using hK e he
  have none : ∀ (K : List (El C)) (z : ℚ), (∀ e ∈ K, ¬ lineQ e.line ((X : ℚ) - t) ≤ z) → K.filter (fun e => under ((X : ℚ) - t, z) e.line) = [] := by
    intro K z hK
    rw [List.filter_eq_nil_iff]
    intro e he; unfold under; simpa using hK e he
  have f1 : (grpAt X L y).filter (fun e => under ((X : ℚ) - t, z1) e.line) = A := by
    rw [eg, List.filter_append, full A z1 hA, none _ z1 hB1, List.append_nil]
  have f2 : (grpAt X L y).filter (fun e => under ((X : ℚ) - t, z2) e.line) = A ++ M := by
    rw [eg, List.filter_append, List.filter_append, full A z2 (fun e he => le_trans (hA e he) (le_of_lt c2)), full M z2 hM, none _ z2 hB2, List.append_nil]
  have f3 : (grpAt X L y).filter (fun e => under ((X : ℚ) - t, z3) e.line) = A ++ M ++ M' := by
    rw [eg, List.filter_append, List.filter_append, List.filter_append, full A z3 (fun e he => le_trans (hA e he) (by linarith)),
      full M z3 (fun e he => le_trans (hM e he) (le_of_lt c3)), full M' z3 hM', none _ z3 hR, List.append_nil, List.append_assoc]
  rw [f1, f2] at d1
  rw [f2, f3] at d2
  exact ⟨A, M, M', R, eg, d1, d2⟩

omit [AddCommGroup C] [DecidableEq C] in
theorem emitLows_append {O : Type} (F : Fn C O) (pt : P) : ∀ (A B : List (El C)) (b : C) (out : List O),
    emitLows F pt b (A ++ B) out = emitLows F pt (lastc b A) B (emitLows F pt b A out)
  | [], B, b, out => rfl
  | e :: A, B, b, out => by
    show emitLows F pt e.count (A ++ B) _ = _
    rw [emitLows_append F pt A B]; rfl

omit [AddCommGroup C] [DecidableEq C] in
theorem emitLows_sub {O : Type} (F : Fn C O) (pt : P) : ∀ (A : List (El C)) (b : C) (out : List O), ∀ o ∈ out, o ∈ emitLows F pt b A out
  | [], _, _, _, h => h
  | e :: A, b, out, o, h => by
    refine emitLows_sub F pt A e.count _ o ?_
    unfold emit; exact List.mem_append_left _ h

omit [AddCommGroup C] [DecidableEq C] in
/-- A change of the result among the edges that end is written. -/
theorem emit_change (pt : P) : ∀ (M : List (El C)) (b : C) (R : List (El C)) (out : List V45), gi g b ≠ gi g (lastc b M) →
    ∃ e ∈ M, ∃ c, c ≠ 0 ∧ (⟨pt, e.rise, c⟩ : V45) ∈ emitLows (opFn g) pt b (M ++ R) out
  | [], b, R, out, h => absurd rfl h
  | e :: M, b, R, out, h => by
    by_cases c : gi g b = gi g e.count
    · rw [c] at h
      obtain ⟨a, ha, k, hk, hm⟩ := emit_change pt M e.count R (emit (opFn g) out b e.count pt e.rise true) h
      exact ⟨a, List.mem_cons_of_mem _ ha, k, hk, hm⟩
    · refine ⟨e, List.mem_cons_self, edgeType g b e.count * -1, ?_, ?_⟩
      · rw [edgeType_eq]; omega
      · show _ ∈ emitLows (opFn g) pt e.count (M ++ R) (emit (opFn g) out b e.count pt e.rise true)
        refine emitLows_sub _ _ _ _ _ _ ?_
        have hne : edgeType g b e.count ≠ 0 := by rw [edgeType_eq]; omega
        unfold emit opFn
        refine List.mem_append_right _ ?_
        simp [hne]

omit [DecidableEq C] in
theorem fold_sub {O : Type} (F : Fn C O) (X : Int) (L : List (El C)) : ∀ (ys : List Int) (out : List O), ∀ o ∈ out,
    o ∈ ys.foldl (fun o y => emitLows F (X, y) (lastc 0 (ltAt X L y)) (grpAt X L y) o) out
  | [], _, _, h => h
  | y :: ys, out, o, h => fold_sub F X L ys _ o (emitLows_sub F _ _ _ _ o h)

omit [DecidableEq C] in
theorem fold_has {O : Type} (F : Fn C O) (X : Int) (L : List (El C)) (y : Int) (e : O) (he : ∀ out : List O, e ∈ emitLows F (X, y) (lastc 0 (ltAt X L y)) (grpAt X L y) out) :
    ∀ (ys : List Int) (out : List O), y ∈ ys → e ∈ ys.foldl (fun o y => emitLows F (X, y) (lastc 0 (ltAt X L y)) (grpAt X L y) o) out
  | [], _, h => absurd h (by simp)
  | z :: ys, out, h => by
    rw [List.foldl_cons]
    by_cases c : z = y
    · subst c; exact fold_sub F X L ys _ e (he out)
    · exact fold_has F X L y e he ys _ (by
        rcases List.mem_cons.1 h with h | h
        · exact absurd h.symm c
        · exact h)

/-- At the next stop. -/
theorem star_adv {x X y : Int} {L L' : List (El C)} {Q Q' : List P} {out out1 : List V45} {cv : List (Vert C)} {ys : List Int} (hG : Deg45.Good x L Q) (hX : x < X)
    (hQ : ∀ p ∈ Q, X ≤ p.1) (sp : AdvSpec (opFn g) X L out L' Q' out1 cv ys) {f : ℚ × ℚ → Int}
    (hf : ∀ q : ℚ × ℚ, (X : ℚ) - 1 ≤ q.1 → q.1 < X → f q = gi g (sval L q)) (h : Left2 f (X, y)) : Two out1 (X, y) := by
  have hs : SideSorted (-1) X L := (good_move hG hX hQ).imp (fun h => by unfold LeB at h; omega)
  obtain ⟨A, M, M', R, eg, d1, d2⟩ := star_grp hs hG.slope hf h
  rw [lastc_append] at d1 d2
  rw [lastc_append, lastc_append] at d2
  have hp : (grpAt X L y).Pairwise (fun a b => a.eval X < b.eval X ∨ (a.eval X = b.eval X ∧ (-1) * a.rise < (-1) * b.rise)) :=
    hs.sublist List.filter_sublist
  have hm : ∀ e ∈ grpAt X L y, e.eval X = y := fun e he => (mem_grpAt he).2
  have k1 : ∀ o : List V45, ∃ e ∈ M, ∃ c, c ≠ 0 ∧ (⟨(X, y), e.rise, c⟩ : V45) ∈ emitLows (opFn g) (X, y) (lastc 0 (ltAt X L y)) (grpAt X L y) o := by
    intro o
    rw [eg, emitLows_append]
    exact emit_change _ M _ _ _ d1
  have k2 : ∀ o : List V45, ∃ e ∈ M', ∃ c, c ≠ 0 ∧ (⟨(X, y), e.rise, c⟩ : V45) ∈ emitLows (opFn g) (X, y) (lastc 0 (ltAt X L y)) (grpAt X L y) o := by
    intro o
    rw [eg, emitLows_append, emitLows_append]
    exact emit_change _ M' _ _ _ d2
  -- the new events do not depend on the old ones
  have ind : ∀ (e : V45), e ∈ emitLows (opFn g) (X, y) (lastc 0 (ltAt X L y)) (grpAt X L y) [] →
      ∀ o, e ∈ emitLows (opFn g) (X, y) (lastc 0 (ltAt X L y)) (grpAt X L y) o := by
    intro e he o
    have := emitLows_app (opFn g) o (X, y) (grpAt X L y) (lastc 0 (ltAt X L y)) []
    rw [List.append_nil] at this
    rw [this]
    exact List.mem_append_right _ he
  obtain ⟨a, ha, ca, hca, ma⟩ := k1 []
  obtain ⟨b, hb, cb, hcb, mb⟩ := k2 []
  have hy : y ∈ ys := by
    rw [sp.mem]
    unfold isX
    rw [eg]
    have := List.length_pos_of_mem ha
    have := List.length_pos_of_mem hb
    simp only [List.length_append, decide_eq_true_eq]
    omega
  have hr : a.rise ≠ b.rise := by
    have ma' : a ∈ grpAt X L y := by rw [eg]; simp [ha]
    have mb' : b ∈ grpAt X L y := by rw [eg]; simp [hb]
    have h1 := hm a ma'
    have h2 := hm b mb'
    rw [eg] at hp
    have := (List.pairwise_append.1 (List.pairwise_append.1 hp).2.1).2.2 a ha b (List.mem_append_left _ hb)
    omega
  refine ⟨⟨(X, y), a.rise, ca⟩, ?_, ⟨(X, y), b.rise, cb⟩, ?_, rfl, rfl, hr, hca, hcb⟩
  · rw [sp.out_eq]; exact fold_has _ X L y _ (ind _ ma) ys out hy
  · rw [sp.out_eq]; exact fold_has _ X L y _ (ind _ mb) ys out hy

/-- Between two stops no two edges meet. -/
theorem star_between {x X X0 y : Int} {L : List (El C)} {Q : List P} (hG : Deg45.Good x L Q) (hX : x < X0) (hX0 : X0 < X)
    (hQ : ∀ p ∈ Q, X ≤ p.1) {f : ℚ × ℚ → Int}
    (hf : ∀ q : ℚ × ℚ, (X0 : ℚ) - 1 ≤ q.1 → q.1 < X0 → f q = gi g (sval L q)) : ¬ Left2 f (X0, y) := by
  intro h
  have hmv := good_move hG hX (fun p hp => by have := hQ p hp; omega)
  have hs : SideSorted (-1) X0 L := hmv.imp (fun h => by unfold LeB at h; omega)
  obtain ⟨A, M, M', R, eg, d1, d2⟩ := star_grp hs hG.slope hf h
  have hst : (grpAt X0 L y).Pairwise (fun a b => a.eval X0 < b.eval X0) := by
    refine (hmv.sublist List.filter_sublist : (grpAt X0 L y).Pairwise _).imp (fun {a b} h => ?_)
    rcases h with h | ⟨-, h, -⟩
    · exact h
    · have := hQ _ h; simp only at this; omega
  have hm : ∀ e ∈ grpAt X0 L y, e.eval X0 = y := fun e he => (mem_grpAt he).2
  rw [lastc_append] at d1 d2
  rw [lastc_append, lastc_append] at d2
  have n1 : M ≠ [] := fun h => d1 (by rw [h]; rfl)
  have n2 : M' ≠ [] := fun h => d2 (by rw [h]; rfl)
  obtain ⟨a, ha⟩ := List.exists_mem_of_ne_nil _ n1
  obtain ⟨b, hb⟩ := List.exists_mem_of_ne_nil _ n2
  have h1 := hm a (by rw [eg]; simp [ha])
  have h2 := hm b (by rw [eg]; simp [hb])
  rw [eg] at hst
  have := (List.pairwise_append.1 (List.pairwise_append.1 hst).2.1).2.2 a ha b (List.mem_append_left _ hb)
  omega

/-- The result so far has two events wherever the condition changes twice. -/
structure SInv (g : C → Bool) (EV : Prop) (D : List (Vert C)) (st : St C) (done rem : List (Vert C)) (out : List V45) : Prop where
  eq : D = done ++ rem
  inv : Inv g EV st done out
  star : ∀ p : P, p.1 ≤ st.x → Left2 (fun q => gi g (dep D q)) p → Two out p

theorem sinv_adv {D : List (Vert C)} {st : St C} {done ins rem rem' : List (Vert C)} {out out1 out' : List V45} (i : SInv g EV D st done rem out) {X : Int}
    {L : List (El C)} {Q : List P} {cv : List (Vert C)} {ys : List Int} (hX : st.x < X) (hQ : ∀ p ∈ st.Q, X ≤ p.1) (hrem : ∀ v ∈ rem, X ≤ v.1.1)
    (sp : AdvSpec (opFn g) X st.L out L Q out1 cv ys) (hsub : ∀ e ∈ out1, e ∈ out') {L' : List (El C)} {Q' : List P}
    (io : Inv g EV ⟨L', Q', X⟩ (done ++ ins) out') (he : rem = ins ++ rem') : SInv g EV D ⟨L', Q', X⟩ (done ++ ins) rem' out' := by
  have hd : ∀ q : ℚ × ℚ, (st.x : ℚ) ≤ q.1 → q.1 < X → gi g (dep D q) = gi g (sval st.L q) := by
    intro q a b
    rw [i.eq]
    rw [dep_sval i.inv.dn i.inv.inx hX hQ a (le_of_lt b) (fun v hv => ?_)]
    have : (X : ℚ) ≤ v.1.1 := by exact_mod_cast hrem v hv
    linarith
  refine { eq := by rw [i.eq, he, List.append_assoc], inv := io, star := ?_ }
  rintro ⟨px, py⟩ hp h2
  simp only at hp
  by_cases c : px ≤ st.x
  · refine (i.star (px, py) c h2).mono (fun e he => hsub e ?_)
    rw [sp.out_eq]; exact fold_sub _ _ _ _ _ e he
  · push Not at c
    have cq : (st.x : ℚ) + 1 ≤ px := by exact_mod_cast c
    rcases lt_or_eq_of_le hp with h | h
    · exact absurd h2 (star_between i.inv.dn.good c h hQ (fun q a b => hd q (by linarith) (by
        have : (px : ℚ) < X := by exact_mod_cast h
        linarith)))
    · subst h
      exact (star_adv i.inv.dn.good hX hQ sp (fun q a b => hd q (by linarith) b) h2).mono hsub

/-- A column after a step to the right, with the events of the step. -/
theorem adv_column2 {st : St C} {done ins ev tail : List (Vert C)} {out out1 : List V45} {X : Int} {L : List (El C)}
    {Q : List P} {cv : List (Vert C)} {ys : List Int}
    (h0 : g 0 = false) (i : Inv g EV st done out) (hX : st.x < X) (hQ : ∀ p ∈ st.Q, X ≤ p.1)
    (sp : AdvSpec (opFn g) X st.L out L Q out1 cv ys) (ci : ColIn X EV ins)
    (hev : ev.Perm (cv ++ ins)) (hes : YSorted ev) (htail : ∀ t ∈ tail.head?, t.1.1 ≠ X) :
    (∃ L' Q' out', processEvent (opFn g) X (ev ++ tail) L Q out1 = .ok (tail, L', Q', out') ∧
      Inv g EV ⟨L', Q', X⟩ (done ++ ins) out' ∧ ∀ e ∈ out1, e ∈ out') ∨
    (processEvent (opFn g) X (ev ++ tail) L Q out1 = .error .precision ∧ ¬ EV) := by
  obtain ⟨hC, yp, m⟩ := adv_mid i hX hQ sp ci hev hes
  have hG := i.dn.good
  unfold processEvent
  rcases procLoop_spec hC ((ev ++ tail).length + L.length) [] L st.L [] Q out1 0 yp 0 ev tail (0, 0) none m
    (fun h => absurd rfl h) (fun h => absurd rfl h) htail (by rw [List.length_append]) with
    ⟨L', Q', out', s1, s2, s3, s4⟩ | s
  · left
    have hext : Ext X out out' := by
      refine Ext.trans ?_ s4
      rw [sp.out_eq]; exact fold_ext g hG.slope ys out
    refine ⟨L', Q', out', s1, inv_column h0 i (le_of_lt hX) (fun _ => hQ) ci.insx s2 s3 hext, ?_⟩
    obtain ⟨t, rfl, -⟩ := s4
    exact fun e he => List.mem_append_left _ he
  · right; exact s

theorem scanLoop_star (h0 : g 0 = false) {D rest : List (Vert C)} {M : Int} (hrest : ∀ v ∈ rest, M < v.1.1) : ∀ (k : Nat) (st : St C) (vs done : List (Vert C)) (out : List V45) (st' : St C) (out' : List V45),
    SInv g EV D st done (vs ++ rest) out → InOK EV vs → Fresh st vs → st.x ≤ M → (∀ v ∈ vs, v.1.1 ≤ M) →
    scanLoop (opFn g) k st vs out = .ok (st', out') → SInv g EV D st' (done ++ vs) rest out' := by
  intro k
  induction k with
  | zero =>
    intro st vs done out st' out' i _ _ hxM _ hk
    cases vs with
    | nil =>
      simp [scanLoop] at hk
      obtain ⟨rfl, rfl⟩ := hk
      simpa using i
    | cons w ws => simp [scanLoop] at hk
  | succ k ih =>
    intro st vs done out st' out' i hin hfr hxM hM hk
    cases vs with
    | nil =>
      simp [scanLoop] at hk
      obtain ⟨rfl, rfl⟩ := hk
      simpa using i
    | cons w ws =>
      have io := i.inv
      have hge : ∀ v ∈ w :: ws, w.1.1 ≤ v.1.1 := by
        intro v hv
        rcases List.mem_cons.1 hv with rfl | hv
        · exact le_refl _
        · have := (List.pairwise_cons.1 hin.sorted).1 v hv; omega
      have hwx : st.x ≤ w.1.1 := by
        rcases hfr with h | h
        · exact le_of_lt (h w (by simp))
        · exact h.2.2 w (by simp)
      have hwM := hM w (by simp)
      unfold scanLoop at hk
      by_cases c : w.1.1 ≠ st.x
      · rw [if_pos c] at hk
        simp only at hk
        have hwlt : st.x < w.1.1 := by omega
        obtain ⟨X, hXd, hX1, hX2, hX3⟩ : ∃ X, nextStop st.Q w.1.1 = X ∧ st.x < X ∧ X ≤ w.1.1 ∧ ∀ p ∈ st.Q, X ≤ p.1 := by
          refine ⟨_, rfl, ?_⟩
          unfold nextStop
          cases hQ : st.Q with
          | nil => exact ⟨hwlt, le_refl _, by simp⟩
          | cons p Q =>
            have hp : st.x < p.1 := io.dn.good.qgt p (by rw [hQ]; simp)
            have hs := io.dn.good.qsorted
            rw [hQ] at hs
            have hall : ∀ r ∈ p :: Q, p.1 ≤ r.1 := by
              intro r hr
              rcases List.mem_cons.1 hr with rfl | hr
              · exact le_refl _
              · have := (List.pairwise_cons.1 hs).1 r hr; omega
            simp only
            split_ifs with c2
            · exact ⟨by omega, by omega, fun r hr => by have := hall r hr; omega⟩
            · exact ⟨hwlt, le_refl _, fun r hr => by have := hall r hr; omega⟩
        rw [hXd] at hk
        have hXr : ∀ v ∈ (w :: ws) ++ rest, X ≤ v.1.1 := by
          intro v hv
          rcases List.mem_append.1 hv with h | h
          · have := hge v h; omega
          · have := hrest v h; omega
        rcases advance_spec (opFn g) io.dn.good hX1 hX3 out with ⟨L, Q, out1, cv, ys, e1, sp⟩ | ⟨e1, e2⟩
        swap
        · rw [e1] at hk; simp at hk
        rw [e1] at hk
        simp only at hk
        have hcvs : YSorted cv := by
          rw [sp.cv_eq]; unfold YSorted
          rw [List.pairwise_map]
          exact sp.asc.imp (fun h => by simp only; omega)
        by_cases c2 : cv ≠ [] ∧ X = w.1.1
        · rw [if_pos c2] at hk
          simp only at hk
          have hXw : ∀ v ∈ w :: ws, X ≤ v.1.1 := fun v hv => by have := hge v hv; omega
          obtain ⟨t1, t2⟩ := takeWhile_x hin.sorted hXw
          rw [t1, t2] at hk
          have hsp := filter_rest hin.sorted hXw
          have hr : ∀ v ∈ (w :: ws).filter (fun v => decide (X < v.1.1)), X < v.1.1 ∧ v ∈ w :: ws := by
            intro v hv; have := List.mem_filter.1 hv; exact ⟨by simpa using this.2, this.1⟩
          have := adv_column2 (tail := []) h0 io hX1 hX3 sp (hin.cols X)
            (mergeCross_perm cv ((w :: ws).filter (fun v => decide (v.1.1 = X))))
            (mergeCross_sorted _ _ hcvs (hin.cols X).sorted) (by simp)
          rw [List.append_nil] at this
          rcases this with ⟨L', Q', o', s1, s2, s3⟩ | ⟨s1, s2⟩
          swap
          · rw [s1] at hk; simp at hk
          rw [s1] at hk
          simp only at hk
          have i2 := sinv_adv (rem' := (w :: ws).filter (fun v => decide (X < v.1.1)) ++ rest) i hX1 hX3 hXr sp s3 s2 (by
            rw [← List.append_assoc, ← hsp])
          have := ih ⟨L', Q', X⟩ _ _ o' _ _ i2 (hin.rest X) (Or.inl (fun v hv => (hr v hv).1)) (by simp only; omega)
            (fun v hv => hM v (hr v hv).2) hk
          rw [List.append_assoc, ← hsp] at this
          exact this
        · rw [if_neg c2] at hk
          simp only at hk
          have := adv_column2 (ev := cv) (ins := []) (tail := []) h0 io hX1 hX3 sp (ColIn.nil X EV)
            (by rw [List.append_nil]) hcvs (by simp)
          rw [List.append_nil, List.append_nil] at this
          rcases this with ⟨L', Q', o', s1, s2, s3⟩ | ⟨s1, s2⟩
          swap
          · rw [s1] at hk; simp at hk
          have i2 := sinv_adv (ins := []) (rem' := (w :: ws) ++ rest) i hX1 hX3 hXr sp s3 (by rw [List.append_nil]; exact s2) (by simp)
          rw [List.append_nil] at i2
          by_cases c3 : cv = []
          · have hpe : processEvent (opFn g) X cv L Q out1 = .ok ([], L, Q, out1) := by
              rw [c3]; unfold processEvent procLoop; rfl
            rw [hpe] at s1 hk
            simp only [Except.ok.injEq, Prod.mk.injEq, true_and] at s1 hk
            obtain ⟨rfl, rfl, rfl⟩ := s1
            have hf : Fresh ⟨L, Q, X⟩ (w :: ws) := by
              right
              refine ⟨?_, sp.sorted, fun v hv => by have := hge v hv; simp only; omega⟩
              intro e he
              have he' : e ∈ st.L := by rw [sp.left_eq] at he; exact (List.mem_filter.1 he).1
              have := io.dn.good.orig e he'
              simp only; omega
            exact ih ⟨L, Q, X⟩ (w :: ws) done out1 _ _ i2 hin hf (by simp only; omega) hM hk
          · have hlt : X < w.1.1 := by
              rcases lt_or_eq_of_le hX2 with h | h
              · exact h
              · exact absurd ⟨c3, h⟩ c2
            rw [s1] at hk
            simp only at hk
            exact ih ⟨L', Q', X⟩ (w :: ws) done o' _ _ i2 hin
                (Or.inl (fun v hv => by have := hge v hv; simp only; omega)) (by simp only; omega) hM hk
      · rw [if_neg c] at hk
        push Not at c
        have hfr' : (∀ e ∈ st.L, e.x < st.x) ∧ st.L.Pairwise (fun a b => a.eval st.x < b.eval st.x) := by
          rcases hfr with h | h
          · have := h w (by simp); omega
          · exact ⟨h.1, h.2.1⟩
        have hXw : ∀ v ∈ w :: ws, st.x ≤ v.1.1 := fun v hv => by have := hge v hv; omega
        have hsp := filter_rest hin.sorted hXw
        have hr : ∀ v ∈ (w :: ws).filter (fun v => decide (st.x < v.1.1)), st.x < v.1.1 ∧ v ∈ w :: ws := by
          intro v hv; have := List.mem_filter.1 hv; exact ⟨by simpa using this.2, this.1⟩
        have := now_column (tail := (w :: ws).filter (fun v => decide (st.x < v.1.1))) h0 io hfr'.1 hfr'.2 (hin.cols st.x)
          (fun t ht => by have := (hr t (List.mem_of_mem_head? ht)).1; omega)
        rw [← hsp] at this
        rcases this with ⟨L', Q', o', s1, s2, s3⟩ | ⟨s1, s2⟩
        swap
        · rw [s1] at hk; simp at hk
        rw [s1] at hk
        simp only at hk
        have i2 : SInv g EV D ⟨L', Q', st.x⟩ (done ++ (w :: ws).filter (fun v => decide (v.1.1 = st.x)))
            ((w :: ws).filter (fun v => decide (st.x < v.1.1)) ++ rest) o' := by
          refine { eq := ?_, inv := s2, star := fun p hp h2 => (i.star p hp h2).mono (fun e he => ?_) }
          · rw [i.eq, List.append_assoc, ← List.append_assoc (as := (w :: ws).filter _), ← hsp]
          · obtain ⟨t, rfl, -⟩ := s3; exact List.mem_append_left _ he
        have := ih ⟨L', Q', st.x⟩ _ _ o' _ _ i2 (hin.rest st.x) (Or.inl (fun v hv => (hr v hv).1)) hxM
          (fun v hv => hM v (hr v hv).2) hk
        rw [List.append_assoc, ← hsp] at this
        exact this

theorem scan_star (h0 : g 0 = false) {D rest : List (Vert C)} {st st' : St C} {vs done : List (Vert C)} {out out' : List V45} {M : Int} (hM : st.x ≤ M)
    (hv : ∀ v ∈ vs, v.1.1 ≤ M) (hrest : ∀ v ∈ rest, M < v.1.1) (i : SInv g EV D st done (vs ++ rest) out) (hin : InOK EV vs) (hf : Fresh st vs)
    (h : scan (opFn g) st vs out = .ok (st', out')) : SInv g EV D st' (done ++ vs) rest out' :=
  scanLoop_star h0 hrest _ st vs done out st' out' i hin hf hM hv h

end Verif.N45
