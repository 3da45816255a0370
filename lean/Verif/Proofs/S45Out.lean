import Verif.Model.Scan45
/-! # The scanline only appends to its output -/
namespace Verif.Deg45

variable {C O : Type} [AddCommGroup C] [DecidableEq C] (F : Fn C O) (a : List O)

omit [AddCommGroup C] [DecidableEq C] in
theorem emit_app (out : List O) (c1 c2 : C) (pt : P) (r : Int) (low : Bool) :
    emit F (a ++ out) c1 c2 pt r low = a ++ emit F out c1 c2 pt r low := by
  unfold emit; simp

omit [AddCommGroup C] [DecidableEq C] in
theorem emitLows_app (pt : P) : ∀ (es : List (El C)) (c : C) (out : List O),
    emitLows F pt c es (a ++ out) = a ++ emitLows F pt c es out := by
  intro es
  induction es with
  | nil => intro c out; rfl
  | cons e es ih => intro c out; simp only [emitLows]; rw [emit_app, ih]

theorem advanceLoop_app (x : Int) (L : List (El C)) : ∀ (k : Nat) (Q : List P) (out : List O) (er : List (El C)) (cv : List (Vert C)),
    advanceLoop F x L k Q (a ++ out) er cv =
      (advanceLoop F x L k Q out er cv).map (fun s => (s.1, a ++ s.2.1, s.2.2)) := by
  intro k
  induction k with
  | zero => intros; rfl
  | succ k ih =>
    intro Q out er cv
    cases Q with
    | nil => rfl
    | cons p Q =>
      simp only [advanceLoop]
      by_cases c : p.1 ≠ x
      · rw [if_pos c, if_pos c]; rfl
      · rw [if_neg c, if_neg c]
        rcases hl : lookUp x true p.2 L with ⟨lo, hi⟩
        simp only
        cases hi with
        | nil => exact ih _ _ _ _
        | cons low above =>
          simp only
          by_cases c2 : low.eval x ≠ p.2
          · rw [if_pos c2, if_pos c2]; exact ih _ _ _ _
          · rw [if_neg c2, if_neg c2]
            split
            · cases findCross x lo.getLast? low above.head? Q with
              | error e => rfl
              | ok Q' => exact ih _ _ _ _
            · rw [emitLows_app]; exact ih _ _ _ _

theorem advance_app (x : Int) (L : List (El C)) (Q : List P) (out : List O) :
    advance F x L Q (a ++ out) = (advance F x L Q out).map (fun s => (s.1, s.2.1, a ++ s.2.2.1, s.2.2.2)) := by
  unfold advance
  rw [advanceLoop_app]
  cases advanceLoop F x L (Q.length + 1) Q out [] [] with
  | error e => rfl
  | ok s =>
    obtain ⟨Q', out', er, cv⟩ := s
    simp only [Except.map]
    cases findAll x (er.foldl eraseOne (L, [])).1 (er.foldl eraseOne (L, [])).2 Q' <;> rfl

omit [AddCommGroup C] [DecidableEq C] in
theorem endEdges_app (x : Int) (pt : P) (lo : List (El C)) : ∀ (hi : List (El C)) (cur : C) (at_ : Quad C) (Q : List P) (out : List O),
    endEdges F x pt lo hi cur at_ Q (a ++ out) =
      (endEdges F x pt lo hi cur at_ Q out).map (fun s => (s.1, s.2.1, s.2.2.1, a ++ s.2.2.2)) := by
  intro hi
  induction hi with
  | nil => intros; rfl
  | cons e hi ih =>
    intro cur at_ Q out
    unfold endEdges
    by_cases c : e.eval x = pt.2
    · rw [if_pos c, if_pos c]
      simp only
      have e1 : (if (e.x, e.y) ≠ pt then emit F (a ++ out) cur e.count pt e.rise true else a ++ out) =
          a ++ (if (e.x, e.y) ≠ pt then emit F out cur e.count pt e.rise true else out) := by
        by_cases c2 : (e.x, e.y) ≠ pt
        · rw [if_pos c2, if_pos c2, emit_app]
        · rw [if_neg c2, if_neg c2]
      rw [e1]
      cases hi with
      | nil => exact ih _ _ _ _
      | cons f hi' =>
        simp only
        cases findCross x lo.getLast? f hi'.head? Q with
        | error e => rfl
        | ok Q' => exact ih _ _ _ _
    · rw [if_neg c, if_neg c]; rfl

omit [AddCommGroup C] in
theorem startEdge_app (pt : P) (r : Int) (b c : C) (L : List (El C)) (Q : List P) (out : List O) :
    startEdge F pt r b c L Q (a ++ out) = (startEdge F pt r b c L Q out).map (fun s => (s.1, s.2.1, a ++ s.2.2)) := by
  unfold startEdge
  split
  · rfl
  · rcases insertEl pt.1 ⟨pt.1, pt.2, r, c⟩ L with ⟨lo, e, hi⟩
    simp only
    cases findCross pt.1 lo.getLast? e hi.head? Q with
    | error e => rfl
    | ok Q' => simp only [Except.map]; rw [emit_app]

theorem stepAt_app (x : Int) (v : Vert C) (V : C) (prev : P) (L : List (El C)) (Q : List P) (out : List O) :
    stepAt F x v V prev L Q (a ++ out) = (stepAt F x v V prev L Q out).map (fun s => (s.1, s.2.1, a ++ s.2.2.1, s.2.2.2)) := by
  unfold stepAt
  simp only
  rcases lookUp x false v.1.2 L with ⟨lo, hi⟩
  simp only
  have e1 : (if V ≠ 0 then emit F (emit F (a ++ out) (countBelow lo - V) (countBelow lo) prev 2 false)
        (countBelow lo - V) (countBelow lo) v.1 2 true else a ++ out) =
      a ++ (if V ≠ 0 then emit F (emit F out (countBelow lo - V) (countBelow lo) prev 2 false)
        (countBelow lo - V) (countBelow lo) v.1 2 true else out) := by
    by_cases c : V ≠ 0
    · rw [if_pos c, if_pos c, emit_app, emit_app]
    · rw [if_neg c, if_neg c]
  rw [e1, endEdges_app]
  cases endEdges F x v.1 lo hi (countBelow lo - V) ⟨countBelow lo - V, countBelow lo - V, countBelow lo - V, countBelow lo - V⟩ Q
      (if V ≠ 0 then emit F (emit F out (countBelow lo - V) (countBelow lo) prev 2 false)
        (countBelow lo - V) (countBelow lo) v.1 2 true else out) with
  | error e => rfl
  | ok s =>
    obtain ⟨at_, hi', Q1, out2⟩ := s
    simp only [Except.map]
    rw [startEdge_app]
    cases startEdge F v.1 (-1) (countBelow lo) (V + v.2.n + at_.n) (lo ++ hi') Q1 out2 with
    | error e => rfl
    | ok s =>
      obtain ⟨L3, Q3, out3⟩ := s
      simp only [Except.map]
      rw [startEdge_app]
      cases startEdge F v.1 0 (V + v.2.n + at_.n) (V + v.2.n + v.2.z + at_.z) L3 Q3 out3 with
      | error e => rfl
      | ok s =>
        obtain ⟨L4, Q4, out4⟩ := s
        simp only [Except.map]
        rw [startEdge_app]
        cases startEdge F v.1 1 (V + v.2.n + v.2.z + at_.z) (V + v.2.n + v.2.z + v.2.p + at_.p) L4 Q4 out4 <;> rfl

theorem procLoop_app (x : Int) : ∀ (k : Nat) (vs : List (Vert C)) (L : List (El C)) (Q : List P) (out : List O) (V : C) (prev : P)
    (nxt : Option (El C)), procLoop F x k vs L Q (a ++ out) V prev nxt =
      (procLoop F x k vs L Q out V prev nxt).map (fun s => (s.1, s.2.1, s.2.2.1, a ++ s.2.2.2)) := by
  intro k
  induction k with
  | zero => intro vs; cases vs <;> intros <;> simp [procLoop, Except.map]
  | succ k ih =>
    intro vs L Q out V prev nxt
    cases vs with
    | nil => simp [procLoop, Except.map]
    | cons w ws =>
      unfold procLoop
      by_cases c : w.1.1 ≠ x
      · rw [if_pos c, if_pos c]; rfl
      · rw [if_neg c, if_neg c, stepAt_app]
        cases stepAt F x (nextV x w ws V nxt).1 V prev L Q out with
        | error e => rfl
        | ok s => exact ih _ _ _ _ _ _ _

theorem processEvent_app (x : Int) (vs : List (Vert C)) (L : List (El C)) (Q : List P) (out : List O) :
    processEvent F x vs L Q (a ++ out) = (processEvent F x vs L Q out).map (fun s => (s.1, s.2.1, s.2.2.1, a ++ s.2.2.2)) :=
  procLoop_app F a x _ _ _ _ _ _ _ _

theorem scanLoop_app : ∀ (k : Nat) (st : St C) (vs : List (Vert C)) (out : List O),
    scanLoop F k st vs (a ++ out) = (scanLoop F k st vs out).map (fun s => (s.1, a ++ s.2)) := by
  intro k
  induction k with
  | zero => intro st vs out; cases vs <;> simp [scanLoop, Except.map]
  | succ k ih =>
    intro st vs out
    cases vs with
    | nil => simp [scanLoop, Except.map]
    | cons w ws =>
      unfold scanLoop
      by_cases c : w.1.1 ≠ st.x
      · rw [if_pos c, if_pos c]
        simp only
        rw [advance_app]
        cases advance F (nextStop st.Q w.1.1) st.L st.Q out with
        | error e => rfl
        | ok s =>
          obtain ⟨L, Q, out1, cv⟩ := s
          simp only [Except.map]
          generalize (if cv ≠ [] ∧ nextStop st.Q w.1.1 = w.1.1 then _ else _ : List (Vert C) × List (Vert C)) = z
          rw [processEvent_app]
          cases processEvent F (nextStop st.Q w.1.1) z.1 L Q out1 with
          | error e => rfl
          | ok s => exact ih _ _ _
      · rw [if_neg c, if_neg c, processEvent_app]
        cases processEvent F st.x (w :: ws) st.L st.Q out with
        | error e => rfl
        | ok s => exact ih _ _ _

theorem scan_app (st : St C) (vs : List (Vert C)) (out : List O) :
    scan F st vs (a ++ out) = (scan F st vs out).map (fun s => (s.1, a ++ s.2)) := scanLoop_app F a _ _ _ _

end Verif.Deg45
