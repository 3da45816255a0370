import Verif.Proofs.S45Step
/-! # What the 45-degree scanline tells any output functor -/
namespace Verif.Deg45

variable {C : Type} {O O' : Type}

/-- The calls for edges that end. -/
def endOut (F : Fn C O) (x : Int) (pt : P) : List (El C) → C → List O → List O
  | [], _, out => out
  | e :: hi, cur, out => if e.eval x = pt.2 then endOut F x pt hi e.count (if (e.x, e.y) ≠ pt then emit F out cur e.count pt e.rise true else out) else out

theorem endEdges_any (F : Fn C O) (F' : Fn C O') {x : Int} {pt : P} {lo : List (El C)} : ∀ (hi : List (El C)) (cur : C) (at_ : Quad C) (Q : List P) (out : List O)
    (a : Quad C) (h : List (El C)) (q : List P) (o : List O), endEdges F x pt lo hi cur at_ Q out = .ok (a, h, q, o) →
    ∀ r, endEdges F' x pt lo hi cur at_ Q r = .ok (a, h, q, endOut F' x pt hi cur r) := by
  intro hi
  induction hi with
  | nil =>
    intro cur at_ Q out a h q o e r
    simp only [endEdges, Except.ok.injEq, Prod.mk.injEq] at e ⊢
    exact ⟨e.1, e.2.1, e.2.2.1, rfl⟩
  | cons f hi ih =>
    intro cur at_ Q out a h q o e r
    unfold endEdges at e ⊢
    unfold endOut
    by_cases c : f.eval x = pt.2
    · rw [if_pos c] at e
      rw [if_pos c, if_pos c]
      dsimp only at e ⊢
      rcases hi with _ | ⟨f2, hi2⟩
      · exact ih _ _ _ _ _ _ _ _ e _
      · dsimp only at e ⊢
        rcases hf : findCross x lo.getLast? f2 hi2.head? Q with er | Q'
        · rw [hf] at e; cases e
        · rw [hf] at e
          exact ih _ _ _ _ _ _ _ _ e _
    · rw [if_neg c] at e
      rw [if_neg c, if_neg c]
      simp only [Except.ok.injEq, Prod.mk.injEq] at e ⊢
      exact ⟨e.1, e.2.1, e.2.2.1, trivial⟩

theorem endOut_eq (F : Fn C O) {X y : Int} : ∀ (grp rest : List (El C)) (b : C) (out : List O), (∀ e ∈ grp, e.eval X = y ∧ e.x < X) →
    (∀ e ∈ rest, y < e.eval X) → endOut F X (X, y) (grp ++ rest) b out = emitLows F (X, y) b grp out
  | [], [], _, _, _, _ => rfl
  | [], e :: rest, b, out, _, h => by
    have := h e List.mem_cons_self
    simp only [List.nil_append, endOut, emitLows]
    rw [if_neg (by omega)]
  | e :: grp, rest, b, out, h, h' => by
    obtain ⟨h1, h2⟩ := h e List.mem_cons_self
    simp only [List.cons_append, endOut, emitLows]
    rw [if_pos h1, if_pos (fun hc => by have := congrArg Prod.fst hc; dsimp only at this; omega)]
    exact endOut_eq F grp rest _ _ (fun f hf => h f (List.mem_cons_of_mem _ hf)) h'

/-- The call for an edge that starts. -/
def stOut [DecidableEq C] (F : Fn C O) (pt : P) (r : Int) (b c : C) (out : List O) : List O := if c = b then out else emit F out b c pt r false

theorem startEdge_any [DecidableEq C] (F : Fn C O) (F' : Fn C O') {pt : P} {r : Int} {b c : C} {L L' : List (El C)} {Q Q' : List P} {out o : List O}
    (e : startEdge F pt r b c L Q out = .ok (L', Q', o)) (u : List O') : startEdge F' pt r b c L Q u = .ok (L', Q', stOut F' pt r b c u) := by
  unfold startEdge at e ⊢
  unfold stOut
  by_cases h : c = b
  · rw [if_pos h] at e
    rw [if_pos h, if_pos h]
    simp only [Except.ok.injEq, Prod.mk.injEq] at e ⊢
    exact ⟨e.1, e.2.1, trivial⟩
  · rw [if_neg h] at e
    rw [if_neg h, if_neg h]
    rcases hi : insertEl pt.1 ⟨pt.1, pt.2, r, c⟩ L with ⟨l, f, h'⟩
    rw [hi] at e
    dsimp only at e ⊢
    rcases hf : findCross pt.1 l.getLast? f h'.head? Q with er | Q1
    · rw [hf] at e; cases e
    · rw [hf] at e
      simp only [Except.ok.injEq, Prod.mk.injEq] at e ⊢
      exact ⟨e.1, e.2.1, trivial⟩

/-- The calls at one point. -/
def evOut [AddCommGroup C] [DecidableEq C] (F : Fn C O) (X y : Int) (V : C) (prev : P) (b below : C) (grp : List (El C)) (c0 c1 c2 : C) (out : List O) : List O :=
  stOut F (X, y) 1 c1 c2 (stOut F (X, y) 0 c0 c1 (stOut F (X, y) (-1) below c0 (emitLows F (X, y) b grp
    (if V ≠ 0 then emit F (emit F out b below prev 2 false) b below (X, y) 2 true else out))))

end Verif.Deg45
