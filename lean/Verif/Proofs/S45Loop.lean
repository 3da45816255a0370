import Verif.Proofs.S45Advance
import Mathlib.Data.List.Perm.Subperm
/-! # The loop over the crossing points at one stop of the 45-degree scanline -/
namespace Verif.Deg45

variable {C : Type}

/-- The diagonal edges pass through points of which the sum of the coordinates is even. -/
def EvenEl (e : El C) : Prop := e.rise ≠ 0 → e.line.2 % 2 = 0

theorem cross1_err {x : Int} {a b : El C} {Q : List P} {err : Err} (h : cross1 x a b Q = .error err)
    (ha : a.rise = -1) (hb : b.rise = 1) : err = .precision ∧ ¬ (EvenEl a ∧ EvenEl b) := by
  unfold cross1 at h
  simp only at h
  split_ifs at h with h1 h2
  refine ⟨by simpa using h.symm, fun ⟨e1, e2⟩ => ?_⟩
  have ea : a.eval x = a.line.2 - x := by rw [El.eval_line]; unfold atX; rw [line_fst, ha]; ring
  have eb : b.eval x = b.line.2 + x := by rw [El.eval_line]; unfold atX; rw [line_fst, hb]; ring
  have := e1 (by omega); have := e2 (by omega)
  omega

theorem findCross_err {x : Int} {below above : Option (El C)} {e : El C} {Q : List P} {err : Err}
    (hse : Slope e) (h : findCross x below e above Q = .error err) :
    err = .precision ∧ ¬ (EvenEl e ∧ (∀ b ∈ below, EvenEl b) ∧ (∀ a ∈ above, EvenEl a)) := by
  unfold findCross at h
  unfold Slope at hse
  cases hQ1 : crossBelow x below e Q with
  | error err' =>
    rw [hQ1] at h
    simp only [Except.error.injEq] at h
    subst h
    unfold crossBelow at hQ1
    cases below with
    | none => simp at hQ1
    | some b =>
      simp only at hQ1
      split_ifs at hQ1 with c1 c2 c3 c4 c5
      have := cross1_err hQ1 (by omega) c4
      exact ⟨this.1, fun ⟨h1, h2, _⟩ => this.2 ⟨h1, h2 b rfl⟩⟩
  | ok Q1 =>
    rw [hQ1] at h
    simp only at h
    unfold crossAbove at h
    cases above with
    | none => simp at h
    | some a =>
      simp only at h
      split_ifs at h with c1 c2 c3 c4 c5
      have := cross1_err h c4 (by omega)
      exact ⟨this.1, fun ⟨h1, _, h2⟩ => this.2 ⟨h2 a rfl, h1⟩⟩

/-- The edges through a point of the stop, and those below it. -/
def grpAt (X : Int) (L : List (El C)) (y : Int) : List (El C) := L.filter (fun e => decide (e.eval X = y))
def ltAt (X : Int) (L : List (El C)) (y : Int) : List (El C) := L.filter (fun e => decide (e.eval X < y))
def gtAt (X : Int) (L : List (El C)) (y : Int) : List (El C) := L.filter (fun e => decide (y < e.eval X))

/-- Several edges meet at the point. -/
def isX (X : Int) (L : List (El C)) (y : Int) : Bool := decide (2 ≤ (grpAt X L y).length)

/-- The change of the count across each direction at a crossing. -/
def crossQ [AddCommGroup C] (b : C) (grp : List (El C)) : Quad C :=
  let cnt := grp.foldl (fun q e => setDown q e.rise e.count) (⟨b, b, b, b⟩ : Quad C)
  ⟨cnt.n - cnt.z, cnt.z - cnt.p, cnt.p - b, 0⟩

theorem searchDown_eq [Zero C] {x y : Int} {lo : List (El C)} (h : ∀ e ∈ lo, e.eval x < y) :
    searchDown x y 0 lo.reverse = lastc 0 lo := by
  rcases lo.eq_nil_or_concat with rfl | ⟨M, e, rfl⟩
  · rfl
  · have := h e (by simp)
    simp only [List.concat_eq_append, List.reverse_append, List.reverse_cons, List.reverse_nil, List.nil_append, List.singleton_append,
      lastc_append, lastc]
    unfold searchDown
    rw [if_neg (by omega)]

/-- What the loop leaves. -/
structure LoopSpec {O : Type} [AddCommGroup C] (g : Fn C O) (X : Int) (L : List (El C)) (Q : List P) (out : List O)
    (er : List (El C)) (cv : List (Vert C))
    (Q' : List P) (out' : List O) (er' : List (El C)) (cv' : List (Vert C)) (ys : List Int) : Prop where
  asc : ys.Pairwise (· < ·)
  mem : ∀ y, y ∈ ys ↔ (X, y) ∈ Q ∧ isX X L y = true
  er_eq : er' = er ++ ys.flatMap (grpAt X L)
  cv_eq : cv' = cv ++ ys.map (fun y => ((X, y), crossQ (lastc 0 (ltAt X L y)) (grpAt X L y)))
  out_eq : out' = ys.foldl (fun o y => emitLows g (X, y) (lastc 0 (ltAt X L y)) (grpAt X L y) o) out
  qsorted : QSorted Q'
  qgt : ∀ p ∈ Q', X < p.1
  keep : ∀ p ∈ Q, X < p.1 → p ∈ Q'
  sched : ∀ lo a b hi, L = lo ++ a :: b :: hi → (X, a.eval X) ∈ Q → isX X L (a.eval X) = false → Sched Q' a b

theorem pairwise_le {X : Int} {Q : List P} {L : List (El C)} (h : L.Pairwise (LeB X Q)) :
    L.Pairwise (fun a b => a.eval X ≤ b.eval X) :=
  h.imp (fun h => by unfold LeB at h; omega)

/-- An edge that is alone at its height, and its neighbours. -/
theorem alone_split {X : Int} {L lo hi : List (El C)} {a : El C}
    (hle : L.Pairwise (fun a b => a.eval X ≤ b.eval X)) (e : L = lo ++ a :: hi)
    (h1 : (grpAt X L (a.eval X)).length = 1) :
    ltAt X L (a.eval X) = lo ∧ grpAt X L (a.eval X) = [a] ∧ gtAt X L (a.eval X) = hi := by
  have hg : grpAt X L (a.eval X) = grpAt X lo (a.eval X) ++ a :: grpAt X hi (a.eval X) := by
    rw [e]; unfold grpAt; rw [List.filter_append, List.filter_cons_of_pos (by simp)]
  rw [hg] at h1
  have h2 : grpAt X lo (a.eval X) = [] := by
    apply List.eq_nil_of_length_eq_zero; simp only [List.length_append, List.length_cons] at h1; omega
  have h3 : grpAt X hi (a.eval X) = [] := by
    apply List.eq_nil_of_length_eq_zero; simp only [List.length_append, List.length_cons] at h1; omega
  rw [e] at hle
  obtain ⟨_, p2, p3⟩ := List.pairwise_append.1 hle
  have l1 : ∀ f ∈ lo, f.eval X < a.eval X := by
    intro f hf
    have := p3 f hf a List.mem_cons_self
    have h' := List.filter_eq_nil_iff.1 h2 f hf
    simp only [decide_eq_true_eq] at h'
    omega
  have l2 : ∀ f ∈ hi, a.eval X < f.eval X := by
    intro f hf
    have := (List.pairwise_cons.1 p2).1 f hf
    have h' := List.filter_eq_nil_iff.1 h3 f hf
    simp only [decide_eq_true_eq] at h'
    omega
  refine ⟨?_, ?_, ?_⟩
  · rw [e]; unfold ltAt
    rw [List.filter_append, List.filter_cons_of_neg (by simp), List.filter_eq_self.2, List.filter_eq_nil_iff.2]
    · simp
    · intro f hf; have := l2 f hf; simp; omega
    · intro f hf; simpa using l1 f hf
  · rw [hg, h2, h3]; rfl
  · rw [e]; unfold gtAt
    rw [List.filter_append, List.filter_cons_of_neg (by simp), List.filter_eq_nil_iff.2, List.filter_eq_self.2]
    · simp
    · intro f hf; simpa using l2 f hf
    · intro f hf; have := l1 f hf; simp; omega

theorem advanceLoop_spec {O : Type} [AddCommGroup C] [DecidableEq C] (g : Fn C O) {X : Int} {L : List (El C)} {Q0 : List P}
    (hsl : ∀ e ∈ L, Slope e) (hleB : L.Pairwise (LeB X Q0)) :
    ∀ (k : Nat) (Q : List P) (out : List O) (er : List (El C)) (cv : List (Vert C)),
      QSorted Q → (∀ p ∈ Q, X ≤ p.1) → (Q.filter (fun p => decide (p.1 = X))).length < k →
      (∃ Q' out' er' cv' ys, advanceLoop g X L k Q out er cv = .ok (Q', out', er', cv') ∧
        LoopSpec g X L Q out er cv Q' out' er' cv' ys) ∨
      (advanceLoop g X L k Q out er cv = .error .precision ∧ ¬ ∀ e ∈ L, EvenEl e) := by
  have hle := pairwise_le hleB
  intro k
  induction k with
  | zero => intro Q out er cv _ _ hk; omega
  | succ k ih =>
    intro Q out er cv hqs hq hk
    cases Q with
    | nil =>
      left
      exact ⟨[], out, er, cv, [], by unfold advanceLoop; rfl,
        { asc := List.Pairwise.nil, mem := by simp, er_eq := by simp, cv_eq := by simp, out_eq := by simp
          qsorted := hqs, qgt := by simp, keep := by simp, sched := by simp }⟩
    | cons p Q =>
      have hqs' := List.pairwise_cons.1 hqs
      by_cases c0 : p.1 ≠ X
      · left
        have hgt : ∀ q ∈ p :: Q, X < q.1 := by
          have h0 := hq p List.mem_cons_self
          intro q hq'
          rcases List.mem_cons.1 hq' with rfl | hq'
          · omega
          · have := hqs'.1 q hq'; omega
        refine ⟨p :: Q, out, er, cv, [], by unfold advanceLoop; rw [if_pos c0],
          { asc := List.Pairwise.nil, mem := ?_, er_eq := by simp, cv_eq := by simp, out_eq := by simp
            qsorted := hqs, qgt := hgt, keep := fun p hp _ => hp, sched := ?_ }⟩
        · intro y; simp only [List.not_mem_nil, false_iff]; rintro ⟨h, _⟩; have := hgt _ h; simp at this
        · intro lo a b hi _ h _; have := hgt _ h; simp at this
      push Not at c0
      have hpe : p = (X, p.2) := by rw [← c0]
      have hk' : ∀ R : List P, (∀ q, q ∈ R → q.1 = X → q ∈ Q) → R.Nodup →
          (R.filter (fun p => decide (p.1 = X))).length < k := by
        intro R hR hn
        have h1 : ((p :: Q).filter (fun p => decide (p.1 = X))).length =
            (Q.filter (fun p => decide (p.1 = X))).length + 1 := by
          rw [List.filter_cons_of_pos (by simpa using c0)]; rfl
        have h2 : (R.filter (fun p => decide (p.1 = X))).length ≤ (Q.filter (fun p => decide (p.1 = X))).length := by
          apply List.Subperm.length_le
          apply List.subperm_of_subset (hn.filter _)
          intro q hq
          simp only [List.mem_filter, decide_eq_true_eq] at hq ⊢
          exact ⟨hR q hq.1 hq.2, hq.2⟩
        omega
      have hnd : ∀ R : List P, QSorted R → R.Nodup := by
        intro R hR
        exact hR.imp (fun {a b} h e => by subst e; omega)
      have hq2 : ∀ q ∈ Q, X ≤ q.1 := fun q h => hq q (List.mem_cons_of_mem _ h)
      have split := split3 (fun e : El C => e.eval X) hle p.2
      have tl := takeWhile_lt (fun e : El C => e.eval X) hle p.2
      have te := takeWhile_eq (fun e : El C => e.eval X) hle p.2
      have hlow : ∀ q ∈ Q, q.1 = X → p.2 < q.2 := by
        intro q hq' e; have := hqs'.1 q hq'; omega
      -- the cases in which nothing is recorded for this point
      have pass : ∀ Q1, QSorted Q1 → (∀ q ∈ Q1, q ∈ Q ∨ X < q.1) → (∀ q ∈ Q, q ∈ Q1) → isX X L p.2 = false →
          (∀ lo a b hi, L = lo ++ a :: b :: hi → a.eval X = p.2 → Sched Q1 a b) →
          advanceLoop g X L (k+1) (p :: Q) out er cv = advanceLoop g X L k Q1 out er cv →
          (∃ Q' out' er' cv' ys, advanceLoop g X L (k+1) (p :: Q) out er cv = .ok (Q', out', er', cv') ∧
            LoopSpec g X L (p :: Q) out er cv Q' out' er' cv' ys) ∨
          (advanceLoop g X L (k+1) (p :: Q) out er cv = .error .precision ∧ ¬ ∀ e ∈ L, EvenEl e) := by
        intro Q1 hs1 hm1 hm2 hx hsch e0
        rw [e0]
        rcases ih Q1 out er cv hs1 (fun q h => by rcases hm1 q h with h | h; exact hq2 q h; omega)
          (hk' Q1 (fun q h e => by rcases hm1 q h with h | h; exact h; omega) (hnd _ hs1)) with ⟨Q', o', er', cv', ys, e1, sp⟩ | h
        · left
          refine ⟨Q', o', er', cv', ys, e1, { sp with mem := ?_, keep := ?_, sched := ?_ }⟩
          · intro y; rw [sp.mem y]
            constructor
            · rintro ⟨h1, h2⟩
              refine ⟨?_, h2⟩
              rcases hm1 _ h1 with h | h
              · exact List.mem_cons_of_mem _ h
              · simp at h
            · rintro ⟨h1, h2⟩
              refine ⟨?_, h2⟩
              rcases List.mem_cons.1 h1 with h | h
              · rw [← h] at hx; simp only at hx; rw [hx] at h2; simp at h2
              · exact hm2 _ h
          · intro q hq' hgt
            rcases List.mem_cons.1 hq' with rfl | h
            · omega
            · exact sp.keep q (hm2 q h) hgt
          · intro lo a b hi e h1 h2
            rcases List.mem_cons.1 h1 with h | h
            · have h3 := hsch lo a b hi e (by rw [← h])
              refine ⟨fun c => ?_, fun c => ?_⟩
              · have h4 := h3.1 c
                by_cases c5 : X < b.line.2 - a.line.2
                · exact sp.keep _ h4 c5
                · rcases hm1 _ h4 with h6 | h6
                  · have h7 := hq2 _ h6
                    simp only at h7
                    have h8 : b.line.2 - a.line.2 = X := by omega
                    rw [h8] at h6
                    have := hlow _ h6 rfl
                    rw [← El.eval_line] at this
                    rw [← h] at this; simp at this
                  · exact absurd h6 c5
              · have h4 := h3.2 c
                by_cases c5 : X < (b.line.2 - a.line.2) / 2
                · exact sp.keep _ h4 c5
                · rcases hm1 _ h4 with h6 | h6
                  · have h7 := hq2 _ h6
                    simp only at h7
                    have h8 : (b.line.2 - a.line.2) / 2 = X := by omega
                    rw [h8] at h6
                    have := hlow _ h6 rfl
                    rw [← El.eval_line] at this
                    rw [← h] at this; simp at this
                  · exact absurd h6 c5
            · exact sp.sched lo a b hi e (hm2 _ h) h2
        · right; exact h
      have lk : lookUp X true p.2 L = (ltAt X L p.2, L.filter (fun e => decide (¬ e.eval X < p.2))) := by
        rw [lookUp_eq hsl, tl.1, tl.2]; rfl
      have hhi : L.filter (fun e => decide (¬ e.eval X < p.2)) = grpAt X L p.2 ++ gtAt X L p.2 := by
        conv_lhs => rw [← List.takeWhile_append_dropWhile (p := fun e : El C => decide (e.eval X = p.2))
          (l := L.filter (fun e => decide (¬ e.eval X < p.2)))]
        rw [te.1, te.2]; rfl
      have step : advanceLoop g X L (k+1) (p :: Q) out er cv =
          match L.filter (fun e => decide (¬ e.eval X < p.2)) with
          | [] => advanceLoop g X L k Q out er cv
          | low :: above =>
              if low.eval X ≠ p.2 then advanceLoop g X L k Q out er cv else
              if (grpAt X L p.2).length = 1 then
                match findCross X (ltAt X L p.2).getLast? low above.head? Q with
                | .error e => .error e
                | .ok Q' => advanceLoop g X L k Q' out er cv
              else
                advanceLoop g X L k Q (emitLows g p (lastc 0 (ltAt X L p.2)) (grpAt X L p.2) out) (er ++ grpAt X L p.2)
                  (cv ++ [(p, crossQ (lastc 0 (ltAt X L p.2)) (grpAt X L p.2))]) := by
        conv_lhs => unfold advanceLoop
        rw [if_neg (by simpa using c0), lk]
        simp only
        have hte : grpAt X L p.2 = (L.filter (fun e => decide (¬ e.eval X < p.2))).takeWhile
            (fun e => decide (e.eval X = p.2)) := te.1.symm
        rw [hte]
        generalize L.filter (fun e => decide (¬ e.eval X < p.2)) = F
        rcases F with _ | ⟨low, above⟩
        · rfl
        · simp only
          rw [searchDown_eq (x := X) (y := p.2) (fun e he => by
            have := (List.mem_filter.1 he).2; simpa using this)]
          rfl
      rcases hgrp : grpAt X L p.2 with _ | ⟨a0, rest⟩
      · -- no edge at the point
        have hx : isX X L p.2 = false := by unfold isX; rw [hgrp]; rfl
        refine pass Q hqs'.2 (fun q h => Or.inl h) (fun q h => h) hx ?_ ?_
        · intro lo a b hi e h1
          have : a ∈ grpAt X L p.2 := by
            unfold grpAt; rw [List.mem_filter]; exact ⟨by rw [e]; simp, by simpa using h1⟩
          rw [hgrp] at this; simp at this
        · rw [step, hhi, hgrp]
          simp only [List.nil_append]
          split
          · rfl
          · rename_i low above hh
            have hm : low ∈ gtAt X L p.2 := by rw [hh]; exact List.mem_cons_self
            have := (List.mem_filter.1 hm).2
            simp only [decide_eq_true_eq] at this
            rw [if_pos (by omega)]
      · have ha0 : a0.eval X = p.2 := by
          have hm : a0 ∈ grpAt X L p.2 := by rw [hgrp]; exact List.mem_cons_self
          have := (List.mem_filter.1 hm).2
          simpa using this
        rw [hhi, hgrp] at step
        simp only [List.cons_append] at step
        rw [if_neg (by simpa using ha0)] at step
        cases rest with
        | nil =>
          -- a single edge
          rw [if_pos (by simp)] at step
          simp only [List.nil_append] at step
          have hL : L = ltAt X L p.2 ++ a0 :: gtAt X L p.2 := by
            have := split
            unfold grpAt at hgrp
            rw [hgrp] at this
            exact this
          have hx : isX X L p.2 = false := by unfold isX; rw [hgrp]; rfl
          have hlo : ∀ b ∈ (ltAt X L p.2).getLast?, b ∈ L ∧ b.eval X < p.2 := by
            intro b hb
            have hm : b ∈ ltAt X L p.2 := List.mem_of_getLast? hb
            have := List.mem_filter.1 hm
            exact ⟨this.1, by simpa using this.2⟩
          have hup : ∀ b ∈ (gtAt X L p.2).head?, b ∈ L ∧ p.2 < b.eval X := by
            intro b hb
            have hm : b ∈ gtAt X L p.2 := List.mem_of_mem_head? hb
            have := List.mem_filter.1 hm
            exact ⟨this.1, by simpa using this.2⟩
          have ha0L : a0 ∈ L := by rw [hL]; simp
          cases hf : findCross X (ltAt X L p.2).getLast? a0 (gtAt X L p.2).head? Q with
          | error err =>
            rw [hf] at step
            obtain ⟨e1, e2⟩ := findCross_err (hsl a0 ha0L) hf
            right
            subst e1
            refine ⟨step, fun h => e2 ⟨h a0 ha0L, fun b hb => h b (hlo b hb).1, fun b hb => h b (hup b hb).1⟩⟩
          | ok Q1 =>
            rw [hf] at step
            simp only at step
            obtain ⟨_, f2, f3, f4, f5, _⟩ := findCross_spec (hsl a0 ha0L) (fun b hb => hsl b (hlo b hb).1)
              (fun b hb => hsl b (hup b hb).1)
              (fun b hb => Or.inl (by have := (hlo b hb).2; omega))
              (fun b hb => Or.inl (by have := (hup b hb).2; omega)) hf
            refine pass Q1 (f5 hqs'.2) f4 f3 hx ?_ step
            intro lo a b hi e h1
            have al := alone_split hle e (by rw [h1, hgrp]; rfl)
            rw [h1] at al
            have e1 : a0 = a := by have := al.2.1; rw [hgrp] at this; simpa using this
            rw [← e1]
            apply f2
            rw [al.2.2]; rfl
        | cons a1 rest =>
          rw [if_neg (by simp)] at step
          have hx : isX X L p.2 = true := by unfold isX; rw [hgrp]; simp
          rw [← hgrp] at step
          rw [step]
          rcases ih Q (emitLows g p (lastc 0 (ltAt X L p.2)) (grpAt X L p.2) out) (er ++ grpAt X L p.2)
              (cv ++ [(p, crossQ (lastc 0 (ltAt X L p.2)) (grpAt X L p.2))]) hqs'.2 hq2
              (hk' Q (fun q h _ => h) (hnd _ hqs'.2)) with ⟨Q', o', er', cv', ys, e1, sp⟩ | h
          · left
            refine ⟨Q', o', er', cv', p.2 :: ys, e1,
              { asc := ?_, mem := ?_, er_eq := ?_, cv_eq := ?_, out_eq := ?_, qsorted := sp.qsorted, qgt := sp.qgt
                keep := ?_, sched := ?_ }⟩
            · refine List.pairwise_cons.2 ⟨fun y hy => ?_, sp.asc⟩
              exact hlow (X, y) ((sp.mem y).1 hy).1 rfl
            · intro y
              rw [List.mem_cons, sp.mem y, List.mem_cons]
              constructor
              · rintro (rfl | ⟨h1, h2⟩)
                · exact ⟨Or.inl hpe.symm, hx⟩
                · exact ⟨Or.inr h1, h2⟩
              · rintro ⟨h1 | h1, h2⟩
                · left; rw [← h1]
                · right; exact ⟨h1, h2⟩
            · rw [sp.er_eq]; simp
            · rw [sp.cv_eq]; simp [← hpe]
            · rw [sp.out_eq]; simp [← hpe]
            · intro q hq' hgt
              rcases List.mem_cons.1 hq' with rfl | h
              · omega
              · exact sp.keep q h hgt
            · intro lo a b hi e h1 h2
              rcases List.mem_cons.1 h1 with h | h
              · rw [← h] at hx; simp only at hx; rw [hx] at h2; simp at h2
              · exact sp.sched lo a b hi e h h2
          · right; exact h

end Verif.Deg45
