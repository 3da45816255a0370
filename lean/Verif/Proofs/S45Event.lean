import Verif.Proofs.S45Point
/-! # One point event of the 45-degree scanline -/
namespace Verif.Deg45

variable {C : Type}

/-! ### Ending the edge that arrives -/

theorem endEdges_none (g : C → Bool) {X y : Int} {lo hi : List (El C)} {cur : C} {at_ : Quad C} {Q : List P}
    {out : List V45} (h : ∀ e ∈ hi, y < e.eval X) :
    endEdges g X (X, y) lo hi cur at_ Q out = .ok (at_, hi, Q, out) := by
  cases hi with
  | nil => rfl
  | cons e hi =>
    unfold endEdges
    rw [if_neg (by have := h e List.mem_cons_self; simp only; omega)]

theorem endEdges_one (g : C → Bool) {X y : Int} {lo hi : List (El C)} {e : El C} {cur : C} {at_ : Quad C} {Q : List P}
    {out : List V45} (hsl : ∀ f ∈ lo ++ e :: hi, Slope f) (hs : (lo ++ e :: hi).Pairwise (LtA X))
    (hc : (lo ++ e :: hi).IsChain (Sched Q)) (hqs : QSorted Q) (hq : ∀ p ∈ Q, X < p.1)
    (he : e.eval X = y) (ho : e.x < X) (h : ∀ f ∈ hi, y < f.eval X) :
    (∃ Q', endEdges g X (X, y) lo (e :: hi) cur at_ Q out =
        .ok (setUp at_ e.rise e.count, hi, Q', emit g out cur e.count (X, y) e.rise true) ∧
      (lo ++ hi).IsChain (Sched Q') ∧ QSorted Q' ∧ ∀ p ∈ Q', X < p.1) ∨
    (endEdges g X (X, y) lo (e :: hi) cur at_ Q out = .error .precision ∧ ¬ ∀ f ∈ lo ++ e :: hi, EvenEl f) := by
  unfold endEdges
  rw [if_pos (by simpa using he)]
  simp only
  rw [if_pos (by intro h; have := congrArg Prod.fst h; simp only at this; omega)]
  obtain ⟨a1, a2, a3⟩ := List.isChain_append.1 hc
  obtain ⟨p1, p2, p3⟩ := List.pairwise_append.1 hs
  cases hi with
  | nil =>
    left
    refine ⟨Q, rfl, ?_, hqs, hq⟩
    simpa using a1
  | cons f hi =>
    simp only
    have mlo : ∀ b ∈ lo.getLast?, b ∈ lo := fun b hb => List.mem_of_getLast? hb
    have mhi : ∀ b ∈ hi.head?, b ∈ hi := fun b hb => List.mem_of_mem_head? hb
    have hsf : Slope f := hsl f (by simp)
    cases hf : findCross X lo.getLast? f hi.head? Q with
    | error err =>
      right
      obtain ⟨e1, e2⟩ := findCross_err hsf hf
      subst e1
      refine ⟨rfl, fun h => e2 ⟨h f (by simp), fun b hb => h b (by simp [mlo b hb]), fun b hb => h b (by simp [mhi b hb])⟩⟩
    | ok Q1 =>
      left
      obtain ⟨f1, f2, f3, f4, f5, _⟩ := findCross_spec hsf (fun b hb => hsl b (by simp [mlo b hb]))
        (fun b hb => hsl b (by simp [mhi b hb])) (fun b hb => p3 b (mlo b hb) f (by simp))
        (fun b hb => (List.pairwise_cons.1 (List.pairwise_cons.1 p2).2).1 b (mhi b hb)) hf
      simp only
      refine ⟨Q1, ?_, ?_, f5 hqs, fun p hp => ?_⟩
      · exact endEdges_none g h
      · rw [List.isChain_append]
        refine ⟨a1.imp (fun {a b} h => h.mono f3), (List.isChain_cons.1 a2).2.imp (fun {a b} h => h.mono f3), ?_⟩
        intro a ha b hb
        simp only [List.head?_cons, Option.mem_def, Option.some.injEq] at hb
        subst hb
        exact f1 a ha
      · rcases f4 p hp with h | h
        · exact hq p h
        · exact h

/-! ### The body of the loop -/

theorem procLoop_cons [AddCommGroup C] [DecidableEq C] (g : C → Bool) (x : Int) (k : Nat) (w : Vert C)
    (ws : List (Vert C)) (L : List (El C)) (Q : List P) (out : List V45) (V : C) (prev : P) (nxt : Option (El C))
    (h : w.1.1 = x) :
    procLoop g x (k + 1) (w :: ws) L Q out V prev nxt =
      match stepAt g x (nextV x w ws V nxt).1 V prev L Q out with
      | .error err => .error err
      | .ok (L5, Q5, out5, nx) => procLoop g x k (nextV x w ws V nxt).2 L5 Q5 out5
          (V + (nextV x w ws V nxt).1.2.v) (nextV x w ws V nxt).1.1 nx := by
  conv_lhs => unfold procLoop
  rw [if_neg (by simpa using h)]
  cases stepAt g x (nextV x w ws V nxt).1 V prev L Q out <;> rfl

/-! ### Vertices at the same point -/

section tot
variable [AddCommGroup C]

/-- The sum of the counts at a height. -/
def totQ (y : Int) (vs : List (Vert C)) : Quad C :=
  ⟨((vs.filter (fun v => decide (v.1.2 = y))).map (fun v => v.2.n)).sum,
   ((vs.filter (fun v => decide (v.1.2 = y))).map (fun v => v.2.z)).sum,
   ((vs.filter (fun v => decide (v.1.2 = y))).map (fun v => v.2.p)).sum,
   ((vs.filter (fun v => decide (v.1.2 = y))).map (fun v => v.2.v)).sum⟩

theorem totQ_none {y : Int} {vs : List (Vert C)} (h : ∀ v ∈ vs, v.1.2 ≠ y) : totQ y vs = ⟨0, 0, 0, 0⟩ := by
  unfold totQ
  rw [List.filter_eq_nil_iff.2 (fun v hv => by simpa using h v hv)]
  rfl

theorem totQ_cons (y : Int) (v : Vert C) (vs : List (Vert C)) :
    totQ y (v :: vs) = if v.1.2 = y then v.2.add (totQ y vs) else totQ y vs := by
  unfold totQ Quad.add
  by_cases h : v.1.2 = y
  · rw [if_pos h, List.filter_cons_of_pos (by simpa using h)]; rfl
  · rw [if_neg h, List.filter_cons_of_neg (by simpa using h)]

theorem Quad.add_zero (q : Quad C) : q.add ⟨0, 0, 0, 0⟩ = q := by unfold Quad.add; simp
theorem Quad.zero_add (q : Quad C) : (⟨0, 0, 0, 0⟩ : Quad C).add q = q := by unfold Quad.add; simp
theorem Quad.add_assoc (a b c : Quad C) : (a.add b).add c = a.add (b.add c) := by
  unfold Quad.add; simp [_root_.add_assoc]
theorem Quad.add_comm (a b : Quad C) : a.add b = b.add a := by
  unfold Quad.add; simp [_root_.add_comm]

theorem totQ_append (y : Int) (a b : List (Vert C)) : totQ y (a ++ b) = (totQ y a).add (totQ y b) := by
  unfold totQ Quad.add; simp

/-- Vertices in order at one abscissa. -/
def YSorted (vs : List (Vert C)) : Prop := vs.Pairwise (fun v w => v.1.2 ≤ w.1.2)

theorem accumulate_eq {X : Int} : ∀ (vs : List (Vert C)) (v : Vert C), (∀ w ∈ v :: vs, w.1.1 = X) → YSorted (v :: vs) →
    accumulate v vs = ((v.1, totQ v.1.2 (v :: vs)), vs.filter (fun w => decide (v.1.2 < w.1.2))) := by
  intro vs
  induction vs with
  | nil => intro v _ _; simp [accumulate, totQ]
  | cons w ws ih =>
    intro v hx hs
    have hs' := List.pairwise_cons.1 hs
    have hw := hx w (by simp)
    have hv := hx v (by simp)
    unfold accumulate
    by_cases h : w.1 = v.1
    · rw [if_pos h, ih _ (by
        intro u hu
        rcases List.mem_cons.1 hu with rfl | hu
        · exact hv
        · exact hx u (by simp [hu])) (by
        refine List.pairwise_cons.2 ⟨fun u hu => hs'.1 u (by simp [hu]), (List.pairwise_cons.1 hs'.2).2⟩)]
      simp only
      rw [totQ_cons, totQ_cons, if_pos (by rfl), if_pos (by rfl), totQ_cons, if_pos (by rw [h]), Quad.add_assoc,
        List.filter_cons_of_neg (by rw [h]; simp)]
    · rw [if_neg h]
      have hlt : ∀ u ∈ w :: ws, v.1.2 < u.1.2 := by
        have h1 : v.1.2 < w.1.2 := by
          have := hs'.1 w (by simp)
          rcases lt_or_eq_of_le this with h' | h'
          · exact h'
          · exact absurd (Prod.ext (by rw [hw, hv]) h'.symm) h
        intro u hu
        rcases List.mem_cons.1 hu with rfl | hu
        · exact h1
        · have := (List.pairwise_cons.1 hs'.2).1 u hu; omega
      rw [totQ_cons, if_pos rfl, totQ_none (fun u hu => by have := hlt u hu; omega), Quad.add_zero,
        List.filter_eq_self.2 (fun u hu => by simpa using hlt u hu)]

theorem rays_at {X y : Int} (f : Line → Bool) {vs : List (Vert C)} (hx : ∀ v ∈ vs, v.1.1 = X) :
    sumOn f (rays (vs.filter (fun v => decide (v.1.2 = y)))) = sumOn f (qrays (X, y) (totQ y vs)) := by
  induction vs with
  | nil => simp [rays, totQ, qrays]
  | cons v vs ih =>
    have ih := ih (fun v h => hx v (by simp [h]))
    rw [totQ_cons]
    by_cases h : v.1.2 = y
    · rw [if_pos h, List.filter_cons_of_pos (by simpa using h)]
      have hv : v.1 = (X, y) := Prod.ext (hx v (by simp)) h
      have : rays (v :: vs.filter (fun v => decide (v.1.2 = y))) =
          qrays v.1 v.2 ++ rays (vs.filter (fun v => decide (v.1.2 = y))) := rfl
      rw [this, sumOn_append, ih, hv]
      simp only [qrays, sumOn_cons, sumOn_nil, Quad.add]
      split_ifs <;> abel
    · rw [if_neg h, List.filter_cons_of_neg (by simpa using h), ih]

theorem rays_split (f : Line → Bool) {y : Int} (vs : List (Vert C)) :
    sumOn f (rays (vs.filter (fun v => decide (y - 1 < v.1.2)))) =
      sumOn f (rays (vs.filter (fun v => decide (v.1.2 = y)))) + sumOn f (rays (vs.filter (fun v => decide (y < v.1.2)))) := by
  induction vs with
  | nil => simp [rays]
  | cons v vs ih =>
    have e : ∀ ws : List (Vert C), rays (v :: ws) = qrays v.1 v.2 ++ rays ws := fun _ => rfl
    rcases lt_trichotomy v.1.2 y with h | h | h
    · rw [List.filter_cons_of_neg (by simp; omega), List.filter_cons_of_neg (by simp; omega),
        List.filter_cons_of_neg (by simp; omega), ih]
    · rw [List.filter_cons_of_pos (by simp; omega), List.filter_cons_of_pos (by simpa using h),
        List.filter_cons_of_neg (by simp; omega), e, e, sumOn_append, sumOn_append, ih]
      abel
    · rw [List.filter_cons_of_pos (by simp; omega), List.filter_cons_of_neg (by simp; omega),
        List.filter_cons_of_pos (by simpa using h), e, e, sumOn_append, sumOn_append, ih]
      abel

theorem list_sum_ne_zero {l : List C} (h : l.sum ≠ 0) : ∃ a ∈ l, a ≠ 0 := by
  by_contra hc
  push Not at hc
  exact h (List.sum_eq_zero hc)

end tot

/-! ### The edges that start at a point -/

section news
variable [DecidableEq C]

def newEl (X y r : Int) (b c : C) : List (El C) := if c = b then [] else [⟨X, y, r, c⟩]

theorem lastc_newEl (X y r : Int) (b c : C) : lastc b (newEl X y r b c) = c := by
  unfold newEl; split_ifs with h
  · exact h.symm
  · rfl

theorem sumOn_newEl {A : Type} [AddCommGroup A] (φ : C → A) (f : Line → Bool) (X y r : Int) (b c : C) :
    sumOn f (deltas φ b (newEl X y r b c)) = if f (lineOf (X, y) r) then φ c - φ b else 0 := by
  unfold newEl
  by_cases h : c = b
  · rw [if_pos h, h]; simp [deltas]
  · rw [if_neg h]; simp [deltas, El.line]

theorem mem_newEl {X y r : Int} {b c : C} {e : El C} (h : e ∈ newEl X y r b c) : e = ⟨X, y, r, c⟩ ∧ c ≠ b := by
  unfold newEl at h
  split_ifs at h with h1
  · simp at h
  · exact ⟨List.mem_singleton.1 h, h1⟩

end news

end Verif.Deg45
