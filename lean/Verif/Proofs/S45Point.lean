import Verif.Proofs.S45Erase
/-! # What happens at one point of the 45-degree scanline -/
namespace Verif.Deg45

variable {C : Type}

/-- The value of a condition. -/
def gi (g : C → Bool) (c : C) : Int := if g c then 1 else 0

theorem edgeType_eq (g : C → Bool) (c1 c2 : C) : edgeType g c1 c2 = gi g c2 - gi g c1 := by
  unfold edgeType gi
  cases g c1 <;> cases g c2 <;> rfl

/-- The half lines of vertices that are not vertical. -/
def rays (vs : List (Vert C)) : List (Line × C) :=
  vs.flatMap (fun v => [(lineOf v.1 (-1), v.2.n), (lineOf v.1 0, v.2.z), (lineOf v.1 1, v.2.p)])

def oRays (out : List V45) : List (Line × Int) :=
  (out.filter (fun v => decide (v.rise ≠ 2))).map (fun v => (lineOf v.pt v.rise, v.count))

/-- The half lines that leave a point, the vertical one counted negatively. -/
def bal (out : List V45) (pt : P) : Int :=
  (out.map (fun v => if v.pt = pt then (if v.rise = 2 then -v.count else v.count) else 0)).sum

theorem rays_append (a b : List (Vert C)) : rays (a ++ b) = rays a ++ rays b := by simp [rays]
theorem oRays_append (a b : List V45) : oRays (a ++ b) = oRays a ++ oRays b := by simp [oRays]
theorem bal_append (a b : List V45) (pt : P) : bal (a ++ b) pt = bal a pt + bal b pt := by simp [bal]

theorem emit_eq (g : C → Bool) (out : List V45) (c1 c2 : C) (pt : P) (r : Int) (low : Bool) :
    emit g out c1 c2 pt r low =
      if edgeType g c1 c2 = 0 then out else out ++ [⟨pt, r, edgeType g c1 c2 * (if low then -1 else 1)⟩] := by
  unfold emit opFn
  by_cases h : edgeType g c1 c2 = 0
  · simp only [if_pos h, List.append_nil]
  · simp only [if_neg h]

/-- The signed change that is written out. -/
def sgn (low : Bool) : Int := if low then -1 else 1

theorem emit_rays (g : C → Bool) (out : List V45) (c1 c2 : C) (pt : P) (r : Int) (low : Bool) (f : Line → Bool)
    (hr : r ≠ 2) : sumOn f (oRays (emit g out c1 c2 pt r low)) =
      sumOn f (oRays out) + (if f (lineOf pt r) then sgn low * (gi g c2 - gi g c1) else 0) := by
  rw [emit_eq]
  rw [edgeType_eq]
  by_cases h1 : gi g c2 - gi g c1 = 0
  · rw [if_pos h1, h1]; simp
  · rw [if_neg h1, oRays_append, sumOn_append]
    by_cases h2 : f (lineOf pt r) = true
    · cases low <;> simp [oRays, hr, h2, sgn]
    · simp [oRays, hr, h2]

theorem emit_rays_vert (g : C → Bool) (out : List V45) (c1 c2 : C) (pt : P) (low : Bool) :
    oRays (emit g out c1 c2 pt 2 low) = oRays out := by
  rw [emit_eq]
  split_ifs with h1
  · rfl
  · rw [oRays_append]; simp [oRays]
  · rw [oRays_append]; simp [oRays]

theorem emit_bal (g : C → Bool) (out : List V45) (c1 c2 : C) (pt : P) (r : Int) (low : Bool) (q : P) :
    bal (emit g out c1 c2 pt r low) q =
      bal out q + (if pt = q then (if r = 2 then -1 else 1) * (sgn low * (gi g c2 - gi g c1)) else 0) := by
  rw [emit_eq]
  rw [edgeType_eq]
  split_ifs with h1 h2 h3 h4 <;> (try rw [h1]) <;> (try rw [bal_append]) <;> simp_all [bal, sgn] <;> ring

/-- The new output only adds points at the abscissa. -/
def Ext (X : Int) (out out' : List V45) : Prop :=
  ∃ t, out' = out ++ t ∧ ∀ v ∈ t, v.pt.1 = X ∧ (v.rise = -1 ∨ v.rise = 0 ∨ v.rise = 1 ∨ v.rise = 2)

theorem Ext.refl (X : Int) (out : List V45) : Ext X out out := ⟨[], by simp, by simp⟩
theorem Ext.trans {X : Int} {a b c : List V45} (h : Ext X a b) (h' : Ext X b c) : Ext X a c := by
  obtain ⟨t, rfl, h1⟩ := h
  obtain ⟨u, rfl, h2⟩ := h'
  refine ⟨t ++ u, by simp, fun v hv => ?_⟩
  rcases List.mem_append.1 hv with h | h
  · exact h1 v h
  · exact h2 v h

theorem emit_ext (g : C → Bool) (out : List V45) (c1 c2 : C) (pt : P) (r : Int) (low : Bool)
    (hr : r = -1 ∨ r = 0 ∨ r = 1 ∨ r = 2) : Ext pt.1 out (emit g out c1 c2 pt r low) := by
  rw [emit_eq]
  split_ifs
  · exact Ext.refl _ _
  · exact ⟨_, rfl, fun v hv => by rw [List.mem_singleton.1 hv]; exact ⟨rfl, hr⟩⟩
  · exact ⟨_, rfl, fun v hv => by rw [List.mem_singleton.1 hv]; exact ⟨rfl, hr⟩⟩

theorem line_of_eval {e : El C} {X y : Int} (h : e.eval X = y) : e.line = lineOf (X, y) e.rise := by
  unfold El.line lineOf
  unfold El.eval at h
  ext
  · rfl
  · simp only; linarith [h, mul_sub e.rise X e.x]

/-! ### The counts at a crossing -/

section cross
variable [AddCommGroup C]

/-- The half lines of one vertex. -/
def qrays (p : P) (q : Quad C) : List (Line × C) := [(lineOf p (-1), q.n), (lineOf p 0, q.z), (lineOf p 1, q.p)]

theorem crossQ_rays {X y : Int} (b : C) {grp : List (El C)} (hsl : ∀ e ∈ grp, Slope e)
    (hy : ∀ e ∈ grp, e.eval X = y) (hs : grp.Pairwise (fun a b => b.rise < a.rise)) :
    Eqv (deltas id b grp) (qrays (X, y) (crossQ b grp)) := by
  intro f
  have hl : ∀ e ∈ grp, e.line = lineOf (X, y) e.rise := fun e he => line_of_eval (hy e he)
  unfold Slope at hsl
  rcases grp with _ | ⟨e1, _ | ⟨e2, _ | ⟨e3, _ | ⟨e4, r⟩⟩⟩⟩
  · simp [deltas, qrays, crossQ]
  · have s1 := hsl e1 (by simp); have l1 := hl e1 (by simp)
    rcases s1 with s1 | s1 | s1 <;> simp [deltas, qrays, crossQ, setDown, l1, s1]
  · have s1 := hsl e1 (by simp); have l1 := hl e1 (by simp)
    have s2 := hsl e2 (by simp); have l2 := hl e2 (by simp)
    have h12 : e2.rise < e1.rise := (List.pairwise_cons.1 hs).1 e2 (by simp)
    rcases s1 with s1 | s1 | s1 <;> rcases s2 with s2 | s2 | s2 <;> (try omega) <;>
      simp [deltas, qrays, crossQ, setDown, l1, s1, l2, s2] <;> abel
  · have s1 := hsl e1 (by simp); have l1 := hl e1 (by simp)
    have s2 := hsl e2 (by simp); have l2 := hl e2 (by simp)
    have s3 := hsl e3 (by simp); have l3 := hl e3 (by simp)
    have h12 : e2.rise < e1.rise := (List.pairwise_cons.1 hs).1 e2 (by simp)
    have h23 : e3.rise < e2.rise := (List.pairwise_cons.1 (List.pairwise_cons.1 hs).2).1 e3 (by simp)
    have t1 : e1.rise = 1 := by omega
    have t2 : e2.rise = 0 := by omega
    have t3 : e3.rise = -1 := by omega
    simp [deltas, qrays, crossQ, setDown, l1, t1, l2, t2, l3, t3]
    abel
  · have s1 := hsl e1 (by simp); have s2 := hsl e2 (by simp)
    have s3 := hsl e3 (by simp); have s4 := hsl e4 (by simp)
    have h12 : e2.rise < e1.rise := (List.pairwise_cons.1 hs).1 e2 (by simp)
    have h23 : e3.rise < e2.rise := (List.pairwise_cons.1 (List.pairwise_cons.1 hs).2).1 e3 (by simp)
    have h34 : e4.rise < e3.rise :=
      (List.pairwise_cons.1 (List.pairwise_cons.1 (List.pairwise_cons.1 hs).2).2).1 e4 (by simp)
    omega

theorem crossQ_sum {X y : Int} (b : C) {grp : List (El C)} (hsl : ∀ e ∈ grp, Slope e)
    (hy : ∀ e ∈ grp, e.eval X = y) (hs : grp.Pairwise (fun a b => b.rise < a.rise)) :
    (crossQ b grp).n + (crossQ b grp).z + (crossQ b grp).p = lastc b grp - b := by
  have h := crossQ_rays b hsl hy hs (fun _ => true)
  rw [sumOn_deltas_all id _ _ _ (fun _ _ => rfl)] at h
  simp [qrays] at h
  rw [h]; abel

theorem crossQ_diag {X y : Int} (b : C) {grp : List (El C)} (hsl : ∀ e ∈ grp, Slope e)
    (hy : ∀ e ∈ grp, e.eval X = y) (hs : grp.Pairwise (fun a b => b.rise < a.rise)) :
    ((crossQ b grp).n ≠ 0 → ∃ e ∈ grp, e.rise = -1) ∧ ((crossQ b grp).p ≠ 0 → ∃ e ∈ grp, e.rise = 1) := by
  constructor
  · intro h
    by_contra hc
    push Not at hc
    have h1 := crossQ_rays b hsl hy hs (fun l => decide (l.1 = -1))
    rw [sumOn_deltas_none id _ _ _ (fun e he => by rw [line_fst]; simpa using hc e he)] at h1
    simp [qrays, lineOf] at h1
    exact h h1.symm
  · intro h
    by_contra hc
    push Not at hc
    have h1 := crossQ_rays b hsl hy hs (fun l => decide (l.1 = 1))
    rw [sumOn_deltas_none id _ _ _ (fun e he => by rw [line_fst]; simpa using hc e he)] at h1
    simp [qrays, lineOf] at h1
    exact h h1.symm

theorem crossQ_v (b : C) (grp : List (El C)) : (crossQ b grp).v = 0 := rfl

theorem crossQ_single_up (b : C) {e : El C} (he : Slope e) :
    let at_ := setUp (⟨b, b, b, b⟩ : Quad C) e.rise e.count
    let a := crossQ b [e]
    at_.n = b + a.n ∧ at_.z = b + a.n + a.z ∧ at_.p = b + a.n + a.z + a.p := by
  unfold Slope at he
  rcases he with h | h | h <;> simp [crossQ, setDown, setUp, h]

end cross

/-- 624-629 as a change of the output. -/
theorem emitLows_rays (g : C → Bool) {X y : Int} (f : Line → Bool) : ∀ (grp : List (El C)) (b : C) (out : List V45),
    (∀ e ∈ grp, Slope e) → (∀ e ∈ grp, e.eval X = y) →
    sumOn f (oRays (emitLows g (X, y) b grp out)) = sumOn f (oRays out) - sumOn f (deltas (gi g) b grp) := by
  intro grp
  induction grp with
  | nil => intro b out _ _; simp [emitLows, deltas]
  | cons e grp ih =>
    intro b out hs hy
    unfold emitLows deltas
    rw [ih _ _ (fun e h => hs e (List.mem_cons_of_mem _ h)) (fun e h => hy e (List.mem_cons_of_mem _ h)),
      emit_rays _ _ _ _ _ _ _ _ (by have := hs e List.mem_cons_self; unfold Slope at this; omega), sumOn_cons,
      line_of_eval (hy e List.mem_cons_self)]
    simp only [sgn]
    split_ifs <;> simp <;> ring

theorem emitLows_bal (g : C → Bool) {X y : Int} (q : P) : ∀ (grp : List (El C)) (b : C) (out : List V45),
    (∀ e ∈ grp, Slope e) →
    bal (emitLows g (X, y) b grp out) q = bal out q - (if (X, y) = q then gi g (lastc b grp) - gi g b else 0) := by
  intro grp
  induction grp with
  | nil => intro b out _; simp [emitLows, lastc]
  | cons e grp ih =>
    intro b out hs
    unfold emitLows lastc
    rw [ih _ _ (fun e h => hs e (List.mem_cons_of_mem _ h)), emit_bal,
      if_neg (c := e.rise = 2) (by have := hs e List.mem_cons_self; unfold Slope at this; omega)]
    simp only [sgn]
    split_ifs <;> simp <;> ring

theorem emitLows_ext (g : C → Bool) {X y : Int} : ∀ (grp : List (El C)) (b : C) (out : List V45),
    (∀ e ∈ grp, Slope e) → Ext X out (emitLows g (X, y) b grp out) := by
  intro grp
  induction grp with
  | nil => intro b out _; exact Ext.refl _ _
  | cons e grp ih =>
    intro b out hs
    unfold emitLows
    refine Ext.trans ?_ (ih _ _ (fun e h => hs e (List.mem_cons_of_mem _ h)))
    exact emit_ext g out b e.count (X, y) e.rise true (by
      have := hs e List.mem_cons_self; unfold Slope at this; omega)

/-! ### Starting an edge -/

theorem less_false {x : Int} {a b : El C} : less x false a b = true ↔ LtA x a b := by
  unfold less LtA
  by_cases h1 : a.eval x < b.eval x
  · simp [h1]
  by_cases h2 : a.eval x = b.eval x
  · simp [h2]
  · simp [h1, h2]

theorem LtA.asymm {x : Int} {a b : El C} (h : LtA x a b) : ¬ LtA x b a := by unfold LtA at *; omega

theorem isChain_insert {R : El C → El C → Prop} {A B : List (El C)} {e : El C} (h : (A ++ B).IsChain R)
    (h1 : ∀ a ∈ A.getLast?, R a e) (h2 : ∀ b ∈ B.head?, R e b) : (A ++ e :: B).IsChain R := by
  obtain ⟨a1, a2, _⟩ := List.isChain_append.1 h
  rw [List.isChain_append, List.isChain_cons]
  refine ⟨a1, ⟨h2, a2⟩, ?_⟩
  intro a ha b hb
  simp only [List.head?_cons, Option.mem_def, Option.some.injEq] at hb
  subst hb
  exact h1 a ha

theorem startEdge_spec [AddCommGroup C] [DecidableEq C] (g : C → Bool) {X y r : Int} {below c : C} {A B : List (El C)} {Q : List P}
    (out : List V45) (hsl : ∀ e ∈ A ++ B, Slope e) (hr : r = -1 ∨ r = 0 ∨ r = 1)
    (hA : ∀ a ∈ A, LtA X a ⟨X, y, r, c⟩) (hB : ∀ b ∈ B, LtA X ⟨X, y, r, c⟩ b)
    (hc : (A ++ B).IsChain (Sched Q)) (hqs : QSorted Q) (hq : ∀ p ∈ Q, X < p.1) :
    (∃ Q', startEdge g (X, y) r below c (A ++ B) Q out =
        .ok (A ++ (if c = below then [] else [(⟨X, y, r, c⟩ : El C)]) ++ B, Q', emit g out below c (X, y) r false) ∧
      (A ++ (if c = below then [] else [(⟨X, y, r, c⟩ : El C)]) ++ B).IsChain (Sched Q') ∧ QSorted Q' ∧ ∀ p ∈ Q', X < p.1) ∨
    (startEdge g (X, y) r below c (A ++ B) Q out = .error .precision ∧ c ≠ below ∧
      ¬ ((∀ e ∈ A ++ B, EvenEl e) ∧ EvenEl (⟨X, y, r, c⟩ : El C))) := by
  unfold startEdge
  by_cases h : c = below
  · left
    rw [if_pos h, if_pos h]
    refine ⟨Q, ?_, ?_, hqs, hq⟩
    · subst h
      have : emit g out c c (X, y) r false = out := by rw [emit_eq, edgeType_eq]; simp
      rw [this]; simp
    · simpa using hc
  rw [if_neg h, if_neg h]
  have ei : insertEl X (⟨X, y, r, c⟩ : El C) (A ++ B) = (A, ⟨X, y, r, c⟩, B) := by
    unfold insertEl
    have t1 : (A ++ B).takeWhile (fun f => less X false f ⟨X, y, r, c⟩) = A := by
      rw [List.takeWhile_append_of_pos (fun f hf => less_false.2 (hA f hf))]
      cases B with
      | nil => simp
      | cons b B =>
        rw [List.takeWhile_cons_of_neg (by
          rw [less_false]; exact (hB b List.mem_cons_self).asymm), List.append_nil]
    have t2 : (A ++ B).dropWhile (fun f => less X false f ⟨X, y, r, c⟩) = B := by
      rw [List.dropWhile_append_of_pos (fun f hf => less_false.2 (hA f hf))]
      cases B with
      | nil => simp
      | cons b B =>
        rw [List.dropWhile_cons_of_neg (by rw [less_false]; exact (hB b List.mem_cons_self).asymm)]
    simp only [t1, t2]
    cases B with
    | nil => rfl
    | cons b B => simp only; rw [if_pos (less_false.2 (hB b List.mem_cons_self))]
  simp only [ei]
  have mlo : ∀ b ∈ A.getLast?, b ∈ A := fun b hb => List.mem_of_getLast? hb
  have mhi : ∀ b ∈ B.head?, b ∈ B := fun b hb => List.mem_of_mem_head? hb
  have hse : Slope (⟨X, y, r, c⟩ : El C) := hr
  cases hf : findCross X A.getLast? (⟨X, y, r, c⟩ : El C) B.head? Q with
  | error err =>
    right
    obtain ⟨e1, e2⟩ := findCross_err hse hf
    subst e1
    exact ⟨rfl, h, fun ⟨h1, h2⟩ => e2 ⟨h2, fun b hb => h1 b (by simp [mlo b hb]), fun b hb => h1 b (by simp [mhi b hb])⟩⟩
  | ok Q1 =>
    left
    obtain ⟨f1, f2, f3, f4, f5, _⟩ := findCross_spec hse (fun b hb => hsl b (by simp [mlo b hb]))
      (fun b hb => hsl b (by simp [mhi b hb])) (fun b hb => hA b (mlo b hb)) (fun b hb => hB b (mhi b hb)) hf
    refine ⟨Q1, by simp, ?_, f5 hqs, fun p hp => ?_⟩
    · have : A ++ [(⟨X, y, r, c⟩ : El C)] ++ B = A ++ ⟨X, y, r, c⟩ :: B := by simp
      rw [this]
      exact isChain_insert (hc.imp (fun {a b} h => h.mono f3)) f1 f2
    · rcases f4 p hp with h | h
      · exact hq p h
      · exact h

end Verif.Deg45
