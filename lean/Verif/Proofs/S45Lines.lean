import Verif.Model.Scan45
import Mathlib.Algebra.BigOperators.Group.List.Basic
import Mathlib.Tactic.Ring
import Mathlib.Tactic.Linarith
import Mathlib.Tactic.Abel
/-! # Counts carried by lines, and the crossing queue of the 45-degree scanline -/
namespace Verif.Deg45

variable {C : Type}

/-- A line: slope and ordinate at zero. -/
abbrev Line := Int × Int

def lineOf (p : P) (r : Int) : Line := (r, p.2 - r * p.1)
def El.line (e : El C) : Line := lineOf (e.x, e.y) e.rise
def atX (l : Line) (x : Int) : Int := l.2 + l.1 * x

theorem El.eval_line (e : El C) (x : Int) : e.eval x = atX e.line x := by
  unfold El.eval El.line lineOf atX; ring

/-- The sum of the weights on the lines of a class. -/
def sumOn {A : Type} [AddCommGroup A] (f : Line → Bool) (R : List (Line × A)) : A :=
  (R.map (fun r => if f r.1 then r.2 else 0)).sum

section sums
variable {A : Type} [AddCommGroup A]

@[simp] theorem sumOn_nil (f : Line → Bool) : sumOn f ([] : List (Line × A)) = 0 := rfl
@[simp] theorem sumOn_cons (f : Line → Bool) (r : Line × A) (R : List (Line × A)) :
    sumOn f (r :: R) = (if f r.1 then r.2 else 0) + sumOn f R := by simp [sumOn]
@[simp] theorem sumOn_append (f : Line → Bool) (R S : List (Line × A)) :
    sumOn f (R ++ S) = sumOn f R + sumOn f S := by simp [sumOn]

/-- The same total weight on every line. -/
def Eqv (R S : List (Line × A)) : Prop := ∀ f, sumOn f R = sumOn f S

theorem Eqv.refl (R : List (Line × A)) : Eqv R R := fun _ => rfl
theorem Eqv.symm {R S : List (Line × A)} (h : Eqv R S) : Eqv S R := fun f => (h f).symm
theorem Eqv.trans {R S T : List (Line × A)} (h : Eqv R S) (h' : Eqv S T) : Eqv R T := fun f => (h f).trans (h' f)

variable (φ : C → A)

/-- The jumps across the edges of a scanline above the count `b`. -/
def deltas : C → List (El C) → List (Line × A)
  | _, [] => []
  | b, e :: L => (e.line, φ e.count - φ b) :: deltas e.count L

/-- The count above a scanline that starts above the count `b`. -/
def lastc : C → List (El C) → C
  | b, [] => b
  | _, e :: L => lastc e.count L

theorem lastc_append (b : C) (L M : List (El C)) : lastc b (L ++ M) = lastc (lastc b L) M := by
  induction L generalizing b with
  | nil => rfl
  | cons e L ih => exact ih e.count

theorem deltas_append (b : C) (L M : List (El C)) :
    deltas φ b (L ++ M) = deltas φ b L ++ deltas φ (lastc b L) M := by
  induction L generalizing b with
  | nil => rfl
  | cons e L ih => simp [deltas, lastc, ih e.count]

theorem sumOn_deltas_all (f : Line → Bool) (b : C) (L : List (El C)) (h : ∀ e ∈ L, f e.line = true) :
    sumOn f (deltas φ b L) = φ (lastc b L) - φ b := by
  induction L generalizing b with
  | nil => simp [deltas, lastc]
  | cons e L ih =>
    simp only [deltas, sumOn_cons, lastc]
    rw [ih e.count (fun e' h' => h e' (List.mem_cons_of_mem _ h')), if_pos (h e List.mem_cons_self)]
    abel

theorem sumOn_deltas_none (f : Line → Bool) (b : C) (L : List (El C)) (h : ∀ e ∈ L, f e.line = false) :
    sumOn f (deltas φ b L) = 0 := by
  induction L generalizing b with
  | nil => simp [deltas]
  | cons e L ih =>
    simp only [deltas, sumOn_cons]
    rw [ih e.count (fun e' h' => h e' (List.mem_cons_of_mem _ h')), h e List.mem_cons_self]
    simp

end sums

theorem countBelow_eq [Zero C] (L : List (El C)) : countBelow L = lastc 0 L := by
  rcases L.eq_nil_or_concat with rfl | ⟨M, e, rfl⟩
  · rfl
  · simp [countBelow, lastc_append, lastc]

/-! ### The crossing queue -/

theorem mem_insertQ (p q : P) (Q : List P) : q ∈ insertQ p Q ↔ q = p ∨ q ∈ Q := by
  induction Q with
  | nil => simp [insertQ]
  | cons r Q ih =>
    unfold insertQ
    split_ifs with h1 h2
    · simp
    · subst h2; simp
    · simp only [List.mem_cons, ih]; tauto

/-- The points are in increasing order. -/
def QSorted (Q : List P) : Prop := Q.Pairwise (fun p q => p.1 < q.1 ∨ (p.1 = q.1 ∧ p.2 < q.2))

theorem insertQ_sorted (p : P) {Q : List P} (h : QSorted Q) : QSorted (insertQ p Q) := by
  induction Q with
  | nil => simp [insertQ, QSorted]
  | cons r Q ih =>
    have h' := List.pairwise_cons.1 h
    unfold insertQ
    split_ifs with h1 h2
    · refine List.pairwise_cons.2 ⟨?_, h⟩
      intro q hq
      rcases List.mem_cons.1 hq with rfl | hq
      · exact h1
      · have := h'.1 q hq; omega
    · exact h
    · refine List.pairwise_cons.2 ⟨?_, ih h'.2⟩
      intro q hq
      rcases (mem_insertQ _ _ _).1 hq with rfl | hq
      · have : ¬(q.1 = r.1 ∧ q.2 = r.2) := fun e => h2 (Prod.ext e.1 e.2)
        omega
      · exact h'.1 q hq

/-! ### Edges that will cross -/

def Slope (e : El C) : Prop := e.rise = -1 ∨ e.rise = 0 ∨ e.rise = 1

/-- The order of the scanline just after the abscissa. -/
def LtA (x : Int) (a b : El C) : Prop := a.eval x < b.eval x ∨ (a.eval x = b.eval x ∧ a.rise < b.rise)

/-- If the lower edge `a` rises faster than the upper edge `b`, their crossing point, or the grid point on `a`
just before it, is in the queue. -/
def Sched (Q : List P) (a b : El C) : Prop :=
  (a.rise = b.rise + 1 → (b.line.2 - a.line.2, atX a.line (b.line.2 - a.line.2)) ∈ Q) ∧
  (a.rise = b.rise + 2 → ((b.line.2 - a.line.2) / 2, atX a.line ((b.line.2 - a.line.2) / 2)) ∈ Q)

theorem Sched.mono {Q Q' : List P} {a b : El C} (h : Sched Q a b) (hs : ∀ p ∈ Q, p ∈ Q') : Sched Q' a b :=
  ⟨fun e => hs _ (h.1 e), fun e => hs _ (h.2 e)⟩

theorem Sched.of_le {Q : List P} {a b : El C} (h : a.rise ≤ b.rise) : Sched Q a b :=
  ⟨fun e => by omega, fun e => by omega⟩

theorem line_fst (e : El C) : e.line.1 = e.rise := rfl

theorem cross0_low {x : Int} {a b : El C} {Q : List P} (ha : a.rise = 0) (hb : b.rise = 1)
    (hlt : LtA x b a) : Sched (cross0 x a b Q) b a ∧ (∀ p ∈ cross0 x a b Q, p ∈ Q ∨ x < p.1) := by
  have hg : b.eval x < a.eval x := by unfold LtA at hlt; omega
  rw [El.eval_line, El.eval_line] at hg
  have e0 : localAbs (a.eval x - b.eval x) = atX a.line x - atX b.line x := by
    rw [El.eval_line, El.eval_line]; unfold localAbs; rw [if_neg (by omega)]
  unfold cross0
  rw [e0]
  refine ⟨⟨fun _ => ?_, fun e => by omega⟩, ?_⟩
  · rw [mem_insertQ]; left
    rw [El.eval_line]
    have h1 := line_fst a; have h2 := line_fst b
    unfold atX; rw [h1, h2, ha, hb]
    ext <;> simp <;> ring
  · intro p hp
    rcases (mem_insertQ _ _ _).1 hp with rfl | h
    · right; simp only; omega
    · exact Or.inl h

theorem cross0_high {x : Int} {a b : El C} {Q : List P} (ha : a.rise = 0) (hb : b.rise = -1)
    (hlt : LtA x a b) : Sched (cross0 x a b Q) a b ∧ (∀ p ∈ cross0 x a b Q, p ∈ Q ∨ x < p.1) := by
  have hg : a.eval x < b.eval x := by unfold LtA at hlt; omega
  rw [El.eval_line, El.eval_line] at hg
  have e0 : localAbs (a.eval x - b.eval x) = atX b.line x - atX a.line x := by
    rw [El.eval_line, El.eval_line]; unfold localAbs; rw [if_pos (by omega)]; omega
  unfold cross0
  rw [e0]
  refine ⟨⟨fun _ => ?_, fun e => by omega⟩, ?_⟩
  · rw [mem_insertQ]; left
    rw [El.eval_line]
    have h1 := line_fst a; have h2 := line_fst b
    unfold atX; rw [h1, h2, ha, hb]
    ext <;> simp <;> ring
  · intro p hp
    rcases (mem_insertQ _ _ _).1 hp with rfl | h
    · right; simp only; omega
    · exact Or.inl h

theorem cross1_spec {x : Int} {a b : El C} {Q Q' : List P} (ha : a.rise = -1) (hb : b.rise = 1)
    (hlt : LtA x b a) (h : cross1 x a b Q = .ok Q') :
    Sched Q' b a ∧ (∀ p ∈ Q, p ∈ Q') ∧ (∀ p ∈ Q', p ∈ Q ∨ x < p.1) ∧ (QSorted Q → QSorted Q') ∧
      a.eval x ≠ b.eval x + 1 := by
  have hg : b.eval x < a.eval x := by unfold LtA at hlt; omega
  have ea : a.eval x = a.line.2 - x := by rw [El.eval_line]; unfold atX; rw [line_fst, ha]; ring
  have eb : b.eval x = b.line.2 + x := by rw [El.eval_line]; unfold atX; rw [line_fst, hb]; ring
  have e0 : (a.eval x - b.eval x).tdiv 2 = (a.line.2 - b.line.2) / 2 - x := by
    rw [Int.tdiv_eq_ediv_of_nonneg (by omega)]; omega
  have ep : ((a.line.2 - b.line.2) / 2, atX b.line ((a.line.2 - b.line.2) / 2)) =
      (x + (a.eval x - b.eval x).tdiv 2, b.eval x + (a.eval x - b.eval x).tdiv 2) := by
    rw [e0]; unfold atX; rw [line_fst, hb]
    ext
    · simp
    · simp only; omega
  unfold cross1 at h
  simp only at h
  rw [Sched, ep]
  split_ifs at h with h1 h2
  · simp only [Except.ok.injEq] at h
    subst h
    refine ⟨⟨fun e => by omega, fun _ => ?_⟩, ?_, ?_, ?_, by omega⟩
    · rw [mem_insertQ, mem_insertQ]; exact Or.inr (Or.inl rfl)
    · intro p hp; rw [mem_insertQ, mem_insertQ]; exact Or.inr (Or.inr hp)
    · intro p hp
      rcases (mem_insertQ _ _ _).1 hp with rfl | hp
      · right; simp only; omega
      rcases (mem_insertQ _ _ _).1 hp with rfl | hp
      · right; simp only; omega
      · exact Or.inl hp
    · intro hs; exact insertQ_sorted _ (insertQ_sorted _ hs)
  · simp only [Except.ok.injEq] at h
    subst h
    refine ⟨⟨fun e => by omega, fun _ => ?_⟩, ?_, ?_, ?_, by omega⟩
    · rw [mem_insertQ]; exact Or.inl rfl
    · intro p hp; rw [mem_insertQ]; exact Or.inr hp
    · intro p hp
      rcases (mem_insertQ _ _ _).1 hp with rfl | hp
      · right; simp only; omega
      · exact Or.inl hp
    · intro hs; exact insertQ_sorted _ hs

/-- What the search for crossings around an edge leaves in the queue. -/
theorem findCross_spec {x : Int} {below above : Option (El C)} {e : El C} {Q Q' : List P}
    (hse : Slope e) (hsb : ∀ b ∈ below, Slope b) (hsa : ∀ a ∈ above, Slope a)
    (hb : ∀ b ∈ below, LtA x b e) (ha : ∀ a ∈ above, LtA x e a)
    (h : findCross x below e above Q = .ok Q') :
    (∀ b ∈ below, Sched Q' b e) ∧ (∀ a ∈ above, Sched Q' e a) ∧ (∀ p ∈ Q, p ∈ Q') ∧
      (∀ p ∈ Q', p ∈ Q ∨ x < p.1) ∧ (QSorted Q → QSorted Q') ∧
      (∀ a ∈ above, e.rise = 1 → a.rise = -1 → a.eval x ≠ e.eval x + 1) := by
  unfold findCross at h
  cases hQ1 : crossBelow x below e Q with
  | error err => rw [hQ1] at h; simp at h
  | ok Q1 =>
  rw [hQ1] at h
  simp only at h
  have s1 : (∀ b ∈ below, Sched Q1 b e) ∧ (∀ p ∈ Q, p ∈ Q1) ∧ (∀ p ∈ Q1, p ∈ Q ∨ x < p.1) ∧
      (QSorted Q → QSorted Q1) := by
    unfold crossBelow at hQ1
    cases below with
    | none =>
      simp only [Except.ok.injEq] at hQ1; subst hQ1
      exact ⟨fun b hb => by simp at hb, fun p hp => hp, fun p hp => Or.inl hp, id⟩
    | some b =>
      simp only at hQ1
      have hbl := hb b rfl
      have hs := hsb b rfl
      have triv : b.rise ≤ e.rise → Q = Q1 → (∀ b' ∈ some b, Sched Q1 b' e) ∧ (∀ p ∈ Q, p ∈ Q1) ∧
          (∀ p ∈ Q1, p ∈ Q ∨ x < p.1) ∧ (QSorted Q → QSorted Q1) := by
        rintro hle rfl
        exact ⟨fun b' hb' => by cases hb'; exact Sched.of_le hle, fun p hp => hp, fun p hp => Or.inl hp, id⟩
      unfold Slope at hse hs
      split_ifs at hQ1 with c1 c2 c3 c4 c5
      · simp only [Except.ok.injEq] at hQ1; subst hQ1
        have := cross0_low (Q := Q) c2 c3 hbl
        refine ⟨fun b' hb' => by cases hb'; exact this.1, fun p hp => ?_, this.2, fun h => insertQ_sorted _ h⟩
        unfold cross0; rw [mem_insertQ]; exact Or.inr hp
      · simp only [Except.ok.injEq] at hQ1; exact triv (by omega) hQ1
      · have := cross1_spec (by omega) c4 hbl hQ1
        exact ⟨fun b' hb' => by cases hb'; exact this.1, this.2.1, this.2.2.1, this.2.2.2.1⟩
      · simp only [Except.ok.injEq] at hQ1; subst hQ1
        have := cross0_high (Q := Q) c5 (by omega) hbl
        refine ⟨fun b' hb' => by cases hb'; exact this.1, fun p hp => ?_, this.2, fun h => insertQ_sorted _ h⟩
        unfold cross0; rw [mem_insertQ]; exact Or.inr hp
      · simp only [Except.ok.injEq] at hQ1; exact triv (by omega) hQ1
      · simp only [Except.ok.injEq] at hQ1; exact triv (by omega) hQ1
  obtain ⟨b1, b2, b3, b4⟩ := s1
  unfold crossAbove at h
  cases above with
  | none =>
    simp only [Except.ok.injEq] at h; subst h
    exact ⟨b1, fun a ha => by simp at ha, b2, b3, b4, fun a ha => by simp at ha⟩
  | some a =>
    simp only at h
    have hal := ha a rfl
    have hs := hsa a rfl
    have fin : ∀ {Q2}, Q2 = Q' → Sched Q2 e a → (∀ p ∈ Q1, p ∈ Q2) → (∀ p ∈ Q2, p ∈ Q1 ∨ x < p.1) →
        (QSorted Q1 → QSorted Q2) → (e.rise = 1 → a.rise = -1 → a.eval x ≠ e.eval x + 1) →
        (∀ b ∈ below, Sched Q' b e) ∧ (∀ a' ∈ some a, Sched Q' e a') ∧ (∀ p ∈ Q, p ∈ Q') ∧
      (∀ p ∈ Q', p ∈ Q ∨ x < p.1) ∧ (QSorted Q → QSorted Q') ∧
      (∀ a' ∈ some a, e.rise = 1 → a'.rise = -1 → a'.eval x ≠ e.eval x + 1) := by
      rintro Q2 rfl t1 t2 t3 t4 t5
      refine ⟨fun b hb => (b1 b hb).mono t2, fun a' ha' => by cases ha'; exact t1, fun p hp => t2 p (b2 p hp),
        fun p hp => ?_, fun h => t4 (b4 h), fun a' ha' => by cases ha'; exact t5⟩
      rcases t3 p hp with h | h
      · exact b3 p h
      · exact Or.inr h
    have triv : e.rise ≤ a.rise → Q1 = Q' → _ := fun hle hq =>
      fin hq (Sched.of_le hle) (fun p hp => hp) (fun p hp => Or.inl hp) id (fun _ _ => by omega)
    unfold Slope at hse hs
    split_ifs at h with c1 c2 c3 c4 c5
    · simp only [Except.ok.injEq] at h
      have := cross0_high (Q := Q1) c2 c3 hal
      exact fin h this.1 (fun p hp => by unfold cross0; rw [mem_insertQ]; exact Or.inr hp) this.2
        (fun h => insertQ_sorted _ h) (fun _ _ => by omega)
    · simp only [Except.ok.injEq] at h; exact triv (by omega) h
    · have := cross1_spec c4 (by omega) hal h
      exact fin rfl this.1 this.2.1 this.2.2.1 this.2.2.2.1 (fun _ _ => this.2.2.2.2)
    · simp only [Except.ok.injEq] at h
      have := cross0_low (Q := Q1) c5 (by omega) hal
      exact fin h this.1 (fun p hp => by unfold cross0; rw [mem_insertQ]; exact Or.inr hp) this.2
        (fun h => insertQ_sorted _ h) (fun _ _ => by omega)
    · simp only [Except.ok.injEq] at h; exact triv (by omega) h
    · simp only [Except.ok.injEq] at h; exact triv (by omega) h

end Verif.Deg45
