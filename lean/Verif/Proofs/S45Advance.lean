import Verif.Proofs.S45Lines
import Mathlib.Data.List.Chain
import Mathlib.Data.List.TakeWhile
import Mathlib.Data.List.Sort
import Mathlib.Data.Rat.Lemmas
/-! # Moving the 45-degree scanline to the next stop -/
namespace Verif.Deg45

variable {C : Type}

/-- The state of the scanline at the abscissa, everything up to it being done. -/
structure Good (x : Int) (L : List (El C)) (Q : List P) : Prop where
  slope : ∀ e ∈ L, Slope e
  sorted : L.Pairwise (LtA x)
  chain : L.IsChain (Sched Q)
  orig : ∀ e ∈ L, e.x ≤ x
  qsorted : QSorted Q
  qgt : ∀ p ∈ Q, x < p.1

/-- The order on arrival at the next stop. -/
def LeB (X : Int) (Q : List P) (a b : El C) : Prop :=
  a.eval X < b.eval X ∨ (a.eval X = b.eval X ∧ (X, a.eval X) ∈ Q ∧ b.rise < a.rise)

theorem LeB.trans {X : Int} {Q : List P} {a b c : El C} (h : LeB X Q a b) (h' : LeB X Q b c) : LeB X Q a c := by
  unfold LeB at *
  rcases h with h | ⟨h, h1, h2⟩ <;> rcases h' with h' | ⟨h', h1', h2'⟩
  · left; omega
  · left; omega
  · left; omega
  · right; exact ⟨by omega, h1, by omega⟩

theorem eval_move (e : El C) (x X : Int) : e.eval X = e.eval x + e.rise * (X - x) := by
  unfold El.eval; ring

/-- Two neighbours keep their order up to the next stop, and meet there only in a point of the queue. -/
theorem pair_move {x X : Int} {Q : List P} {a b : El C} (ha : Slope a) (hb : Slope b) (hlt : LtA x a b)
    (hs : Sched Q a b) (hX : x < X) (hQ : ∀ p ∈ Q, X ≤ p.1) : LeB X Q a b := by
  have e1 := eval_move a x X
  have e2 := eval_move b x X
  have la : a.eval X = a.line.2 + a.rise * X := by rw [El.eval_line]; rfl
  have lb : b.eval X = b.line.2 + b.rise * X := by rw [El.eval_line]; rfl
  unfold LeB LtA Slope at *
  obtain ⟨s1, s2⟩ := hs
  by_cases c1 : a.rise = b.rise + 1
  · have h1 := s1 c1
    have h2 := hQ _ h1
    simp only at h2
    have key : b.eval X - a.eval X = b.line.2 - a.line.2 - X := by rw [la, lb, c1]; ring
    rcases lt_or_eq_of_le h2 with h3 | h3
    · left; omega
    · right
      refine ⟨by omega, ?_, by omega⟩
      rw [← h3] at h1
      rw [El.eval_line]; exact h1
  by_cases c2 : a.rise = b.rise + 2
  · have h1 := s2 c2
    have h2 := hQ _ h1
    simp only at h2
    have key : b.eval X - a.eval X = b.line.2 - a.line.2 - 2 * X := by rw [la, lb, c2]; ring
    rcases lt_trichotomy (a.eval X) (b.eval X) with h3 | h3 | h3
    · left; exact h3
    · right
      refine ⟨h3, ?_, by omega⟩
      have h4 : (b.line.2 - a.line.2) / 2 = X := by omega
      rw [h4] at h1
      rw [El.eval_line]; exact h1
    · omega
  · left
    have h3 : a.rise * (X - x) ≤ b.rise * (X - x) := by
      apply Int.mul_le_mul_of_nonneg_right <;> omega
    rcases hlt with h | ⟨h, h'⟩
    · omega
    · have : a.rise * (X - x) < b.rise * (X - x) := by
        apply Int.mul_lt_mul_of_pos_right <;> omega
      omega

theorem good_move {x X : Int} {L : List (El C)} {Q : List P} (h : Good x L Q) (hX : x < X)
    (hQ : ∀ p ∈ Q, X ≤ p.1) : L.Pairwise (LeB X Q) := by
  have hc : L.IsChain (LeB X Q) := by
    rw [List.isChain_iff_forall_rel_of_append_cons_cons]
    intro a b l1 l2 e
    have hs := (List.isChain_iff_forall_rel_of_append_cons_cons.1 h.chain) e
    have hp := h.sorted
    rw [e] at hp
    have hp' := (List.pairwise_append.1 hp).2.1
    have hlt := (List.pairwise_cons.1 hp').1 b List.mem_cons_self
    exact pair_move (h.slope a (by rw [e]; simp)) (h.slope b (by rw [e]; simp)) hlt hs hX hQ
  haveI : IsTrans (El C) (LeB X Q) := ⟨fun _ _ _ => LeB.trans⟩
  exact List.isChain_iff_pairwise.1 hc

/-- The ordinate of a line at a rational abscissa. -/
def lineQ (l : Line) (t : ℚ) : ℚ := l.2 + l.1 * t

theorem lineQ_int (e : El C) (x : Int) : lineQ e.line x = e.eval x := by
  rw [El.eval_line]; unfold lineQ atX; push_cast; ring

theorem good_between {x X : Int} {L : List (El C)} {Q : List P} (h : Good x L Q) (hX : x < X)
    (hQ : ∀ p ∈ Q, X ≤ p.1) (t : ℚ) (h1 : (x : ℚ) ≤ t) (h2 : t ≤ X) :
    L.Pairwise (fun a b => lineQ a.line t ≤ lineQ b.line t) := by
  refine ((good_move h hX hQ).and h.sorted).imp ?_
  rintro a b ⟨hb, ha⟩
  have ga : (a.eval X : ℚ) ≤ b.eval X := by
    unfold LeB at hb; have : a.eval X ≤ b.eval X := by omega
    exact_mod_cast this
  have gb : (a.eval x : ℚ) ≤ b.eval x := by
    unfold LtA at ha; have : a.eval x ≤ b.eval x := by omega
    exact_mod_cast this
  rw [← lineQ_int, ← lineQ_int] at ga gb
  unfold lineQ at *
  have hXx : (x : ℚ) < X := by exact_mod_cast hX
  nlinarith [mul_le_mul_of_nonneg_right ga (sub_nonneg.2 h1), mul_le_mul_of_nonneg_right gb (sub_nonneg.2 h2)]

/-! ### Splitting a scanline at a height -/

section split
variable {α : Type} (f : α → Int)

theorem takeWhile_lt {L : List α} (h : L.Pairwise (fun a b => f a ≤ f b)) (y : Int) :
    L.takeWhile (fun e => decide (f e < y)) = L.filter (fun e => decide (f e < y)) ∧
    L.dropWhile (fun e => decide (f e < y)) = L.filter (fun e => decide (¬ f e < y)) := by
  induction L with
  | nil => simp
  | cons e L ih =>
    obtain ⟨h1, h2⟩ := List.pairwise_cons.1 h
    by_cases c : f e < y
    · have := ih h2
      simp [List.takeWhile_cons, List.dropWhile_cons, List.filter_cons, c, this.1, this.2]
    · have n : ∀ b ∈ L, ¬ f b < y := fun b hb => by have := h1 b hb; omega
      have e1 : L.filter (fun e => decide (f e < y)) = [] := by
        rw [List.filter_eq_nil_iff]; intro b hb; simpa using n b hb
      have e2 : L.filter (fun e => decide (¬ f e < y)) = L := by
        rw [List.filter_eq_self]; intro b hb; simpa using n b hb
      simp only [List.takeWhile_cons, List.dropWhile_cons, List.filter_cons, c, decide_false, decide_true, not_false_eq_true, if_true, e1, e2]
      simp

theorem takeWhile_eq {L : List α} (h : L.Pairwise (fun a b => f a ≤ f b)) (y : Int) :
    (L.filter (fun e => decide (¬ f e < y))).takeWhile (fun e => decide (f e = y)) =
      L.filter (fun e => decide (f e = y)) ∧
    (L.filter (fun e => decide (¬ f e < y))).dropWhile (fun e => decide (f e = y)) =
      L.filter (fun e => decide (y < f e)) := by
  induction L with
  | nil => simp
  | cons e L ih =>
    obtain ⟨h1, h2⟩ := List.pairwise_cons.1 h
    have ih := ih h2
    rcases lt_trichotomy (f e) y with c | c | c
    · have c1 : ¬ f e = y := by omega
      have c2 : ¬ y < f e := by omega
      simp only [List.filter_cons, c, c1, c2, not_true_eq_false, decide_false, Bool.false_eq_true, if_false]
      exact ih
    · have c1 : ¬ f e < y := by omega
      have c2 : ¬ y < f e := by omega
      rw [List.filter_cons_of_pos (by simpa using c1), List.filter_cons_of_pos (by simpa using c),
        List.filter_cons_of_neg (by simpa using c2), List.takeWhile_cons_of_pos (by simpa using c),
        List.dropWhile_cons_of_pos (by simpa using c), ih.1, ih.2]
      exact ⟨rfl, rfl⟩
    · have n : ∀ b ∈ L, y < f b := fun b hb => by have := h1 b hb; omega
      have c1 : ¬ f e < y := by omega
      have c2 : ¬ f e = y := by omega
      have e1 : L.filter (fun e => decide (f e = y)) = [] := by
        rw [List.filter_eq_nil_iff]; intro b hb; have := n b hb; simp; omega
      have e2 : L.filter (fun e => decide (¬ f e < y)) = L := by
        rw [List.filter_eq_self]; intro b hb; have := n b hb; simp; omega
      have e3 : L.filter (fun e => decide (y < f e)) = L := by
        rw [List.filter_eq_self]; intro b hb; have := n b hb; simpa using this
      rw [List.filter_cons_of_pos (by simpa using c1), List.filter_cons_of_neg (by simpa using c2),
        List.filter_cons_of_pos (by simpa using c), List.takeWhile_cons_of_neg (by simpa using c2),
        List.dropWhile_cons_of_neg (by simpa using c2), e1, e2, e3]
      exact ⟨rfl, rfl⟩

theorem split3 {L : List α} (h : L.Pairwise (fun a b => f a ≤ f b)) (y : Int) :
    L = L.filter (fun e => decide (f e < y)) ++ (L.filter (fun e => decide (f e = y)) ++
      L.filter (fun e => decide (y < f e))) := by
  conv_lhs => rw [← List.takeWhile_append_dropWhile (p := fun e => decide (f e < y)) (l := L)]
  rw [(takeWhile_lt f h y).1, (takeWhile_lt f h y).2]
  congr 1
  conv_lhs => rw [← List.takeWhile_append_dropWhile (p := fun e => decide (f e = y))
    (l := L.filter (fun e => decide (¬ f e < y)))]
  rw [(takeWhile_eq f h y).1, (takeWhile_eq f h y).2]

end split

theorem lookUp_eq [Zero C] {x y : Int} {jb : Bool} {L : List (El C)} (hs : ∀ e ∈ L, Slope e) :
    lookUp x jb y L = (L.takeWhile (fun e => decide (e.eval x < y)), L.dropWhile (fun e => decide (e.eval x < y))) := by
  have key : ∀ e ∈ L, less x jb e ⟨x, y, if jb then 1 else -1, 0⟩ = decide (e.eval x < y) := by
    intro e he
    have := hs e he
    unfold Slope at this
    unfold less
    have e0 : (⟨x, y, if jb then 1 else -1, 0⟩ : El C).eval x = y := by unfold El.eval; ring
    rw [e0]
    by_cases c : e.eval x < y
    · simp [c]
    · cases jb <;> simp [c] <;> omega
  unfold lookUp
  simp only
  clear hs
  induction L with
  | nil => rfl
  | cons e L ih =>
    have k := key e List.mem_cons_self
    have ih' := ih (fun e' h' => key e' (List.mem_cons_of_mem _ h'))
    simp only [Prod.mk.injEq] at ih'
    simp only [List.takeWhile_cons, List.dropWhile_cons, k, ih'.1, ih'.2]

end Verif.Deg45
