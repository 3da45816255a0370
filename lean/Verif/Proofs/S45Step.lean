import Verif.Proofs.S45Mid
/-! # One event of the column of a stop -/
namespace Verif.Deg45

variable {C : Type} [AddCommGroup C] [DecidableEq C]
variable {g : C → Bool} {X : Int} {Lold : List (El C)} {done ins : List (Vert C)} {EV : Prop}
  {lo hi H Lpre : List (El C)} {Q : List P} {out : List V45} {V : C} {yp yv : Int} {ws : List (Vert C)}

theorem lookUp_false {y : Int} {lo hi : List (El C)} (hs : ∀ e ∈ lo ++ hi, Slope e) (hlo : ∀ e ∈ lo, e.eval X < y)
    (hhi : ∀ e ∈ hi, y ≤ e.eval X) : lookUp X false y (lo ++ hi) = (lo, hi) := by
  rw [lookUp_eq hs]
  have h1 : ∀ e ∈ lo, decide (e.eval X < y) = true := fun e he => by simpa using hlo e he
  rw [List.takeWhile_append_of_pos h1, List.dropWhile_append_of_pos h1]
  cases hi with
  | nil => simp
  | cons e hi =>
    have := hhi e (by simp)
    rw [List.takeWhile_cons_of_neg (by simp; omega), List.dropWhile_cons_of_neg (by simp; omega)]
    simp

/-- The three edges that may start at a point. -/
def news (X y : Int) (b c0 c1 c2 : C) : List (El C) :=
  newEl X y (-1) b c0 ++ newEl X y 0 c0 c1 ++ newEl X y 1 c1 c2

theorem lastc_news (X y : Int) (b c0 c1 c2 : C) : lastc b (news X y b c0 c1 c2) = c2 := by
  unfold news; rw [lastc_append, lastc_append, lastc_newEl, lastc_newEl, lastc_newEl]

theorem sumOn_news {A : Type} [AddCommGroup A] (φ : C → A) (f : Line → Bool) (X y : Int) (b c0 c1 c2 : C) :
    sumOn f (deltas φ b (news X y b c0 c1 c2)) =
      (if f (lineOf (X, y) (-1)) then φ c0 - φ b else 0) + (if f (lineOf (X, y) 0) then φ c1 - φ c0 else 0) +
      (if f (lineOf (X, y) 1) then φ c2 - φ c1 else 0) := by
  unfold news
  rw [deltas_append, deltas_append, lastc_append, lastc_newEl, lastc_newEl, sumOn_append, sumOn_append,
    sumOn_newEl, sumOn_newEl, sumOn_newEl]

theorem mem_news {X y : Int} {b c0 c1 c2 : C} {e : El C} (h : e ∈ news X y b c0 c1 c2) :
    e.x = X ∧ e.y = y ∧ ((e.rise = -1 ∧ c0 ≠ b) ∨ e.rise = 0 ∨ (e.rise = 1 ∧ c2 ≠ c1)) := by
  unfold news at h
  rcases List.mem_append.1 h with h | h
  · rcases List.mem_append.1 h with h | h
    · obtain ⟨rfl, h'⟩ := mem_newEl h; exact ⟨rfl, rfl, Or.inl ⟨rfl, h'⟩⟩
    · obtain ⟨rfl, _⟩ := mem_newEl h; exact ⟨rfl, rfl, Or.inr (Or.inl rfl)⟩
  · obtain ⟨rfl, h'⟩ := mem_newEl h; exact ⟨rfl, rfl, Or.inr (Or.inr ⟨rfl, h'⟩)⟩

theorem news_sorted (X y : Int) (b c0 c1 c2 : C) : (news X y b c0 c1 c2).Pairwise (LtA X) := by
  unfold news newEl
  split_ifs <;> simp [LtA, El.eval]

theorem eval_here (X y r : Int) (c : C) : (⟨X, y, r, c⟩ : El C).eval X = y := by unfold El.eval; simp

/-- Starting the three edges. -/
theorem start3 (g : C → Bool) {X y : Int} {b c0 c1 c2 : C} {A B : List (El C)} {Q : List P} (out : List V45)
    (hsl : ∀ e ∈ A ++ B, Slope e) (hA : ∀ a ∈ A, a.eval X < y) (hB : ∀ b ∈ B, y < b.eval X)
    (hc : (A ++ B).IsChain (Sched Q)) (hqs : QSorted Q) (hq : ∀ p ∈ Q, X < p.1) :
    (∃ Q3 Q4 Q5, startEdge g (X, y) (-1) b c0 (A ++ B) Q out =
        .ok (A ++ newEl X y (-1) b c0 ++ B, Q3, emit g out b c0 (X, y) (-1) false) ∧
      startEdge g (X, y) 0 c0 c1 (A ++ newEl X y (-1) b c0 ++ B) Q3 (emit g out b c0 (X, y) (-1) false) =
        .ok (A ++ newEl X y (-1) b c0 ++ newEl X y 0 c0 c1 ++ B, Q4,
          emit g (emit g out b c0 (X, y) (-1) false) c0 c1 (X, y) 0 false) ∧
      startEdge g (X, y) 1 c1 c2 (A ++ newEl X y (-1) b c0 ++ newEl X y 0 c0 c1 ++ B) Q4
          (emit g (emit g out b c0 (X, y) (-1) false) c0 c1 (X, y) 0 false) =
        .ok (A ++ newEl X y (-1) b c0 ++ newEl X y 0 c0 c1 ++ newEl X y 1 c1 c2 ++ B, Q5,
          emit g (emit g (emit g out b c0 (X, y) (-1) false) c0 c1 (X, y) 0 false) c1 c2 (X, y) 1 false) ∧
      (A ++ news X y b c0 c1 c2 ++ B).IsChain (Sched Q5) ∧ QSorted Q5 ∧ ∀ p ∈ Q5, X < p.1) ∨
    ((startEdge g (X, y) (-1) b c0 (A ++ B) Q out = .error .precision ∨
      (∃ Q3, startEdge g (X, y) (-1) b c0 (A ++ B) Q out =
        .ok (A ++ newEl X y (-1) b c0 ++ B, Q3, emit g out b c0 (X, y) (-1) false) ∧
        startEdge g (X, y) 0 c0 c1 (A ++ newEl X y (-1) b c0 ++ B) Q3 (emit g out b c0 (X, y) (-1) false) =
          .error .precision) ∨
      (∃ Q3 Q4, startEdge g (X, y) (-1) b c0 (A ++ B) Q out =
        .ok (A ++ newEl X y (-1) b c0 ++ B, Q3, emit g out b c0 (X, y) (-1) false) ∧
        startEdge g (X, y) 0 c0 c1 (A ++ newEl X y (-1) b c0 ++ B) Q3 (emit g out b c0 (X, y) (-1) false) =
          .ok (A ++ newEl X y (-1) b c0 ++ newEl X y 0 c0 c1 ++ B, Q4,
            emit g (emit g out b c0 (X, y) (-1) false) c0 c1 (X, y) 0 false) ∧
        startEdge g (X, y) 1 c1 c2 (A ++ newEl X y (-1) b c0 ++ newEl X y 0 c0 c1 ++ B) Q4
          (emit g (emit g out b c0 (X, y) (-1) false) c0 c1 (X, y) 0 false) = .error .precision)) ∧
     ¬ ((∀ e ∈ A ++ B, EvenEl e) ∧ (∀ e ∈ news X y b c0 c1 c2, EvenEl e))) := by
  have hBs : ∀ (r : Int) (c : C), ∀ b ∈ B, LtA X (⟨X, y, r, c⟩ : El C) b := by
    intro r c b hb; left; rw [eval_here]; exact hB b hb
  have mn : ∀ {r : Int} {b c : C}, ∀ e ∈ newEl X y r b c, e.eval X = y ∧ e.rise = r := by
    intro r b c e he; obtain ⟨rfl, _⟩ := mem_newEl he; exact ⟨eval_here _ _ _ _, rfl⟩
  rcases startEdge_spec g (r := -1) (below := b) (c := c0) (y := y) out hsl (Or.inl rfl)
    (fun a ha => by left; rw [eval_here]; exact hA a ha) (hBs _ _) hc hqs hq with ⟨Q3, s1, s2, s3, s4⟩ | ⟨s1, s2, s3⟩
  swap
  · right
    refine ⟨Or.inl s1, fun ⟨h1, h2⟩ => s3 ⟨h1, h2 _ ?_⟩⟩
    unfold news newEl; rw [if_neg s2]; simp
  have hsl2 : ∀ e ∈ (A ++ newEl X y (-1) b c0) ++ B, Slope e := by
    intro e he
    simp only [List.mem_append] at he
    rcases he with (h | h) | h
    · exact hsl e (by simp [h])
    · left; exact (mn e h).2
    · exact hsl e (by simp [h])
  rcases startEdge_spec g (r := 0) (below := c0) (c := c1) (y := y) (A := A ++ newEl X y (-1) b c0) (B := B) (Q := Q3)
    (emit g out b c0 (X, y) (-1) false) hsl2 (Or.inr (Or.inl rfl))
    (fun a ha => by
      rcases List.mem_append.1 ha with h | h
      · left; rw [eval_here]; exact hA a h
      · right; rw [eval_here]; have := mn a h; exact ⟨this.1, by rw [this.2]; simp⟩) (hBs _ _) s2 s3 s4 with
    ⟨Q4, t1, t2, t3, t4⟩ | ⟨t1, t2, t3⟩
  swap
  · right
    refine ⟨Or.inr (Or.inl ⟨Q3, s1, t1⟩), fun ⟨h1, h2⟩ => t3 ⟨fun e he => ?_, h2 _ ?_⟩⟩
    · simp only [List.mem_append] at he
      rcases he with (h | h) | h
      · exact h1 e (by simp [h])
      · exact h2 e (by unfold news; simp [h])
      · exact h1 e (by simp [h])
    · unfold news; rw [List.mem_append, List.mem_append]; left; right; unfold newEl; rw [if_neg t2]; simp
  have hsl3 : ∀ e ∈ ((A ++ newEl X y (-1) b c0) ++ newEl X y 0 c0 c1) ++ B, Slope e := by
    intro e he
    simp only [List.mem_append] at he
    rcases he with ((h | h) | h) | h
    · exact hsl e (by simp [h])
    · left; exact (mn e h).2
    · right; left; exact (mn e h).2
    · exact hsl e (by simp [h])
  rcases startEdge_spec g (r := 1) (below := c1) (c := c2) (y := y)
    (A := (A ++ newEl X y (-1) b c0) ++ newEl X y 0 c0 c1) (B := B) (Q := Q4)
    (emit g (emit g out b c0 (X, y) (-1) false) c0 c1 (X, y) 0 false) hsl3 (Or.inr (Or.inr rfl))
    (fun a ha => by
      rcases List.mem_append.1 ha with h | h
      · rcases List.mem_append.1 h with h | h
        · left; rw [eval_here]; exact hA a h
        · right; rw [eval_here]; have := mn a h; exact ⟨this.1, by rw [this.2]; simp⟩
      · right; rw [eval_here]; have := mn a h; exact ⟨this.1, by rw [this.2]; simp⟩) (hBs _ _) t2 t3 t4 with
    ⟨Q5, u1, u2, u3, u4⟩ | ⟨u1, u2, u3⟩
  · left
    refine ⟨Q3, Q4, Q5, s1, t1, u1, ?_, u3, u4⟩
    have : A ++ news X y b c0 c1 c2 ++ B =
        ((A ++ newEl X y (-1) b c0) ++ newEl X y 0 c0 c1) ++ newEl X y 1 c1 c2 ++ B := by
      unfold news; simp
    rw [this]; exact u2
  · right
    refine ⟨Or.inr (Or.inr ⟨Q3, Q4, s1, t1, u1⟩), fun ⟨h1, h2⟩ => u3 ⟨fun e he => ?_, h2 _ ?_⟩⟩
    · simp only [List.mem_append] at he
      rcases he with ((h | h) | h) | h
      · exact h1 e (by simp [h])
      · exact h2 e (by unfold news; simp [h])
      · exact h2 e (by unfold news; simp [h])
      · exact h1 e (by simp [h])
    · unfold news; rw [List.mem_append]; right; unfold newEl; rw [if_neg u2]; simp

end Verif.Deg45
