import Verif.Model.Snap45
import Verif.Model.Polygon
import Verif.Spec.Polygon
import Verif.Properties.Polygon
/-!
# C102: `snap_to_45` and `scale_down` make polygons of 45-degree edges
-/
namespace Verif.Properties.Snap45
open Verif.Snap45 Verif.Spec Verif.Polygon

theorem abs_cases (a : Int) : (0 ≤ a ∧ |a| = a) ∨ (a < 0 ∧ |a| = -a) := by
  rcases le_or_gt 0 a with h | h
  · exact Or.inl ⟨h, abs_of_nonneg h⟩
  · exact Or.inr ⟨h, abs_of_neg h⟩

/-- Twice the half of the difference and the remainder make the difference. -/
theorem half_odd (a b : Int) : ∃ h o : Int, (abs (|a| - |b|)).tdiv 2 = h ∧ (abs (|a| - |b|)).tmod 2 = o ∧ abs (|a| - |b|) = 2 * h + o ∧ 0 ≤ h ∧ 0 ≤ o := by
  have h0 : 0 ≤ abs (|a| - |b|) := abs_nonneg _
  refine ⟨_, _, rfl, rfl, ?_, ?_, ?_⟩
  · have := Int.mul_tdiv_add_tmod (abs (|a| - |b|)) 2; omega
  · exact Int.tdiv_nonneg h0 (by norm_num)
  · exact Int.tmod_nonneg _ h0

theorem rising {a b h o : Int} (hd : abs (|a| - |b|) = 2 * h + o) (hs : (a > 0 ∧ b > 0) ∨ (a < 0 ∧ b < 0)) (h1 : ¬ |a + h + o| = |b - h|) : |a - h - o| = |b + h| := by
  have key : a + h + o = b - h ∨ a - h - o = b + h := by
    rcases abs_cases (|a| - |b|) with ⟨_, c⟩ | ⟨_, c⟩ <;> rcases abs_cases a with ⟨_, ea⟩ | ⟨_, ea⟩ <;> rcases abs_cases b with ⟨_, eb⟩ | ⟨_, eb⟩ <;>
      rw [c, ea, eb] at hd <;> omega
  rcases key with e | e
  · rw [e] at h1; exact absurd rfl h1
  · rw [e]

theorem falling {a b h o : Int} (hd : abs (|a| - |b|) = 2 * h + o) (ha : a ≠ 0) (hb : b ≠ 0) (hs : ¬ ((a > 0 ∧ b > 0) ∨ (a < 0 ∧ b < 0)))
    (h1 : ¬ |a + h + o| = |b + h|) : |a - h - o| = |b - h| := by
  have key : a + h + o = -(b + h) ∨ a - h - o = -(b - h) := by
    rcases abs_cases (|a| - |b|) with ⟨_, c⟩ | ⟨_, c⟩ <;> rcases abs_cases a with ⟨_, ea⟩ | ⟨_, ea⟩ <;> rcases abs_cases b with ⟨_, eb⟩ | ⟨_, eb⟩ <;>
      rw [c, ea, eb] at hd <;> omega
  rcases key with e | e
  · rw [e, abs_neg] at h1; exact absurd rfl h1
  · rw [e, abs_neg]

/-- A round of the loop makes its edge one at 45 degrees; one of the branches always applies. -/
theorem adjust_45 (p q r : Pt) : Edge45 (p, (adjust p q r).1) := by
  obtain ⟨h, o, e1, e2, hd, _, _⟩ := half_odd (q.1 - p.1) (q.2 - p.2)
  unfold Edge45 adjust
  dsimp only
  rw [e1, e2]
  split_ifs with h1 h2 h3 h4 h5 h6 h7 h8 h9 h10 <;> dsimp only
  · right; right; rw [← show q.1 - p.1 + h + o = q.1 + h + o - p.1 by ring, ← show q.2 - p.2 - h = q.2 - h - p.2 by ring]; exact h4
  · right; right; rw [← show q.1 - p.1 - h - o = q.1 - h - o - p.1 by ring, ← show q.2 - p.2 + h = q.2 + h - p.2 by ring]; exact h5
  · exact absurd (rising hd h3 h4) h5
  · right; right; rw [← show q.1 - p.1 + h + o = q.1 + h + o - p.1 by ring, ← show q.2 - p.2 + h = q.2 + h - p.2 by ring]; exact h6
  · right; right; rw [← show q.1 - p.1 - h - o = q.1 - h - o - p.1 by ring, ← show q.2 - p.2 - h = q.2 - h - p.2 by ring]; exact h7
  · exact absurd (falling hd h1.1 h1.2.1 h3 h6) h7
  · right; right; rw [show p.1 + |q.2 - p.2| * -1 - p.1 = -|q.2 - p.2| by ring, abs_neg, abs_abs]
  · right; right; rw [show p.1 + |q.2 - p.2| - p.1 = |q.2 - p.2| by ring, abs_abs]
  · right; right; rw [show p.2 + |q.1 - p.1| * -1 - p.2 = -|q.1 - p.1| by ring, abs_neg, abs_abs]
  · right; right; rw [show p.2 + |q.1 - p.1| - p.2 = |q.1 - p.1| by ring, abs_abs]
  · by_cases a1 : q.1 - p.1 = 0
    · left; omega
    by_cases a2 : q.2 - p.2 = 0
    · right; left; omega
    right; right
    by_contra c
    exact h1 ⟨a1, a2, c⟩

/-- A round leaves a point whose edge is fine. -/
theorem adjust_same {p q r : Pt} (h : Edge45 (p, q)) : adjust p q r = (q, false) := by
  unfold adjust
  dsimp only
  rw [if_neg]
  rintro ⟨h1, h2, h3⟩
  rcases h with g | g | g
  · exact h1 (by dsimp only at g; omega)
  · exact h2 (by dsimp only at g; omega)
  · exact h3 g

/-- If the next edge is horizontal or vertical it stays so, and the loop does not start again. -/
theorem adjust_axis {p q r : Pt} (hne : q ≠ r) (h : q.1 = r.1 ∨ q.2 = r.2) :
    (adjust p q r).2 = false ∧ ((adjust p q r).1.1 = r.1 ∨ (adjust p q r).1.2 = r.2) := by
  unfold adjust
  dsimp only
  split_ifs with h1 h2 h3 <;> dsimp only
  all_goals first | omega | skip
  all_goals try exact ⟨rfl, h⟩
  all_goals refine ⟨rfl, ?_⟩
  all_goals
    rcases h with g | g
    · first | exact Or.inl g | omega
    · first | exact Or.inr g | (exfalso; exact hne (Prod.ext (by omega) g))

/-! ### The loop -/

theorem at_get {l : List Pt} {i : Nat} (h : i < l.length) : at' l i = l[i] := by
  unfold at'
  rw [List.getD_eq_getElem?_getD, List.getElem?_eq_getElem h]
  rfl

theorem at_set (l : List Pt) (i j : Nat) (v : Pt) (hi : i < l.length) : at' (l.set i v) j = if i = j then v else at' l j := by
  unfold at'
  rw [List.getD_eq_getElem?_getD, List.getD_eq_getElem?_getD, List.getElem?_set]
  split_ifs <;> simp

/-- The rounds before the last one. -/
theorem rounds (n : Nat) (pts : List Pt) (hn : pts.length = n) (b : Bool) : ∀ k, k < n →
    ((List.range k).foldl (stepAt n) (pts, b)).1.length = n ∧
    (∀ j, j < k → Edge45 (at' ((List.range k).foldl (stepAt n) (pts, b)).1 j, at' ((List.range k).foldl (stepAt n) (pts, b)).1 (j + 1))) ∧
    (∀ j, j = 0 ∨ k < j → at' ((List.range k).foldl (stepAt n) (pts, b)).1 j = at' pts j) ∧
    (Edge45 (at' pts 0, at' pts 1) → at' ((List.range k).foldl (stepAt n) (pts, b)).1 1 = at' pts 1) := by
  intro k
  induction k with
  | zero => intro _; exact ⟨hn, by simp, fun _ _ => rfl, fun _ => rfl⟩
  | succ k ih =>
    intro hk
    obtain ⟨i1, i2, i3, i4⟩ := ih (by omega)
    rw [List.range_succ, List.foldl_append, List.foldl_cons, List.foldl_nil]
    generalize (List.range k).foldl (stepAt n) (pts, b) = s at i1 i2 i3 i4
    have hm : (k + 1) % n = k + 1 := Nat.mod_eq_of_lt hk
    have hset : ∀ j, at' (stepAt n s k).1 j = if k + 1 = j then (adjust (at' s.1 k) (at' s.1 (k + 1)) (at' s.1 ((k + 2) % n))).1 else at' s.1 j := by
      intro j
      unfold stepAt
      dsimp only
      rw [hm, at_set _ _ _ _ (by omega)]
    refine ⟨by unfold stepAt; simp [i1], fun j hj => ?_, fun j hj => ?_, fun h => ?_⟩
    · rw [hset, hset, if_neg (by omega)]
      by_cases c : j = k
      · subst c; rw [if_pos rfl]; exact adjust_45 _ _ _
      · rw [if_neg (by omega)]; exact i2 j (by omega)
    · rw [hset, if_neg (by omega)]; exact i3 j (by omega)
    · rw [hset]
      by_cases c : k = 0
      · subst c
        rw [if_pos rfl, i3 0 (Or.inl rfl)]
        show (adjust _ (at' s.1 1) _).1 = _
        rw [i3 1 (Or.inr (by omega)), adjust_same h]
      · rw [if_neg (by omega)]; exact i4 h

theorem pass_succ (m : Nat) (pts : List Pt) : pass (m + 1) pts = stepAt (m + 1) ((List.range m).foldl (stepAt (m + 1)) (pts, false)) m := by
  unfold pass
  rw [List.range_succ, List.foldl_append, List.foldl_cons, List.foldl_nil]

theorem pass_length (n : Nat) (pts : List Pt) : (pass n pts).1.length = pts.length := by
  have : ∀ (L : List Nat) (s : List Pt × Bool), (L.foldl (stepAt n) s).1.length = s.1.length := by
    intro L
    induction L with
    | nil => intro s; rfl
    | cons i L ih => intro s; rw [List.foldl_cons, ih]; unfold stepAt; simp
  exact this _ _

/-- After one pass all edges but the first are at 45 degrees. -/
theorem pass_edges (n : Nat) (pts : List Pt) (hn : pts.length = n) : ∀ j, 0 < j → j < n → Edge45 (at' (pass n pts).1 j, at' (pass n pts).1 ((j + 1) % n)) := by
  intro j h0 hj
  obtain ⟨m, rfl⟩ : ∃ m, n = m + 1 := ⟨n - 1, by omega⟩
  obtain ⟨r1, r2, r3, _⟩ := rounds (m + 1) pts hn false m (by omega)
  rw [pass_succ]
  generalize (List.range m).foldl (stepAt (m + 1)) (pts, false) = s at r1 r2 r3
  have hset : ∀ j, at' (stepAt (m + 1) s m).1 j = if 0 = j then (adjust (at' s.1 m) (at' s.1 0) (at' s.1 ((m + 2) % (m + 1)))).1 else at' s.1 j := by
    intro j
    unfold stepAt
    dsimp only
    rw [Nat.mod_self, at_set _ _ _ _ (by omega)]
  rw [hset, hset, if_neg (by omega)]
  by_cases c : j = m
  · subst c
    rw [Nat.mod_self, if_pos rfl]
    exact adjust_45 _ _ _
  · rw [Nat.mod_eq_of_lt (by omega), if_neg (by omega)]
    exact r2 j (by omega)

/-- If the first edge is horizontal or vertical it stays so, and the loop does not start again. -/
theorem pass_first (n : Nat) (pts : List Pt) (hn : pts.length = n) (h2 : 2 ≤ n) (hne : at' pts 0 ≠ at' pts 1)
    (ha : (at' pts 0).1 = (at' pts 1).1 ∨ (at' pts 0).2 = (at' pts 1).2) :
    (pass n pts).2 = false ∧ ((at' (pass n pts).1 0).1 = (at' (pass n pts).1 1).1 ∨ (at' (pass n pts).1 0).2 = (at' (pass n pts).1 1).2) := by
  obtain ⟨m, rfl⟩ : ∃ m, n = m + 1 := ⟨n - 1, by omega⟩
  obtain ⟨r1, r2, r3, r4⟩ := rounds (m + 1) pts hn false m (by omega)
  rw [pass_succ]
  generalize (List.range m).foldl (stepAt (m + 1)) (pts, false) = s at r1 r2 r3 r4
  have e0 := r3 0 (Or.inl rfl)
  have e1 := r4 (by rcases ha with g | g; exacts [Or.inl g, Or.inr (Or.inl g)])
  have hm : (m + 2) % (m + 1) = 1 := by
    rw [show m + 2 = (m + 1) + 1 by ring, Nat.add_mod_left]; exact Nat.mod_eq_of_lt (by omega)
  have hset : ∀ j, at' (stepAt (m + 1) s m).1 j = if 0 = j then (adjust (at' s.1 m) (at' s.1 0) (at' s.1 1)).1 else at' s.1 j := by
    intro j
    unfold stepAt
    dsimp only
    rw [Nat.mod_self, at_set _ _ _ _ (by omega), hm]
  have hflag : (stepAt (m + 1) s m).2 = (adjust (at' s.1 m) (at' s.1 0) (at' s.1 1)).2 := by
    unfold stepAt
    dsimp only
    rw [Nat.mod_self, hm]
  rw [hset, hset, if_pos rfl, if_neg (by omega), hflag]
  rw [e0, e1]
  exact adjust_axis hne ha

/-- A pass changes nothing if all edges are fine. -/
theorem pass_same (n : Nat) (pts : List Pt) (hn : pts.length = n) (h : ∀ j, j < n → Edge45 (at' pts j, at' pts ((j + 1) % n))) : pass n pts = (pts, false) := by
  have : ∀ k, k ≤ n → (List.range k).foldl (stepAt n) (pts, false) = (pts, false) := by
    intro k
    induction k with
    | zero => intro _; rfl
    | succ k ih =>
      intro hk
      rw [List.range_succ, List.foldl_append, ih (by omega), List.foldl_cons, List.foldl_nil]
      unfold stepAt
      dsimp only
      rw [adjust_same (h k (by omega))]
      have hlt : (k + 1) % n < pts.length := by rw [hn]; exact Nat.mod_lt _ (by omega)
      congr 1
      rw [at_get hlt, List.set_getElem_self]
  exact this n (le_refl _)

/-! ### Edges by position -/

theorem edges_at (l : List Pt) : edges l = (List.range l.length).map (fun i => (at' l i, at' l ((i + 1) % l.length))) := by
  apply List.ext_getElem
  · simp [edges]
  · intro i h1 h2
    have hi : i < l.length := by simpa [edges] using h1
    have hlt : (i + 1) % l.length < l.length := Nat.mod_lt _ (by omega)
    rw [List.getElem_map, List.getElem_range, at_get hi, at_get hlt]
    simp only [edges, List.getElem_zip, List.getElem_rotate]

theorem mem_edges {l : List Pt} {e : Pt × Pt} : e ∈ edges l ↔ ∃ i, i < l.length ∧ e = (at' l i, at' l ((i + 1) % l.length)) := by
  rw [edges_at, List.mem_map]
  constructor
  · rintro ⟨i, hi, rfl⟩; exact ⟨i, List.mem_range.1 hi, rfl⟩
  · rintro ⟨i, hi, rfl⟩; exact ⟨i, List.mem_range.2 hi, rfl⟩

theorem mem_tail {l : List Pt} {e : Pt × Pt} (h : e ∈ (edges l).tail) : ∃ i, 0 < i ∧ i < l.length ∧ e = (at' l i, at' l ((i + 1) % l.length)) := by
  rw [edges_at] at h
  obtain ⟨k, hk, rfl⟩ := List.mem_iff_getElem.1 h
  simp only [List.length_tail, List.length_map, List.length_range] at hk
  refine ⟨k + 1, by omega, by omega, ?_⟩
  rw [List.getElem_tail, List.getElem_map, List.getElem_range]

/-! ### The property -/

/-- C102: in the result every edge but the one from the first vertex to the second is horizontal, vertical or at 45 degrees.
Missing: the first edge, see `C102_snap_violated`; it is right if it was horizontal or vertical, see `C102_snap_from_axis`. -/
theorem C102_snap_partial (P : List (Int × Int)) : ∀ e ∈ (edges (snapPoints P)).tail, Edge45 e := by
  intro e he
  obtain ⟨i, h0, hi, rfl⟩ := mem_tail he
  unfold snapPoints at *
  split_ifs at * with h1
  · simp at hi
  · dsimp only at *
    split_ifs at * with h2
    · rw [pass_length, pass_length] at *
      exact pass_edges _ _ (pass_length _ _) i h0 hi
    · rw [pass_length] at *
      exact pass_edges _ _ rfl i h0 hi

theorem uniqueGo_ne {a b : Pt} (h : b ≠ a) (r : List Pt) : uniqueGo a (b :: r) = b :: uniqueGo b r := by
  rw [uniqueGo, if_neg h]

theorem distinct_start {a b : Pt} (h : a ≠ b) (r : List Pt) : ∃ r', distinct (a :: b :: r) = a :: b :: r' := by
  unfold distinct
  dsimp only
  rw [uniqueGo_ne h.symm]
  split_ifs with c
  · rcases List.eq_nil_or_concat (uniqueGo b r) with e | ⟨l, z, e⟩
    · rw [e] at c; simp at c; exact absurd c h.symm
    · rw [e, List.concat_eq_append]
      refine ⟨l, ?_⟩
      rw [show a :: b :: (l ++ [z]) = (a :: b :: l) ++ [z] from rfl, List.dropLast_concat]
  · exact ⟨_, rfl⟩

/-- C102: a polygon whose first edge is horizontal or vertical becomes one of 45-degree edges. -/
theorem C102_snap_from_axis (a b : Int × Int) (r : List (Int × Int)) (hne : a ≠ b) (h : a.1 = b.1 ∨ a.2 = b.2) :
    ∀ e ∈ edges (snapPoints (a :: b :: r)), Edge45 e := by
  intro e he
  obtain ⟨i, hi, rfl⟩ := mem_edges.1 he
  obtain ⟨r', hr⟩ := distinct_start hne r
  have hp := pass_first (a :: b :: r').length (a :: b :: r') rfl (by simp) hne h
  have hs : snapPoints (a :: b :: r) = if (a :: b :: r).length < 3 then [] else (pass (a :: b :: r').length (a :: b :: r')).1 := by
    unfold snapPoints
    dsimp only
    rw [hr, hp.1]
    rfl
  rw [hs] at hi ⊢
  split_ifs at * with c
  · simp at hi
  · rw [pass_length] at *
    by_cases h0 : i = 0
    · subst h0
      rw [zero_add, Nat.mod_eq_of_lt (by simp)]
      rcases hp.2 with g | g
      exacts [Or.inl g, Or.inr (Or.inl g)]
    · exact pass_edges _ _ rfl i (by omega) hi

/-- A round leaves every horizontal or vertical edge horizontal or vertical. -/
theorem step_axis (n : Nat) (s : List Pt × Bool) (hn : s.1.length = n) (i : Nat) (hi : i < n) (j : Nat) (hj : j < n)
    (h : (at' s.1 j).1 = (at' s.1 ((j + 1) % n)).1 ∨ (at' s.1 j).2 = (at' s.1 ((j + 1) % n)).2) :
    (at' (stepAt n s i).1 j).1 = (at' (stepAt n s i).1 ((j + 1) % n)).1 ∨ (at' (stepAt n s i).1 j).2 = (at' (stepAt n s i).1 ((j + 1) % n)).2 := by
  have hlt : (i + 1) % n < s.1.length := by rw [hn]; exact Nat.mod_lt _ (by omega)
  have hset : ∀ j, at' (stepAt n s i).1 j = if (i + 1) % n = j then (adjust (at' s.1 i) (at' s.1 ((i + 1) % n)) (at' s.1 ((i + 2) % n))).1 else at' s.1 j := by
    intro j
    unfold stepAt
    dsimp only
    rw [at_set _ _ _ _ hlt]
  rw [hset, hset]
  by_cases c1 : (i + 1) % n = j
  · rw [if_pos c1]
    by_cases c2 : (i + 1) % n = (j + 1) % n
    · rw [if_pos c2]; exact Or.inl rfl
    · rw [if_neg c2]
      have e : (i + 2) % n = (j + 1) % n := by rw [← c1, Nat.mod_add_mod]
      rw [e, c1]
      by_cases hne : at' s.1 j = at' s.1 ((j + 1) % n)
      · rw [hne]
        left
        unfold adjust
        dsimp only
        split_ifs <;> dsimp only <;> omega
      · exact (adjust_axis hne h).2
  · rw [if_neg c1]
    by_cases c2 : (i + 1) % n = (j + 1) % n
    · rw [if_pos c2]
      have e : i = j := by
        have h1 := Nat.mod_add_div (i + 1) n
        have h2 := Nat.mod_add_div (j + 1) n
        by_cases a : i + 1 = n
        · by_cases b : j + 1 = n
          · omega
          · rw [a, Nat.mod_self, Nat.mod_eq_of_lt (show j + 1 < n by omega)] at c2; omega
        · by_cases b : j + 1 = n
          · rw [b, Nat.mod_self, Nat.mod_eq_of_lt (show i + 1 < n by omega)] at c2; omega
          · rw [Nat.mod_eq_of_lt (show i + 1 < n by omega), Nat.mod_eq_of_lt (show j + 1 < n by omega)] at c2; omega
      subst e
      rw [adjust_same (by rcases h with g | g; exacts [Or.inl g, Or.inr (Or.inl g)])]
      exact h
    · rw [if_neg c2]; exact h

theorem pass_axis (n : Nat) (pts : List Pt) (hn : pts.length = n) (j : Nat) (hj : j < n)
    (h : (at' pts j).1 = (at' pts ((j + 1) % n)).1 ∨ (at' pts j).2 = (at' pts ((j + 1) % n)).2) :
    (at' (pass n pts).1 j).1 = (at' (pass n pts).1 ((j + 1) % n)).1 ∨ (at' (pass n pts).1 j).2 = (at' (pass n pts).1 ((j + 1) % n)).2 := by
  have : ∀ (L : List Nat) (s : List Pt × Bool), (∀ i ∈ L, i < n) → s.1.length = n →
      ((at' s.1 j).1 = (at' s.1 ((j + 1) % n)).1 ∨ (at' s.1 j).2 = (at' s.1 ((j + 1) % n)).2) →
      ((at' (L.foldl (stepAt n) s).1 j).1 = (at' (L.foldl (stepAt n) s).1 ((j + 1) % n)).1 ∨
        (at' (L.foldl (stepAt n) s).1 j).2 = (at' (L.foldl (stepAt n) s).1 ((j + 1) % n)).2) := by
    intro L
    induction L with
    | nil => intro s _ _ g; exact g
    | cons i L ih =>
      intro s hL hs g
      rw [List.foldl_cons]
      exact ih _ (fun k hk => hL k (List.mem_cons_of_mem _ hk)) (by unfold stepAt; simp [hs]) (step_axis n s hs i (hL i List.mem_cons_self) j hj g)
  exact this _ _ (fun i hi => List.mem_range.1 hi) hn h

theorem uniqueGo_same : ∀ (r : List Pt) (a : Pt), (a :: r).IsChain (· ≠ ·) → uniqueGo a r = r
  | [], _, _ => rfl
  | b :: r, a, h => by
    rw [List.isChain_cons_cons] at h
    rw [uniqueGo_ne h.1.symm, uniqueGo_same r b h.2]

theorem distinct_same {P : List Pt} (h : ∀ e ∈ edges P, e.1 ≠ e.2) : distinct P = P := by
  cases P with
  | nil => rfl
  | cons a r =>
    have hc : (a :: r).IsChain (· ≠ ·) := by
      rw [List.isChain_iff_getElem]
      intro i hi
      have := h (at' (a :: r) i, at' (a :: r) ((i + 1) % (a :: r).length)) (mem_edges.2 ⟨i, by omega, rfl⟩)
      rw [Nat.mod_eq_of_lt hi] at this
      rwa [at_get (show i < (a :: r).length by omega), at_get hi] at this
    unfold distinct
    dsimp only
    rw [uniqueGo_same r a hc, if_neg]
    intro c
    have := h (at' (a :: r) r.length, at' (a :: r) ((r.length + 1) % (a :: r).length)) (mem_edges.2 ⟨r.length, by simp, rfl⟩)
    rw [List.length_cons, Nat.mod_self] at this
    apply this
    unfold at'
    dsimp only
    rw [List.getLast?_eq_getElem?] at c
    simp only [List.length_cons, Nat.add_sub_cancel] at c
    rw [List.getD_eq_getElem?_getD, c]
    rfl

/-- C102: a polygon of 45-degree edges without repeated vertices is left as it is. -/
theorem C102_unchanged (P : List (Int × Int)) (h3 : 3 ≤ P.length) (hn : ∀ e ∈ edges P, e.1 ≠ e.2) (h : ∀ e ∈ edges P, Edge45 e) : snapPoints P = P := by
  unfold snapPoints
  rw [if_neg (by omega)]
  dsimp only
  rw [distinct_same hn, pass_same _ _ rfl (fun j hj => h _ (mem_edges.2 ⟨j, hj, rfl⟩))]
  rfl

/-- C102: of a polygon without repeated vertices no vertex is dropped, and every horizontal or vertical edge, in its place, stays horizontal or vertical. -/
theorem C102_axis_edges (P : List (Int × Int)) (h3 : 3 ≤ P.length) (hn : ∀ e ∈ edges P, e.1 ≠ e.2) :
    (snapPoints P).length = P.length ∧
    ∀ e ∈ (edges P).zip (edges (snapPoints P)), (e.1.1.1 = e.1.2.1 ∨ e.1.1.2 = e.1.2.2) → (e.2.1.1 = e.2.2.1 ∨ e.2.1.2 = e.2.2.2) := by
  have hlen : (snapPoints P).length = P.length := by
    unfold snapPoints
    rw [if_neg (by omega)]
    dsimp only
    rw [distinct_same hn]
    split_ifs
    · rw [pass_length, pass_length]
    · rw [pass_length]
  refine ⟨hlen, fun e he ha => ?_⟩
  obtain ⟨j, hj, rfl⟩ := List.mem_iff_getElem.1 he
  have hj' : j < P.length := by simp only [edges_at, List.length_zip, List.length_map, List.length_range] at hj; omega
  simp only [edges_at, List.getElem_zip, List.getElem_map, List.getElem_range] at ha ⊢
  rw [hlen]
  unfold snapPoints
  rw [if_neg (by omega)]
  dsimp only
  rw [distinct_same hn]
  have h1 := pass_axis P.length P rfl j hj' ha
  split_ifs
  · exact pass_axis P.length _ (pass_length _ _) j hj' h1
  · exact h1

/-- C102: vertices are never added. -/
theorem C102_size (P : List (Int × Int)) : (snapPoints P).length ≤ P.length := by
  have hu : ∀ (r : List Pt) (a : Pt), (uniqueGo a r).length ≤ r.length := by
    intro r
    induction r with
    | nil => intro a; simp [uniqueGo]
    | cons b r ih =>
      intro a
      rw [uniqueGo]
      split_ifs
      · have := ih a; simp only [List.length_cons]; omega
      · have := ih b; simp only [List.length_cons]; omega
  have hd : (distinct P).length ≤ P.length := by
    cases P with
    | nil => simp [distinct]
    | cons a r =>
      have := hu r a
      unfold distinct
      dsimp only
      split_ifs <;> simp only [List.length_dropLast, List.length_cons] <;> omega
  unfold snapPoints
  dsimp only
  split_ifs
  · simp
  · rw [pass_length, pass_length]; exact hd
  · rw [pass_length]; exact hd

theorem uniqueGo_repeat (p : Pt) (b : List Pt) : ∀ (a : List Pt) (x : Pt), uniqueGo x (a ++ p :: p :: b) = uniqueGo x (a ++ p :: b)
  | [], x => by
    simp only [List.nil_append, uniqueGo]
    by_cases h : p = x <;> simp [h]
  | q :: a, x => by
    simp only [List.cons_append, uniqueGo, uniqueGo_repeat p b a]

/-- C102: points that follow an equal point have no effect. -/
theorem C102_repeats (a b : List (Int × Int)) (p : Int × Int) (h : 3 ≤ (a ++ p :: b).length) : snapPoints (a ++ p :: p :: b) = snapPoints (a ++ p :: b) := by
  have hd : distinct (a ++ p :: p :: b) = distinct (a ++ p :: b) := by
    cases a with
    | nil => simp only [List.nil_append, distinct, uniqueGo, if_true]
    | cons q a => simp only [List.cons_append, distinct, uniqueGo_repeat]
  have h1 : ¬ (a ++ p :: p :: b).length < 3 := by simp at h ⊢; omega
  have h2 : ¬ (a ++ p :: b).length < 3 := by omega
  unfold snapPoints
  simp only [if_neg h1, if_neg h2, hd]

theorem uniqueGo_append (a : Pt) : ∀ (r : List Pt) (x : Pt), (x :: r).getLast? ≠ some a → uniqueGo x (r ++ [a]) = uniqueGo x r ++ [a]
  | [], x, h => by
    have : a ≠ x := by intro e; subst e; simp at h
    simp [uniqueGo, this]
  | q :: r, x, h => by
    have h' : (q :: r).getLast? ≠ some a := by rwa [List.getLast?_cons_cons] at h
    simp only [List.cons_append, uniqueGo]
    by_cases e : q = x
    · subst e; simp only [if_true]; exact uniqueGo_append a r q h'
    · simp only [if_neg e, uniqueGo_append a r q h', List.cons_append]

theorem uniqueGo_last : ∀ (r : List Pt) (x : Pt), (x :: uniqueGo x r).getLast? = (x :: r).getLast?
  | [], _ => rfl
  | q :: r, x => by
    simp only [uniqueGo]
    by_cases e : q = x
    · subst e; simp only [if_true, List.getLast?_cons_cons]; exact uniqueGo_last r q
    · simp only [if_neg e, List.getLast?_cons_cons]; exact uniqueGo_last r q

/-- C102: it makes no difference whether the first point is repeated at the end. -/
theorem C102_closed (a : Int × Int) (r : List (Int × Int)) (h : 2 ≤ r.length) (hl : r.getLast? ≠ some a) : snapPoints (a :: (r ++ [a])) = snapPoints (a :: r) := by
  have hl' : (a :: r).getLast? ≠ some a := by
    cases r with
    | nil => simp at h
    | cons q r => rwa [List.getLast?_cons_cons]
  have hd : distinct (a :: (r ++ [a])) = distinct (a :: r) := by
    simp only [distinct, uniqueGo_append a r a hl', uniqueGo_last, if_neg hl']
    rw [if_pos (by rw [← List.cons_append, List.getLast?_append]; rfl), ← List.cons_append, List.dropLast_concat]
  have h1 : ¬ (a :: (r ++ [a])).length < 3 := by simp; omega
  have h2 : ¬ (a :: r).length < 3 := by simp; omega
  unfold snapPoints
  simp only [if_neg h1, if_neg h2, hd]

example : snapPoints ((0, 0) :: ([(9, 0), (11, 7), (11, 7), (5, 13), (-2, 6)] ++ [(0, 0)])) = snapPoints [(0, 0), (9, 0), (11, 7), (5, 13), (-2, 6)] := by
  decide +kernel

/-- C102: a polygon with holes: the outer outline and each hole on its own. -/
theorem C102_holes_partial (P : ArbForm.Poly) : (snapPoly P).holes.length = P.holes.length ∧
    ∀ l ∈ (snapPoly P).outer :: (snapPoly P).holes, ∀ e ∈ (edges l).tail, Edge45 e := by
  refine ⟨by simp [snapPoly], fun l hl => ?_⟩
  rcases List.mem_cons.1 hl with rfl | hl
  · exact C102_snap_partial _
  · obtain ⟨h, _, rfl⟩ := List.mem_map.1 hl
    exact C102_snap_partial _

/-- A polygon the theorems apply to: no vertex is repeated, and only some edges are horizontal or vertical. -/
example : (∀ e ∈ edges [((0 : Int), (0 : Int)), (9, 0), (11, 7), (5, 13), (-2, 6)], e.1 ≠ e.2) ∧
    (∀ e ∈ edges [((0 : Int), (0 : Int)), (4, 0), (8, 4), (4, 8), (0, 8)], e.1 ≠ e.2) ∧
    is45Seq [((0 : Int), (0 : Int)), (4, 0), (8, 4), (4, 8), (0, 8)] = true ∧
    is45Seq [((0 : Int), (0 : Int)), (9, 0), (11, 7), (5, 13), (-2, 6)] = false := by decide +kernel

/-- A pentagon that starts with a horizontal edge, and one with repeated vertices. -/
example : snapPoints [(0, 0), (9, 0), (11, 7), (5, 13), (-2, 6)] = [(5, 0), (9, 0), (14, 5), (6, 13), (-1, 6)] ∧
    snapPoints [(0, 0), (0, 0), (7, 2), (9, 8), (3, 5), (0, 0)] = [(0, 0), (4, 4), (8, 8), (4, 4)] ∧
    snapPoints [(0, 0), (4, 0), (8, 4), (4, 8), (0, 8)] = [(0, 0), (4, 0), (8, 4), (4, 8), (0, 8)] := by decide +kernel

/-- C102 fails for the first edge: the edge that closes the polygon is made to fit by moving the first vertex, which spoils the edge that starts there. -/
theorem C102_snap_violated : snapPoints [(2, 3), (0, 0), (1, 0)] = [(3, 2), (-1, 0), (1, 0)] ∧ is45Seq (snapPoints [(2, 3), (0, 0), (1, 0)]) = false := by
  decide +kernel

/-- C102 fails for `scale_down` of 45-degree polygons: a hexagon of 45-degree edges becomes one that is not. -/
theorem C102_scale_down_violated :
    is45Seq [(-17, -1), (1, 17), (1, -2), (-4, -2), (-16, -14), (-23, -7)] = true ∧
    scaleDown45 5 [(-17, -1), (1, 17), (1, -2), (-4, -2), (-16, -14), (-23, -7)] = [(-4, 1), (0, 3), (0, 0), (-1, 0), (-4, -3), (-6, -1)] ∧
    is45Seq (scaleDown45 5 [(-17, -1), (1, 17), (1, -2), (-4, -2), (-16, -14), (-23, -7)]) = false := by
  decide +kernel

end Verif.Properties.Snap45
