import Verif.Proofs.PolyInv
import Verif.Proofs.PolygonInsert
/-!
# Closed loops of alternating coordinates and their winding numbers
-/
namespace Verif.Proofs.PolyLoop
open Verif.PolyForm Verif.Proofs.PolyPath Verif.Proofs.PolyInv Verif.Polygon Verif.Spec Verif.Isotropy

/-- Sum over the horizontal segments of a path below row `j`. -/
def Hs (i j : Int) : List Int → Int
  | x :: y :: x' :: r => (if y ≤ j then (if x ≤ i then 1 else 0) - (if x' ≤ i then 1 else 0) else 0) + Hs i j (x' :: r)
  | _ => 0

theorem expand_wind (i j fx fy : Int) (p : Int × Int) (r : List Int) (hev : r.length % 2 = 0) (hl : lastX p.1 r ≠ fx) :
    ((pairs (expandGo fx p r HORIZONTAL ++ [(fx, fy)])).map (wE i j)).sum = Hs i j (p.1 :: p.2 :: r ++ [fx]) := by
  match r with
  | [] =>
    rw [expandGo_nil _ _ hl]
    simp only [List.cons_append, List.nil_append, pairs, List.map_cons, List.map_nil, List.sum_cons, List.sum_nil, Hs, wE]
    simp
  | [x] => simp at hev
  | x :: y :: r =>
    have ih := expand_wind i j fx fy (x, y) r (by simp at hev; omega) hl
    rw [expandGo_two]
    obtain ⟨t, ht⟩ := expandGo_head fx (x, y) r HORIZONTAL
    rw [ht] at ih ⊢
    simp only [List.cons_append, pairs, List.map_cons, List.sum_cons, Hs] at ih ⊢
    rw [ih]
    have h0 : wE i j ((x, p.2), (x, y)) = 0 := by simp [wE]
    rw [h0]
    simp [wE]

theorem expand_distinct (fx fy : Int) (p : Int × Int) (r : List Int) (hev : r.length % 2 = 0) (hl : lastX p.1 r ≠ fx)
    (hn : ND (p.1 :: p.2 :: r ++ [fx, fy])) : ∀ e ∈ pairs (expandGo fx p r HORIZONTAL ++ [(fx, fy)]), e.1 ≠ e.2 := by
  match r with
  | [] =>
    rw [expandGo_nil _ _ hl]
    simp only [List.cons_append, List.nil_append, ND] at hn
    intro e he
    simp only [List.cons_append, List.nil_append, pairs, List.mem_cons, List.not_mem_nil, or_false] at he
    rcases he with rfl | rfl
    · intro h; exact hn.1 (congrArg Prod.fst h)
    · intro h; exact hn.2.1 (congrArg Prod.snd h)
  | [x] => simp at hev
  | x :: y :: r =>
    simp only [List.cons_append, ND] at hn
    have ih := expand_distinct fx fy (x, y) r (by simp at hev; omega) hl (by simpa using hn.2.2)
    rw [expandGo_two]
    obtain ⟨t, ht⟩ := expandGo_head fx (x, y) r HORIZONTAL
    rw [ht] at ih ⊢
    intro e he
    simp only [List.cons_append, pairs, List.mem_cons] at he
    rcases he with rfl | rfl | he
    · intro h; exact hn.1 (congrArg Prod.fst h)
    · intro h; exact hn.2.1 (congrArg Prod.snd h)
    · exact ih e he

theorem lastX_ne (fx fy : Int) : ∀ (r : List Int) (a b : Int), r.length % 2 = 0 → ND (a :: b :: r ++ [fx, fy]) → lastX a r ≠ fx
  | [], a, b, _, h => by simp only [List.cons_append, List.nil_append, ND] at h; exact h.1
  | [x], _, _, h, _ => by simp at h
  | x :: y :: r, a, b, h, hn => by
    rw [lastX]
    simp only [List.cons_append, ND] at hn
    exact lastX_ne fx fy r x y (by simp at h; omega) (by simpa using hn.2.2)

theorem getLastD_snoc (l : List Int) (a d : Int) : (l ++ [a]).getLastD d = a := by simp

/-- Horizontal and vertical form of the same path, from an x to an x. -/
theorem Hs_F (i j w : Int) : ∀ (r : List Int) (x y : Int), r.length % 2 = 0 →
    Hs i j (x :: y :: r ++ [w]) = F i j true (x :: y :: r ++ [w]) + (if x ≤ i ∧ y ≤ j then 1 else 0) -
      (if w ≤ i ∧ (y :: r).getLastD 0 ≤ j then 1 else 0)
  | [], x, y, _ => by
    simp only [List.cons_append, List.nil_append, Hs, F_x, F_two, List.getLastD_cons, List.getLastD_nil]
    split_ifs <;> simp_all
  | [_], _, _, h => by simp at h
  | a :: b :: r, x, y, h => by
    have ih := Hs_F i j w r a b (by simp at h; omega)
    simp only [List.cons_append] at ih ⊢
    rw [Hs, ih, F_x, F_x, F_y]
    have : (y :: a :: b :: r).getLastD 0 = (b :: r).getLastD 0 := by simp
    rw [this]
    unfold tm st
    split_ifs <;> omega

/-- The value of a loop from its horizontal segments. -/
theorem Hs_W (i j x y : Int) (r : List Int) (h : r.length % 2 = 0) : Hs i j (x :: y :: r ++ [x]) = W i j (x :: y :: r) := by
  rw [Hs_F i j x r x y h, W]
  have e : (x :: y :: r).getLastD 0 = (y :: r).getLastD 0 := by simp
  rw [e]
  -- F true (x :: y :: r ++ [x]) = F false (y :: r ++ [x]) = F false (y :: r)
  have e1 : F i j true (x :: y :: r ++ [x]) = F i j false (y :: r) := by
    rw [List.cons_append, F_x]
    rcases List.eq_nil_or_concat r with rfl | ⟨q, b, rfl⟩
    · simp [F]
    · rcases List.eq_nil_or_concat q with rfl | ⟨q, a, rfl⟩
      · simp at h
      · have := F_snoc i j a b x (y :: q) false
        simp only [List.concat_eq_append, List.cons_append, List.append_assoc, List.nil_append] at this ⊢
        rw [this]
        simp only [List.concat_eq_append, List.length_append, List.length_cons, List.length_nil] at h
        simp
        omega
  rw [e1, F_y]
  unfold tm st
  split_ifs <;> omega

/-- Transposed: the horizontal segments of a path that starts with a y. -/
theorem Hs_swap (i j : Int) : ∀ L : List Int, Hs j i L = - F i j false L
  | [] => by simp [Hs, F]
  | [_] => by simp [Hs, F]
  | [_, _] => by simp [Hs, F]
  | a :: b :: c :: r => by
    rw [Hs, F_y, Hs_swap i j (c :: r)]
    unfold tm st
    split_ifs <;> omega

/-! ### rotation and reversal -/

def rot (p : List Int) : List Int := p.tail ++ p.take 1

theorem loop_rot {p : List Int} (h : LoopP p) : LoopP (rot p) := by
  obtain ⟨h1, h2, h3⟩ := h
  match p, h1, h2, h3 with
  | a :: b :: c :: r, h1, h2, h3 =>
    refine ⟨by simp [rot] at *; omega, by simp [rot] at *; omega, ?_⟩
    simp only [rot, List.tail_cons, List.take_succ_cons, List.take_zero, List.cons_append, List.append_assoc, List.nil_append] at h3 ⊢
    rw [show b :: c :: (r ++ [a, b, c]) = (b :: c :: r) ++ [a, b, c] by simp, ND_snoc]
    rw [ND] at h3
    exact ⟨by simpa using h3.2, h3.1⟩

theorem loop_reverse {p : List Int} (h : LoopP p) : LoopP p.reverse := by
  obtain ⟨h1, h2, h3⟩ := h
  match p, h1, h2, h3 with
  | a :: b :: r, h1, h2, h3 =>
    have : LoopP (b :: a :: r.reverse) := by
      refine ⟨by simp at *; omega, by simp at *; omega, ?_⟩
      have := ND_reverse _ h3
      simpa using this
    have := loop_rot (loop_rot this)
    simpa [rot] using this

theorem W_rot_reverse {p : List Int} (h : LoopP p) (i j : Int) : W i j (rot p.reverse) = - W i j p := by
  obtain ⟨h1, h2, h3⟩ := h
  rcases List.eq_nil_or_concat p with rfl | ⟨q, y, rfl⟩
  · simp at h2
  · simp only [List.concat_eq_append, List.length_append, List.length_singleton] at h1 ⊢
    have e : rot (q ++ [y]).reverse = q.reverse ++ [y] := by simp [rot]
    rw [e, W, W, getLastD_snoc, getLastD_snoc]
    have := F_reverse i j (y :: (q ++ [y])) false
    rw [if_neg (by simp; omega)] at this
    rw [← this]
    simp

theorem W_swap {p : List Int} (h : LoopP p) (i j : Int) : W j i (rot p) = - W i j p := by
  obtain ⟨h1, h2, h3⟩ := h
  match p, h1, h2, h3 with
  | a :: b :: r, h1, h2, h3 =>
    have e : rot (a :: b :: r) = b :: (r ++ [a]) := by simp [rot]
    rcases List.eq_nil_or_concat r with rfl | ⟨q, l, rfl⟩
    · simp at h2
    · rw [e]
      cases q with
      | nil => simp at h1
      | cons c q =>
        have hl : (q ++ [l] ++ [a]).length % 2 = 0 := by simp at *; omega
        have := Hs_W j i b c (q ++ [l] ++ [a]) hl
        simp only [List.concat_eq_append, List.cons_append] at this ⊢
        rw [← this, Hs_swap, W]
        have e2 : b :: c :: (q ++ [l] ++ [a] ++ [b]) = (b :: c :: q) ++ [l, a, b] := by simp
        rw [e2, F_snoc]
        have e3 : (a :: b :: c :: (q ++ [l])).getLastD 0 = l := by
          rw [show a :: b :: c :: (q ++ [l]) = (a :: b :: c :: q) ++ [l] by simp, getLastD_snoc]
        rw [e3, F_y]
        have e4 : F i j false (b :: c :: q ++ [l, a]) = F i j false (b :: c :: (q ++ [l])) := by
          rcases List.eq_nil_or_concat q with rfl | ⟨q, m, rfl⟩
          · simp [F]
          · have := F_snoc i j m l a (b :: c :: q) false
            simp only [List.concat_eq_append, List.cons_append, List.append_assoc, List.nil_append] at this ⊢
            rw [this]
            simp at h1 ⊢
            omega
        rw [e4, if_neg (by simp at h1 ⊢; omega)]
        ring

/-- The four ways a closed loop is handed out. -/
theorem W_reverse_swap {p : List Int} (h : LoopP p) (i j : Int) : W j i p.reverse = W i j p := by
  have h' := W_swap (loop_reverse h) j i
  have := W_rot_reverse h i j
  omega

/-! ### the polygon of a loop -/

structure Nice (c : List Int) : Prop where
  len : (expand c).length = c.length
  four : 4 ≤ c.length
  even : c.length % 2 = 0
  altn : AltFrom true (edges (expand c))
  dist : ∀ e ∈ edges (expand c), e.1 ≠ e.2
  back : compact (expand c) = c
  wnd : ∀ q : ℚ × ℚ, wind (expand c) q = W ⌊q.1⌋ ⌊q.2⌋ c

theorem altL_from : ∀ (L : List (Int × Int)) (h : Bool), AltL h L → AltFrom h (pairs L)
  | [], _, _ => by simp [pairs, AltFrom]
  | [_], _, _ => by simp [pairs, AltFrom]
  | a :: b :: r, h, ha => by
    rw [AltL] at ha
    rw [pairs, AltFrom]
    exact ⟨ha.1, altL_from (b :: r) (!h) ha.2⟩

theorem nice {c : List Int} (h : LoopP c) : Nice c := by
  obtain ⟨h1, h2, h3⟩ := h
  match c, h1, h2, h3 with
  | x :: y :: r, h1, h2, h3 =>
    have hr : r.length % 2 = 0 := by simp at h1; omega
    simp only [List.take_succ_cons, List.take_zero] at h3
    have hl := lastX_ne x y r x y hr h3
    obtain ⟨t, ht⟩ := expandGo_head x (x, y) r HORIZONTAL
    have he : edges (expand (x :: y :: r)) = pairs (expandGo x (x, y) r HORIZONTAL ++ [(x, y)]) := by
      rw [expand, ht, edges_cons]
    refine ⟨?_, h2, h1, ?_, ?_, ?_, ?_⟩
    · rw [expand, expandGo_length x (x, y) r hr hl]; rfl
    · rw [he]; exact altL_from _ _ (expandGo_alt x y (x, y) r hr hl)
    · rw [he]; exact expand_distinct x y (x, y) r hr hl h3
    · exact compact_expandGo x (x, y) r hr hl
    · intro q
      rw [wind_eq, he, expand_wind _ _ x y (x, y) r hr hl]
      exact Hs_W _ _ x y r hr

theorem mem_zip3 {α : Type*} : ∀ (A B C : List α) (t : α × α × α), t ∈ A.zip (B.zip C) → (t.1, t.2.1) ∈ A.zip B
  | [], _, _, _, h => by simp at h
  | _ :: _, [], _, _, h => by simp at h
  | _ :: _, _ :: _, [], _, h => by simp at h
  | a :: A, b :: B, c :: C, t, h => by
    simp only [List.zip_cons_cons, List.mem_cons] at h ⊢
    rcases h with rfl | h
    · exact Or.inl rfl
    · exact Or.inr (mem_zip3 A B C t h)

theorem noStutter {P : List (Int × Int)} (h0 : P ≠ []) (h : ∀ e ∈ edges P, e.1 ≠ e.2) : NoStutter P := by
  refine ⟨fun t ht hc => h _ (mem_zip3 _ _ _ t ht) hc.1, ?_⟩
  cases P with
  | nil => exact absurd rfl h0
  | cons p r =>
    rw [edges_cons] at h
    rcases List.eq_nil_or_concat r with rfl | ⟨q, l, rfl⟩
    · exact absurd rfl (h (p, p) (by simp [pairs]))
    · intro hc
      have : l = p := by
        simp only [List.concat_eq_append] at hc
        rw [show p :: (q ++ [l]) = (p :: q) ++ [l] by simp, List.getLast?_concat] at hc
        simpa using hc
      refine h (l, p) ?_ this
      have e : p :: q.concat l ++ [p] = (p :: q) ++ [l, p] := by simp
      rw [e, pairs_concat]; simp

end Verif.Proofs.PolyLoop
