import Verif.Proofs.ResizeSet
/-! # Helper lemmas: resizing in one direction is dilation or erosion along that direction -/
namespace Verif.Shift1D

theorem sum_nonpos_of (D : List (List (Int × Int))) (z : Int) (h : ∀ H ∈ D, W H z ≤ 0) : (D.map (fun H => W H z)).sum ≤ 0 := by
  induction D with
  | nil => simp
  | cons H D ih =>
    have := h H (by simp)
    have := ih (fun x hx => h x (by simp [hx]))
    simp only [List.map_cons, List.sum_cons]; omega

theorem sum_neg_mem (D : List (List (Int × Int))) (z : Int) (h : (D.map (fun H => W H z)).sum < 0) : ∃ H ∈ D, W H z < 0 := by
  induction D with
  | nil => simp at h
  | cons H D ih =>
    by_cases g : W H z < 0
    · exact ⟨H, by simp, g⟩
    · simp only [List.map_cons, List.sum_cons] at h
      obtain ⟨C, hC, hc⟩ := ih (by omega)
      exact ⟨C, by simp [hC], hc⟩

/-- What is left out does not change the dilation. -/
theorem drop_mem {All K : List (Int × Int)} {D : List (List (Int × Int))} {lo hi : Int}
    (hsum : ∀ z, W All z = W K z + (D.map (fun H => W H z)).sum) (hDsub : ∀ H ∈ D, ∀ e ∈ H, e ∈ All) (ho : NoOpp All)
    (h0 : ∀ z, 0 ≤ W All z) (hD : ∀ H ∈ D, ∀ z, W H z ≤ 0) (hex : ∀ H ∈ D, ∃ z, lo ≤ z ∧ z ≤ hi ∧ W H z = 0) :
    (∃ z, lo ≤ z ∧ z ≤ hi ∧ 0 < W K z) ↔ ∃ z, lo ≤ z ∧ z ≤ hi ∧ 0 < W All z := by
  constructor
  · rintro ⟨z, z1, z2, z3⟩
    by_cases g : 0 < W All z
    · exact ⟨z, z1, z2, g⟩
    · have hs := hsum z
      obtain ⟨H, hH, hneg⟩ := sum_neg_mem D z (by omega)
      obtain ⟨z', w1, w2, w3⟩ := hex H hH
      rcases le_total z z' with h | h
      · obtain ⟨e, he, e1, e2, e3⟩ := crossing_between (E := H) h (by omega)
        exact crossing_covered ho h0 (hDsub H hH e he) e1 (by omega) (by omega)
      · obtain ⟨e, he, e1, e2, e3⟩ := crossing_between (E := H) h (by omega)
        exact crossing_covered ho h0 (hDsub H hH e he) e1 (by omega) (by omega)
  · rintro ⟨z, z1, z2, z3⟩
    have hs := hsum z
    have := sum_nonpos_of D z (fun H hH => hD H hH z)
    exact ⟨z, z1, z2, by omega⟩

theorem noOpp_sub {A B : List (Int × Int)} (h : ∀ e ∈ A, e ∈ B) (ho : NoOpp B) : NoOpp A :=
  fun e he f hf => ho e (h e he) f (h f hf)

theorem drop_nonneg {All K : List (Int × Int)} {D : List (List (Int × Int))}
    (hsum : ∀ z, W All z = W K z + (D.map (fun H => W H z)).sum) (h0 : ∀ z, 0 ≤ W All z) (hD : ∀ H ∈ D, ∀ z, W H z ≤ 0) (z : Int) :
    0 ≤ W K z := by
  have := hsum z; have := h0 z; have := sum_nonpos_of D z (fun H hH => hD H hH z)
  omega

theorem sum_nonneg_of (D : List (List (Int × Int))) (z : Int) (h : ∀ H ∈ D, 0 ≤ W H z) : 0 ≤ (D.map (fun H => W H z)).sum := by
  induction D with
  | nil => simp
  | cons H D ih =>
    have := h H (by simp)
    have := ih (fun x hx => h x (by simp [hx]))
    simp only [List.map_cons, List.sum_cons]; omega

/-- What is left out does not change the erosion. -/
theorem drop_all {All K : List (Int × Int)} {D : List (List (Int × Int))} {lo hi : Int}
    (hsum : ∀ z, W All z = W K z + (D.map (fun H => W H z)).sum) (hDsub : ∀ H ∈ D, ∀ e ∈ H, e ∈ All) (ho : NoOpp All)
    (h1 : ∀ z, W All z ≤ 1) (hD : ∀ H ∈ D, ∀ z, 0 ≤ W H z) (hex : ∀ H ∈ D, ∃ z, lo ≤ z ∧ z ≤ hi ∧ W H z ≤ 0) :
    (∀ z, lo ≤ z → z ≤ hi → 0 < W K z) ↔ ∀ z, lo ≤ z → z ≤ hi → 0 < W All z := by
  constructor
  · intro h z z1 z2
    have := hsum z; have := h z z1 z2; have := sum_nonneg_of D z (fun H hH => hD H hH z)
    omega
  · intro h z z1 z2
    have hz : (D.map (fun H => W H z)).sum = 0 := by
      apply List.sum_eq_zero
      intro v hv
      obtain ⟨H, hH, rfl⟩ := List.mem_map.mp hv
      obtain ⟨z', w1, w2, w3⟩ := hex H hH
      have h0 := hD H hH z'
      by_contra g
      have : ∃ e ∈ H, e.2 ≠ 0 ∧ lo < e.1 ∧ e.1 ≤ hi := by
        rcases le_total z z' with k | k
        · obtain ⟨e, he, e1, e2, e3⟩ := crossing_between (E := H) k (by omega)
          exact ⟨e, he, e1, by omega, by omega⟩
        · obtain ⟨e, he, e1, e2, e3⟩ := crossing_between (E := H) k (by omega)
          exact ⟨e, he, e1, by omega, by omega⟩
      obtain ⟨e, he, e1, e2, e3⟩ := this
      exact e1 (covered_no_crossing ho h1 h (hDsub H hH e he) e2 e3)
    have := hsum z; have := h z z1 z2
    omega

theorem drop_le {All K : List (Int × Int)} {D : List (List (Int × Int))}
    (hsum : ∀ z, W All z = W K z + (D.map (fun H => W H z)).sum) (h1 : ∀ z, W All z ≤ 1) (hD : ∀ H ∈ D, ∀ z, 0 ≤ W H z) (z : Int) :
    W K z ≤ 1 := by
  have := hsum z; have := h1 z; have := sum_nonneg_of D z (fun H hH => hD H hH z)
  omega

end Verif.Shift1D

namespace Verif.ResizePoly
open Verif.Spec Verif.Polygon Verif.BooleanOp Verif.Set90 Verif.Isotropy Verif.Shift1D

/-! ### Crossings of a boundary with a line -/

/-- Crossings with the vertical line through the cell column `x`, by height. -/
def evV (x : Int) (P : List (Int × Int)) : List (Int × Int) :=
  (edges P).map (fun e => (e.1.2, (if e.1.1 ≤ x then 1 else 0) - (if e.2.1 ≤ x then 1 else 0)))

/-- Crossings with the horizontal line through the cell row `y`, by abscissa. -/
def evH (y : Int) (P : List (Int × Int)) : List (Int × Int) :=
  (edges P).map (fun e => (e.2.1, (if e.2.2 ≤ y then 1 else 0) - (if e.1.2 ≤ y then 1 else 0)))

theorem W_evV {P : List (Int × Int)} (hr : Rectilinear P) (x y : Int) : W (evV x P) y = ((edges P).map (wE x y)).sum := by
  unfold W evV
  rw [List.map_map]
  congr 1
  apply List.map_congr_left
  intro e he
  rw [wE_rect x y e (hr e he)]
  rfl

theorem W_evH {P : List (Int × Int)} (hr : Rectilinear P) (x y : Int) : W (evH y P) x = ((edges P).map (wE x y)).sum := by
  have := edges_telescope (fun p : Int × Int => if p.1 ≤ x ∧ p.2 ≤ y then (1 : Int) else 0) P
  have h2 : W (evH y P) x = ((edges P).map (wE x y)).sum +
      ((edges P).map (fun e => (if e.2.1 ≤ x ∧ e.2.2 ≤ y then (1 : Int) else 0) - (if e.1.1 ≤ x ∧ e.1.2 ≤ y then (1 : Int) else 0))).sum := by
    unfold W evH
    rw [List.map_map, ← List.sum_map_add]
    congr 1
    apply List.map_congr_left
    intro e he
    rw [wE_rect x y e (hr e he)]
    have hh := hr e he
    simp only [Function.comp]
    split_ifs <;> omega
  rw [h2, this, add_zero]

theorem sum_forall₂ {α β : Type*} {f : α → Int} {g : β → Int} {l : List α} {m : List β}
    (h : List.Forall₂ (fun a b => f a = g b) l m) : (l.map f).sum = (m.map g).sum := by
  induction h with
  | nil => rfl
  | cons h1 _ ih => simp only [List.map_cons, List.sum_cons]; rw [h1, ih]

theorem forall₂_and {α β : Type*} {R S : α → β → Prop} {l : List α} {m : List β} (h1 : List.Forall₂ R l m)
    (h2 : List.Forall₂ S l m) : List.Forall₂ (fun a b => R a b ∧ S a b) l m := by
  induction h1 with
  | nil => exact List.Forall₂.nil
  | cons a _ ih =>
    cases h2 with
    | cons b h2 => exact List.Forall₂.cons ⟨a, b⟩ (ih h2)

theorem forall₂_edges_of_map {P Q : List (Int × Int)} (g : Int × Int → Int) (h : P.map g = Q.map g) :
    List.Forall₂ (fun e f => g e.1 = g f.1 ∧ g e.2 = g f.2) (edges P) (edges Q) := by
  have h1 : ∀ R : List (Int × Int), (edges R).map (Prod.map g g) = (R.map g).zip ((R.map g).rotate 1) := by
    intro R
    rw [edges, ← List.map_rotate, List.zip_map]
  have h2 : (edges P).map (Prod.map g g) = (edges Q).map (Prod.map g g) := by rw [h1, h1, h]
  have h3 : List.Forall₂ (· = ·) ((edges P).map (Prod.map g g)) ((edges Q).map (Prod.map g g)) := by
    rw [h2]; exact List.forall₂_refl _
  rw [List.forall₂_map_left_iff, List.forall₂_map_right_iff] at h3
  refine h3.imp ?_
  intro e f hef
  simpa [Prod.ext_iff] using hef

theorem trip_mid (L : List (Int × Int)) (a z : Int × Int) : (trip (a :: L ++ [z])).map (fun t => t.2.1) = L := by
  induction L generalizing a with
  | nil => rfl
  | cons b L ih =>
    have := ih b
    cases L with
    | nil => rfl
    | cons c L => simp only [List.cons_append, trip, List.map_cons] at this ⊢; rw [this]

theorem mod_map {P : List (Int × Int)} (h : 2 ≤ P.length) (w e s n : Int) (g : Int × Int → Int)
    (hg : ∀ p c x, g (modifyPt c p c x w e s n) = g c) : P.map g = (mod w e s n P).map g := by
  match P, h with
  | a :: b :: r, _ =>
    obtain ⟨Q, hQ, hrot, -⟩ := modifyAll_eq w e s n a b r
    have hm : mod w e s n (a :: b :: r) = Q := by simp [mod, hQ]
    rw [hm]
    have : (Q.map g).rotate 1 = ((a :: b :: r).map g).rotate 1 := by
      rw [← List.map_rotate, hrot, List.map_map, ← List.map_rotate]
      have e1 : (g ∘ fun t : (Int × Int) × (Int × Int) × (Int × Int) => modifyPt t.2.1 t.1 t.2.1 t.2.2 w e s n) =
          (fun t => g t.2.1) := by funext t; exact hg _ _ _
      rw [e1]
      have e2 := trip_mid (b :: r ++ [a]) a b
      have e3 : a :: (b :: r ++ [a]) ++ [b] = a :: b :: r ++ [a, b] := by simp
      rw [e3] at e2
      calc (trip (a :: b :: r ++ [a, b])).map (fun t => g t.2.1) = ((trip (a :: b :: r ++ [a, b])).map (fun t => t.2.1)).map g := by
            rw [List.map_map]; rfl
        _ = _ := by rw [e2]; simp
    exact (List.rotate_injective 1 this).symm

theorem W_evV_mod {P : List (Int × Int)} (h : Good P) (s n x y : Int) :
    W (evV x (mod 0 0 s n P)) y = W ((evV x P).map (fun e => (if e.2 < 0 then e.1 + n else if 0 < e.2 then e.1 - s else e.1, e.2))) y := by
  have f1 := (mod_eq h 0 0 s n).2
  have f2 := forall₂_edges_of_map Prod.fst (mod_map h.1 0 0 s n Prod.fst (by
    intro p c x; rw [modifyPt_x]; split_ifs <;> omega))
  unfold W evV
  rw [List.map_map, List.map_map, List.map_map]
  refine (sum_forall₂ ?_).symm
  refine (forall₂_and f1 f2).imp ?_
  rintro e f ⟨⟨m1, m2, -, -⟩, g1, g2⟩
  simp only [Function.comp]
  rw [← g1, ← g2]
  split_ifs <;> omega

theorem W_evH_mod {P : List (Int × Int)} (h : Good P) (w ea x y : Int) :
    W (evH y (mod w ea 0 0 P)) x = W ((evH y P).map (fun e => (if e.2 < 0 then e.1 + ea else if 0 < e.2 then e.1 - w else e.1, e.2))) x := by
  have f1 := (mod_eq h w ea 0 0).2
  have f2 := forall₂_edges_of_map Prod.snd (mod_map h.1 w ea 0 0 Prod.snd (by
    intro p c x; rw [modifyPt_y]; split_ifs <;> omega))
  unfold W evH
  rw [List.map_map, List.map_map, List.map_map]
  refine (sum_forall₂ ?_).symm
  refine (forall₂_and f1 f2).imp ?_
  rintro e f ⟨⟨-, -, m1, m2⟩, g1, g2⟩
  simp only [Function.comp]
  rw [← g1, ← g2]
  split_ifs <;> omega

theorem sh_up (E : List (Int × Int)) (n : Int) :
    E.map (fun e => (if e.2 < 0 then e.1 + n else if 0 < e.2 then e.1 - 0 else e.1, e.2)) = E.map (up n) := by
  apply List.map_congr_left
  intro e _
  unfold up
  split_ifs <;> simp

theorem sh_dn (E : List (Int × Int)) (n : Int) :
    E.map (fun e => (if e.2 < 0 then e.1 + 0 else if 0 < e.2 then e.1 - n else e.1, e.2)) = E.map (dn n) := by
  apply List.map_congr_left
  intro e _
  unfold dn
  split_ifs <;> first | (exfalso; omega) | simp

theorem noOpp_evV {B : List (List (Int × Int))} (hr : ∀ P ∈ B, Rectilinear P) (ho : NoOpposite (B.flatMap edges)) (x : Int) :
    NoOpp (B.flatMap (evV x)) := by
  intro e he f hf hef
  obtain ⟨P, hP, he⟩ := List.mem_flatMap.mp he
  obtain ⟨Q, hQ, hf⟩ := List.mem_flatMap.mp hf
  obtain ⟨e', he', rfl⟩ := List.mem_map.mp he
  obtain ⟨f', hf', rfl⟩ := List.mem_map.mp hf
  have h1 := (ho e' (List.mem_flatMap.mpr ⟨P, hP, he'⟩) f' (List.mem_flatMap.mpr ⟨Q, hQ, hf'⟩)).1
  have h2 := hr P hP e' he'
  have h3 := hr Q hQ f' hf'
  dsimp only at hef ⊢
  rintro ⟨g1, g2⟩
  split_ifs at g1 g2 <;> omega

theorem noOpp_evH {B : List (List (Int × Int))} (hr : ∀ P ∈ B, Rectilinear P) (ho : NoOpposite (B.flatMap edges)) (y : Int) :
    NoOpp (B.flatMap (evH y)) := by
  intro e he f hf hef
  obtain ⟨P, hP, he⟩ := List.mem_flatMap.mp he
  obtain ⟨Q, hQ, hf⟩ := List.mem_flatMap.mp hf
  obtain ⟨e', he', rfl⟩ := List.mem_map.mp he
  obtain ⟨f', hf', rfl⟩ := List.mem_map.mp hf
  have h1 := (ho f' (List.mem_flatMap.mpr ⟨Q, hQ, hf'⟩) e' (List.mem_flatMap.mpr ⟨P, hP, he'⟩)).2
  have h2 := hr P hP e' he'
  have h3 := hr Q hQ f' hf'
  dsimp only at hef ⊢
  rintro ⟨g1, g2⟩
  split_ifs at g1 g2 <;> omega

theorem extent_bounds (l : List Int) : ∀ x ∈ l, (extent l).1 ≤ x ∧ x ≤ (extent l).2 := by
  have gen : ∀ (l : List Int) (m : Int × Int), let r := l.foldl (fun m x => (min m.1 x, max m.2 x)) m
      r.1 ≤ m.1 ∧ m.2 ≤ r.2 ∧ ∀ x ∈ l, r.1 ≤ x ∧ x ≤ r.2 := by
    intro l
    induction l with
    | nil => intro m; simp
    | cons a l ih =>
      intro m
      have := ih (min m.1 a, max m.2 a)
      dsimp only [List.foldl_cons] at this ⊢
      refine ⟨by omega, by omega, ?_⟩
      intro x hx
      rcases List.mem_cons.mp hx with rfl | hx
      · omega
      · exact this.2.2 x hx
  cases l with
  | nil => simp
  | cons a r =>
    have := gen r (a, a)
    dsimp only at this
    intro x hx
    unfold extent
    rcases List.mem_cons.mp hx with rfl | hx
    · exact ⟨this.1, this.2.1⟩
    · exact this.2.2 x hx

/-- A narrow boundary leaves a gap in every longer stretch. -/
theorem gapV {P : List (Int × Int)} (hr : Rectilinear P) (x lo hi : Int)
    (h : (extent (P.map Prod.snd)).2 - (extent (P.map Prod.snd)).1 < hi - lo) :
    ∃ z, lo ≤ z ∧ z ≤ hi ∧ W (evV x P) z = 0 := by
  have hb := extent_bounds (P.map Prod.snd)
  by_cases g : lo < (extent (P.map Prod.snd)).1
  · by_cases g2 : lo ≤ hi
    · refine ⟨lo, le_refl _, g2, ?_⟩
      rw [W_evV hr]
      apply List.sum_eq_zero
      intro z hz
      obtain ⟨e, he, rfl⟩ := List.mem_map.mp hz
      have := (hb e.1.2 (List.mem_map.mpr ⟨e.1, (List.of_mem_zip he).1, rfl⟩)).1
      rw [wE_rect _ _ _ (hr e he), if_neg (by omega)]
    · have h1 : (extent (P.map Prod.snd)).1 ≤ (extent (P.map Prod.snd)).2 := by
        cases P with
        | nil => simp [extent]
        | cons a r => have := hb a.2 (by simp); omega
      omega
  · have h1 : (extent (P.map Prod.snd)).1 ≤ (extent (P.map Prod.snd)).2 := by
      cases P with
      | nil => simp [extent]
      | cons a r => have := hb a.2 (by simp); omega
    refine ⟨hi, by omega, le_refl _, ?_⟩
    rw [W_evV hr]
    apply wsum_far_y P hr
    intro p hp
    have := (hb p.2 (List.mem_map.mpr ⟨p, hp, rfl⟩)).2
    omega

theorem gapH {P : List (Int × Int)} (hr : Rectilinear P) (y lo hi : Int)
    (h : (extent (P.map Prod.fst)).2 - (extent (P.map Prod.fst)).1 < hi - lo) :
    ∃ z, lo ≤ z ∧ z ≤ hi ∧ W (evH y P) z = 0 := by
  have hb := extent_bounds (P.map Prod.fst)
  have h1 : (extent (P.map Prod.fst)).1 ≤ (extent (P.map Prod.fst)).2 := by
    cases P with
    | nil => simp [extent]
    | cons a r => have := hb a.1 (by simp); omega
  by_cases g : lo < (extent (P.map Prod.fst)).1
  · refine ⟨lo, le_refl _, by omega, ?_⟩
    rw [W_evH hr]
    apply List.sum_eq_zero
    intro z hz
    obtain ⟨e, he, rfl⟩ := List.mem_map.mp hz
    have h1 := (hb e.1.1 (List.mem_map.mpr ⟨e.1, (List.of_mem_zip he).1, rfl⟩)).1
    have h2 := (hb e.2.1 (List.mem_map.mpr ⟨e.2, List.mem_rotate.mp (List.of_mem_zip he).2, rfl⟩)).1
    rw [wE_rect _ _ _ (hr e he)]
    split_ifs <;> omega
  · refine ⟨hi, by omega, le_refl _, ?_⟩
    rw [W_evH hr]
    apply wsum_far_x P
    intro p hp
    have := (hb p.1 (List.mem_map.mpr ⟨p, hp, rfl⟩)).2
    omega


theorem extent_le (l : List Int) : (extent l).1 ≤ (extent l).2 := by
  cases l with
  | nil => simp [extent]
  | cons a r => have := extent_bounds (a :: r) a (by simp); omega

theorem W_flatMap {α : Type*} (l : List α) (g : α → List (Int × Int)) (z : Int) :
    W (l.flatMap g) z = (l.map (fun a => W (g a) z)).sum := by
  induction l with
  | nil => simp [W]
  | cons a l ih => rw [List.flatMap_cons, W_append, ih]; simp

theorem W_map_flatMap {α : Type*} (l : List α) (g : α → List (Int × Int)) (f : Int × Int → Int × Int) (z : Int) :
    W ((l.flatMap g).map f) z = (l.map (fun a => W ((g a).map f) z)).sum := by
  induction l with
  | nil => simp [W]
  | cons a l ih => rw [List.flatMap_cons, List.map_append, W_append, ih]; simp

theorem sum_filter_ite {α : Type*} (l : List α) (c : α → Prop) [DecidablePred c] (f : α → Int) :
    (l.map (fun a => if c a then 0 else f a)).sum = ((l.filter (fun a => ¬ c a)).map f).sum := by
  induction l with
  | nil => rfl
  | cons a l ih => by_cases h : c a <;> simp [h, ih] <;> simpa using ih

theorem sum_filter_split {α : Type*} (l : List α) (c : α → Prop) [DecidablePred c] (f : α → Int) :
    (l.map f).sum = ((l.filter (fun a => ¬ c a)).map f).sum + ((l.filter (fun a => c a)).map f).sum := by
  induction l with
  | nil => rfl
  | cons a l ih =>
    by_cases h : c a <;> simp only [List.map_cons, List.sum_cons, ih, h, List.filter_cons, not_true_eq_false, not_false_eq_true,
      decide_false, decide_true, if_true, Bool.false_eq_true, if_false] <;> ring

theorem mem_boundaries_outer {polys : List PolyHoles} {p : PolyHoles} (hp : p ∈ polys) : p.1 ∈ boundaries polys :=
  List.mem_flatMap.mpr ⟨p, hp, by simp⟩

theorem mem_boundaries_hole {polys : List PolyHoles} {p : PolyHoles} (hp : p ∈ polys) {h : List (Int × Int)} (hh : h ∈ p.2) :
    h ∈ boundaries polys :=
  List.mem_flatMap.mpr ⟨p, hp, by simp [hh]⟩

theorem bloat_generic (polys : List PolyHoles) (ev : List (Int × Int) → List (Int × Int)) (f : Int × Int → Int × Int) (y lo hi : Int)
    (small : List (Int × Int) → Prop) [DecidablePred small]
    (hsmall : ∀ P ∈ boundaries polys, small P → ∃ z, lo ≤ z ∧ z ≤ hi ∧ W (ev P) z = 0)
    (hdil : ∀ E, NoOpp E → (∀ z, 0 ≤ W E z) → (0 < W (E.map f) y ↔ ∃ z, lo ≤ z ∧ z ≤ hi ∧ 0 < W E z))
    (ho : NoOpp ((boundaries polys).flatMap ev)) (h0 : ∀ z, 0 ≤ W ((boundaries polys).flatMap ev) z)
    (hh : ∀ p ∈ polys, ∀ h ∈ p.2, ∀ z, W (ev h) z ≤ 0) :
    0 < (polys.map (fun p => W ((ev p.1).map f) y + (p.2.map (fun h => if small h then 0 else W ((ev h).map f) y)).sum)).sum ↔
      ∃ z, lo ≤ z ∧ z ≤ hi ∧ 0 < W ((boundaries polys).flatMap ev) z := by
  let K := polys.flatMap (fun p => ev p.1 ++ (p.2.filter (fun h => ¬ small h)).flatMap ev)
  let D := polys.flatMap (fun p => (p.2.filter (fun h => small h)).map ev)
  have hsum : ∀ z, W ((boundaries polys).flatMap ev) z = W K z + (D.map (fun H => W H z)).sum := by
    intro z
    simp only [K, D, boundaries]
    clear hsmall hdil ho h0 hh K D
    induction polys with
    | nil => simp [W]
    | cons p polys ih =>
      simp only [List.flatMap_cons, List.flatMap_append, W_append, List.map_append, List.sum_append, ih, List.map_map]
      rw [W_flatMap p.2, W_flatMap (p.2.filter _), sum_filter_split p.2 small]
      simp only [Function.comp_def]
      ring
  have hDev : ∀ H ∈ D, ∃ p ∈ polys, ∃ h ∈ p.2, small h ∧ H = ev h := by
    intro H hH
    obtain ⟨p, hp, hH⟩ := List.mem_flatMap.mp hH
    obtain ⟨h, hh, rfl⟩ := List.mem_map.mp hH
    have := List.mem_filter.mp hh
    exact ⟨p, hp, h, this.1, by simpa using this.2, rfl⟩
  have hDsub : ∀ H ∈ D, ∀ e ∈ H, e ∈ (boundaries polys).flatMap ev := by
    intro H hH e he
    obtain ⟨p, hp, h, hh, -, rfl⟩ := hDev H hH
    exact List.mem_flatMap.mpr ⟨h, mem_boundaries_hole hp hh, he⟩
  have hKsub : ∀ e ∈ K, e ∈ (boundaries polys).flatMap ev := by
    intro e he
    obtain ⟨p, hp, he⟩ := List.mem_flatMap.mp he
    rcases List.mem_append.mp he with he | he
    · exact List.mem_flatMap.mpr ⟨_, mem_boundaries_outer hp, he⟩
    · obtain ⟨h, hh, he⟩ := List.mem_flatMap.mp he
      exact List.mem_flatMap.mpr ⟨_, mem_boundaries_hole hp (List.mem_filter.mp hh).1, he⟩
  have hD : ∀ H ∈ D, ∀ z, W H z ≤ 0 := by
    intro H hH z
    obtain ⟨p, hp, h, hh', -, rfl⟩ := hDev H hH
    exact hh p hp h hh' z
  have hex : ∀ H ∈ D, ∃ z, lo ≤ z ∧ z ≤ hi ∧ W H z = 0 := by
    intro H hH
    obtain ⟨p, hp, h, hh', hs, rfl⟩ := hDev H hH
    exact hsmall h (mem_boundaries_hole hp hh') hs
  have hval : (polys.map (fun p => W ((ev p.1).map f) y +
      (p.2.map (fun h => if small h then 0 else W ((ev h).map f) y)).sum)).sum = W (K.map f) y := by
    simp only [K]
    rw [W_map_flatMap]
    congr 1
    apply List.map_congr_left
    intro p _
    rw [List.map_append, W_append, W_map_flatMap, sum_filter_ite]
  rw [hval, hdil K (noOpp_sub hKsub ho) (drop_nonneg hsum h0 hD)]
  exact drop_mem hsum hDsub ho h0 hD hex

theorem shrink_generic (polys : List PolyHoles) (ev : List (Int × Int) → List (Int × Int)) (f : Int × Int → Int × Int) (y lo hi : Int)
    (gone : PolyHoles → Prop) [DecidablePred gone]
    (hgone : ∀ p ∈ polys, gone p → ∃ z, lo ≤ z ∧ z ≤ hi ∧ W (ev p.1) z ≤ 0)
    (hero : ∀ E, NoOpp E → (∀ z, W E z ≤ 1) → (0 < W (E.map f) y ↔ ∀ z, lo ≤ z → z ≤ hi → 0 < W E z))
    (ho : NoOpp ((boundaries polys).flatMap ev)) (h1 : ∀ z, W ((boundaries polys).flatMap ev) z ≤ 1)
    (hh : ∀ p ∈ polys, ∀ h ∈ p.2, ∀ z, W (ev h) z ≤ 0)
    (hin : ∀ p ∈ polys, ∀ z, 0 ≤ W (ev p.1) z + (p.2.map (fun h => W (ev h) z)).sum) :
    0 < (polys.map (fun p => if gone p then 0 else ((p.1 :: p.2).map (fun h => W ((ev h).map f) y)).sum)).sum ↔
      ∀ z, lo ≤ z → z ≤ hi → 0 < W ((boundaries polys).flatMap ev) z := by
  let G : PolyHoles → List (Int × Int) := fun p => (p.1 :: p.2).flatMap ev
  let K := (polys.filter (fun p => ¬ gone p)).flatMap G
  let D := (polys.filter (fun p => gone p)).map G
  have hsum : ∀ z, W ((boundaries polys).flatMap ev) z = W K z + (D.map (fun H => W H z)).sum := by
    intro z
    have e1 : (boundaries polys).flatMap ev = polys.flatMap G := by
      simp only [boundaries, G, List.flatMap_assoc]
    rw [e1, W_flatMap, W_flatMap, sum_filter_split polys gone, List.map_map]
    rfl
  have hDev : ∀ H ∈ D, ∃ p ∈ polys, gone p ∧ H = G p := by
    intro H hH
    obtain ⟨p, hp, rfl⟩ := List.mem_map.mp hH
    have := List.mem_filter.mp hp
    exact ⟨p, this.1, by simpa using this.2, rfl⟩
  have hGsub : ∀ p ∈ polys, ∀ e ∈ G p, e ∈ (boundaries polys).flatMap ev := by
    intro p hp e he
    obtain ⟨h, hh, he⟩ := List.mem_flatMap.mp he
    exact List.mem_flatMap.mpr ⟨h, List.mem_flatMap.mpr ⟨p, hp, hh⟩, he⟩
  have hDsub : ∀ H ∈ D, ∀ e ∈ H, e ∈ (boundaries polys).flatMap ev := by
    intro H hH e he
    obtain ⟨p, hp, -, rfl⟩ := hDev H hH
    exact hGsub p hp e he
  have hKsub : ∀ e ∈ K, e ∈ (boundaries polys).flatMap ev := by
    intro e he
    obtain ⟨p, hp, he⟩ := List.mem_flatMap.mp he
    exact hGsub p (List.mem_filter.mp hp).1 e he
  have hGW : ∀ p z, W (G p) z = W (ev p.1) z + (p.2.map (fun h => W (ev h) z)).sum := by
    intro p z
    simp only [G]
    rw [W_flatMap]; simp
  have hD : ∀ H ∈ D, ∀ z, 0 ≤ W H z := by
    intro H hH z
    obtain ⟨p, hp, -, rfl⟩ := hDev H hH
    rw [hGW]; exact hin p hp z
  have hex : ∀ H ∈ D, ∃ z, lo ≤ z ∧ z ≤ hi ∧ W H z ≤ 0 := by
    intro H hH
    obtain ⟨p, hp, hg, rfl⟩ := hDev H hH
    obtain ⟨z, z1, z2, z3⟩ := hgone p hp hg
    refine ⟨z, z1, z2, ?_⟩
    rw [hGW]
    have : (p.2.map (fun h => W (ev h) z)).sum ≤ 0 := by
      have := sum_nonpos_of (p.2.map ev) z (by
        intro H hH
        obtain ⟨h, hh', rfl⟩ := List.mem_map.mp hH
        exact hh p hp h hh' z)
      rw [List.map_map] at this
      exact this
    omega
  have hval : (polys.map (fun p => if gone p then 0 else ((p.1 :: p.2).map (fun h => W ((ev h).map f) y)).sum)).sum =
      W (K.map f) y := by
    simp only [K]
    rw [W_map_flatMap, sum_filter_ite]
    congr 1
    apply List.map_congr_left
    intro p _
    simp only [G]
    rw [W_map_flatMap]
  rw [hval, hero K (noOpp_sub hKsub ho) (drop_le hsum h1 hD)]
  exact drop_all hsum hDsub ho h1 hD hex

/-! ### The depth of the polygons along a line -/

theorem total_evV {polys : List PolyHoles} (hr : ∀ P ∈ boundaries polys, Rectilinear P) (q : ℚ × ℚ) :
    W ((boundaries polys).flatMap (evV ⌊q.1⌋)) ⌊q.2⌋ = total polys q := by
  rw [W_flatMap, total]
  congr 1
  apply List.map_congr_left
  intro P hP
  rw [W_evV (hr P hP), wind_eq]

theorem total_evH {polys : List PolyHoles} (hr : ∀ P ∈ boundaries polys, Rectilinear P) (q : ℚ × ℚ) :
    W ((boundaries polys).flatMap (evH ⌊q.2⌋)) ⌊q.1⌋ = total polys q := by
  rw [W_flatMap, total]
  congr 1
  apply List.map_congr_left
  intro P hP
  rw [W_evH (hr P hP), wind_eq]

theorem wind_evV {P : List (Int × Int)} (hr : Rectilinear P) (x z : Int) : W (evV x P) z = wind P (x, z) := by
  rw [W_evV hr, wind_eq]; simp

theorem wind_evH {P : List (Int × Int)} (hr : Rectilinear P) (y z : Int) : W (evH y P) z = wind P (z, y) := by
  rw [W_evH hr, wind_eq]; simp

theorem wind_modV {P : List (Int × Int)} (h : Good P) (s n : Int) (q : ℚ × ℚ) : wind (mod 0 0 s n P) q =
    W ((evV ⌊q.1⌋ P).map (fun e => (if e.2 < 0 then e.1 + n else if 0 < e.2 then e.1 - s else e.1, e.2))) ⌊q.2⌋ := by
  rw [← W_evV_mod h, W_evV (mod_rect h 0 0 s n), wind_eq]

theorem wind_modH {P : List (Int × Int)} (h : Good P) (w e : Int) (q : ℚ × ℚ) : wind (mod w e 0 0 P) q =
    W ((evH ⌊q.2⌋ P).map (fun v => (if v.2 < 0 then v.1 + e else if 0 < v.2 then v.1 - w else v.1, v.2))) ⌊q.1⌋ := by
  rw [← W_evH_mod h, W_evH (mod_rect h w e 0 0), wind_eq]

/-- A stretch of integers and a stretch of rationals meet the same cells. -/
theorem exists_stretch_dn (F : Int → Prop) (x : ℚ) (d : Int) :
    (∃ z, ⌊x⌋ ≤ z ∧ z ≤ ⌊x⌋ + d ∧ F z) ↔ ∃ u : ℚ, 0 ≤ u ∧ u ≤ d ∧ F ⌊x + u⌋ := by
  constructor
  · rintro ⟨z, h1, h2, h3⟩
    refine ⟨((z - ⌊x⌋ : Int) : ℚ), by exact_mod_cast (by omega : (0 : Int) ≤ z - ⌊x⌋), by exact_mod_cast (by omega : z - ⌊x⌋ ≤ d), ?_⟩
    rw [Int.floor_add_intCast, show ⌊x⌋ + (z - ⌊x⌋) = z by ring]; exact h3
  · rintro ⟨u, h1, h2, h3⟩
    refine ⟨_, Int.floor_le_floor (by linarith), ?_, h3⟩
    rw [← Int.floor_add_intCast]
    exact Int.floor_le_floor (by linarith)

theorem exists_stretch_up (F : Int → Prop) (x : ℚ) (d : Int) :
    (∃ z, ⌊x⌋ - d ≤ z ∧ z ≤ ⌊x⌋ ∧ F z) ↔ ∃ u : ℚ, 0 ≤ u ∧ u ≤ d ∧ F ⌊x - u⌋ := by
  constructor
  · rintro ⟨z, h1, h2, h3⟩
    refine ⟨((⌊x⌋ - z : Int) : ℚ), by exact_mod_cast (by omega : (0 : Int) ≤ ⌊x⌋ - z), by exact_mod_cast (by omega : ⌊x⌋ - z ≤ d), ?_⟩
    rw [Int.floor_sub_intCast, show ⌊x⌋ - (⌊x⌋ - z) = z by ring]; exact h3
  · rintro ⟨u, h1, h2, h3⟩
    refine ⟨_, ?_, Int.floor_le_floor (by linarith), h3⟩
    rw [← Int.floor_sub_intCast]
    exact Int.floor_le_floor (by linarith)

theorem forall_stretch_dn (F : Int → Prop) (x : ℚ) (d : Int) :
    (∀ z, ⌊x⌋ ≤ z → z ≤ ⌊x⌋ + d → F z) ↔ ∀ u : ℚ, 0 ≤ u → u ≤ d → F ⌊x + u⌋ := by
  have := exists_stretch_dn (fun z => ¬ F z) x d
  constructor
  · intro h u h1 h2
    by_contra g
    obtain ⟨z, z1, z2, z3⟩ := this.mpr ⟨u, h1, h2, g⟩
    exact z3 (h z z1 z2)
  · intro h z h1 h2
    by_contra g
    obtain ⟨u, u1, u2, u3⟩ := this.mp ⟨z, h1, h2, g⟩
    exact u3 (h u u1 u2)

theorem forall_stretch_up (F : Int → Prop) (x : ℚ) (d : Int) :
    (∀ z, ⌊x⌋ - d ≤ z → z ≤ ⌊x⌋ → F z) ↔ ∀ u : ℚ, 0 ≤ u → u ≤ d → F ⌊x - u⌋ := by
  have := exists_stretch_up (fun z => ¬ F z) x d
  constructor
  · intro h u h1 h2
    by_contra g
    obtain ⟨z, z1, z2, z3⟩ := this.mpr ⟨u, h1, h2, g⟩
    exact z3 (h z z1 z2)
  · intro h z h1 h2
    by_contra g
    obtain ⟨u, u1, u2, u3⟩ := this.mp ⟨z, h1, h2, g⟩
    exact u3 (h u u1 u2)


/-! ### The four directions -/

theorem regular_good {polys : List PolyHoles} (h : RegularPolys polys) : ∀ P ∈ boundaries polys, Good P := h.boundary

theorem depthV {polys : List PolyHoles} (h : RegularPolys polys) (s n : Int) (q : ℚ × ℚ) (f : Int × Int → Int × Int)
    (hf : (fun e : Int × Int => (if e.2 < 0 then e.1 + n else if 0 < e.2 then e.1 - s else e.1, e.2)) = f ∨
      ∀ E : List (Int × Int), E.map (fun e => (if e.2 < 0 then e.1 + n else if 0 < e.2 then e.1 - s else e.1, e.2)) = E.map f) :
    ∀ P ∈ boundaries polys, wind (mod 0 0 s n P) q = W ((evV ⌊q.1⌋ P).map f) ⌊q.2⌋ := by
  intro P hP
  rw [wind_modV (h.boundary P hP)]
  rcases hf with hf | hf
  · rw [hf]
  · rw [hf]

theorem bloatV {polys : List PolyHoles} (h : RegularPolys polys) (s n : Int) (q : ℚ × ℚ) (f : Int × Int → Int × Int)
    (hf : ∀ E : List (Int × Int), E.map (fun e => (if e.2 < 0 then e.1 + n else if 0 < e.2 then e.1 - s else e.1, e.2)) = E.map f)
    (lo hi : Int) (hlen : |n + s| = hi - lo)
    (hdil : ∀ E, NoOpp E → (∀ z, 0 ≤ W E z) → (0 < W (E.map f) ⌊q.2⌋ ↔ ∃ z, lo ≤ z ∧ z ≤ hi ∧ 0 < W E z)) :
    0 < (polys.map (fun p => wind (mod 0 0 s n p.1) q +
        (p.2.map (fun h => if Small 0 0 s n h then 0 else wind (mod 0 0 s n h) q)).sum)).sum ↔
      ∃ z : Int, lo ≤ z ∧ z ≤ hi ∧ 0 < total polys (q.1, z) := by
  have hr : ∀ P ∈ boundaries polys, Rectilinear P := fun P hP => (h.boundary P hP).2.1
  have ht : ∀ z : Int, W ((boundaries polys).flatMap (evV ⌊q.1⌋)) z = total polys (q.1, z) := by
    intro z
    rw [← total_evV hr]; simp
  have hw : ∀ P ∈ boundaries polys, ∀ z : Int, W (evV ⌊q.1⌋ P) z = wind P (((⌊q.1⌋ : Int) : ℚ), (z : ℚ)) :=
    fun P hP z => wind_evV (hr P hP) _ z
  have := bloat_generic polys (evV ⌊q.1⌋) f ⌊q.2⌋ lo hi (Small 0 0 s n)
    (by
      intro P hP hs
      apply gapV (hr P hP)
      rcases hs with hs | hs
      · have := extent_le (P.map Prod.fst); simp at hs; omega
      · omega)
    hdil (noOpp_evV hr h.opposite _) (fun z => by rw [ht]; exact (h.once _).1)
    (fun p hp g hg z => by rw [hw g (mem_boundaries_hole hp hg)]; exact h.hole p hp g hg _)
  simp only [ht] at this
  rw [← this]
  have e : (polys.map (fun p => wind (mod 0 0 s n p.1) q +
        (p.2.map (fun h => if Small 0 0 s n h then 0 else wind (mod 0 0 s n h) q)).sum)).sum =
      (polys.map (fun p => W ((evV ⌊q.1⌋ p.1).map f) ⌊q.2⌋ +
        (p.2.map (fun h => if Small 0 0 s n h then 0 else W ((evV ⌊q.1⌋ h).map f) ⌊q.2⌋)).sum)).sum := by
    congr 1
    apply List.map_congr_left
    intro p hp
    rw [depthV h s n q f (Or.inr hf) p.1 (mem_boundaries_outer hp)]
    congr 2
    apply List.map_congr_left
    intro g hg
    rw [depthV h s n q f (Or.inr hf) g (mem_boundaries_hole hp hg)]
  rw [e]

theorem bloatH {polys : List PolyHoles} (h : RegularPolys polys) (w e : Int) (q : ℚ × ℚ) (f : Int × Int → Int × Int)
    (hf : ∀ E : List (Int × Int), E.map (fun v => (if v.2 < 0 then v.1 + e else if 0 < v.2 then v.1 - w else v.1, v.2)) = E.map f)
    (lo hi : Int) (hlen : |w + e| = hi - lo)
    (hdil : ∀ E, NoOpp E → (∀ z, 0 ≤ W E z) → (0 < W (E.map f) ⌊q.1⌋ ↔ ∃ z, lo ≤ z ∧ z ≤ hi ∧ 0 < W E z)) :
    0 < (polys.map (fun p => wind (mod w e 0 0 p.1) q +
        (p.2.map (fun h => if Small w e 0 0 h then 0 else wind (mod w e 0 0 h) q)).sum)).sum ↔
      ∃ z : Int, lo ≤ z ∧ z ≤ hi ∧ 0 < total polys (z, q.2) := by
  have hr : ∀ P ∈ boundaries polys, Rectilinear P := fun P hP => (h.boundary P hP).2.1
  have ht : ∀ z : Int, W ((boundaries polys).flatMap (evH ⌊q.2⌋)) z = total polys (z, q.2) := by
    intro z
    rw [← total_evH hr]; simp
  have hw : ∀ P ∈ boundaries polys, ∀ z : Int, W (evH ⌊q.2⌋ P) z = wind P ((z : ℚ), ((⌊q.2⌋ : Int) : ℚ)) :=
    fun P hP z => wind_evH (hr P hP) _ z
  have := bloat_generic polys (evH ⌊q.2⌋) f ⌊q.1⌋ lo hi (Small w e 0 0)
    (by
      intro P hP hs
      apply gapH (hr P hP)
      rcases hs with hs | hs
      · omega
      · have := extent_le (P.map Prod.snd); simp at hs; omega)
    hdil (noOpp_evH hr h.opposite _) (fun z => by rw [ht]; exact (h.once _).1)
    (fun p hp g hg z => by rw [hw g (mem_boundaries_hole hp hg)]; exact h.hole p hp g hg _)
  simp only [ht] at this
  rw [← this]
  have hd : ∀ P ∈ boundaries polys, wind (mod w e 0 0 P) q = W ((evH ⌊q.2⌋ P).map f) ⌊q.1⌋ := by
    intro P hP
    rw [wind_modH (h.boundary P hP), hf]
  have e' : (polys.map (fun p => wind (mod w e 0 0 p.1) q +
        (p.2.map (fun h => if Small w e 0 0 h then 0 else wind (mod w e 0 0 h) q)).sum)).sum =
      (polys.map (fun p => W ((evH ⌊q.2⌋ p.1).map f) ⌊q.1⌋ +
        (p.2.map (fun h => if Small w e 0 0 h then 0 else W ((evH ⌊q.2⌋ h).map f) ⌊q.1⌋)).sum)).sum := by
    congr 1
    apply List.map_congr_left
    intro p hp
    rw [hd p.1 (mem_boundaries_outer hp)]
    congr 2
    apply List.map_congr_left
    intro g hg
    rw [hd g (mem_boundaries_hole hp hg)]
  rw [e']

theorem shrinkV {polys : List PolyHoles} (h : RegularPolys polys) (s n : Int) (q : ℚ × ℚ) (f : Int × Int → Int × Int)
    (hf : ∀ E : List (Int × Int), E.map (fun e => (if e.2 < 0 then e.1 + -n else if 0 < e.2 then e.1 - -s else e.1, e.2)) = E.map f)
    (lo hi : Int) (hlen : |n + s| = hi - lo)
    (hero : ∀ E, NoOpp E → (∀ z, W E z ≤ 1) → (0 < W (E.map f) ⌊q.2⌋ ↔ ∀ z, lo ≤ z → z ≤ hi → 0 < W E z)) :
    0 < (polys.map (fun p => if Gone 0 0 s n p then 0 else
        ((p.1 :: p.2).map (fun h => wind (mod (-0) (-0) (-s) (-n) h) q)).sum)).sum ↔
      ∀ z : Int, lo ≤ z → z ≤ hi → 0 < total polys (q.1, z) := by
  have hr : ∀ P ∈ boundaries polys, Rectilinear P := fun P hP => (h.boundary P hP).2.1
  have ht : ∀ z : Int, W ((boundaries polys).flatMap (evV ⌊q.1⌋)) z = total polys (q.1, z) := by
    intro z
    rw [← total_evV hr]; simp
  have hw : ∀ P ∈ boundaries polys, ∀ z : Int, W (evV ⌊q.1⌋ P) z = wind P (((⌊q.1⌋ : Int) : ℚ), (z : ℚ)) :=
    fun P hP z => wind_evV (hr P hP) _ z
  have hd : ∀ P ∈ boundaries polys, wind (mod (-0) (-0) (-s) (-n) P) q = W ((evV ⌊q.1⌋ P).map f) ⌊q.2⌋ := by
    intro P hP
    rw [neg_zero, wind_modV (h.boundary P hP), hf]
  have := shrink_generic polys (evV ⌊q.1⌋) f ⌊q.2⌋ lo hi (Gone 0 0 s n)
    (by
      intro p hp hg
      rcases hg with hs | hl
      · obtain ⟨z, z1, z2, z3⟩ := gapV (hr p.1 (mem_boundaries_outer hp)) ⌊q.1⌋ lo hi (by
          rcases hs with hs | hs
          · have := extent_le (p.1.map Prod.fst); simp at hs; omega
          · rw [show -n + -s = -(n + s) by ring, abs_neg] at hs; omega)
        exact ⟨z, z1, z2, by omega⟩
      · have h0 : wind (mod (-0) (-0) (-s) (-n) p.1) q = 0 := by
          rw [← removeColinear_wind, wind_short hl (removeColinear_rect (mod_rect (h.boundary _ (mem_boundaries_outer hp)) _ _ _ _))]
        rw [hd p.1 (mem_boundaries_outer hp)] at h0
        have hE := hero (evV ⌊q.1⌋ p.1)
          (noOpp_sub (fun e he => List.mem_flatMap.mpr ⟨_, mem_boundaries_outer hp, he⟩) (noOpp_evV hr h.opposite ⌊q.1⌋))
          (fun z => by rw [hw _ (mem_boundaries_outer hp)]; exact h.outer p hp _)
        rw [h0] at hE
        by_contra g
        push Not at g
        exact absurd (hE.mpr g) (lt_irrefl _))
    hero (noOpp_evV hr h.opposite _) (fun z => by rw [ht]; exact (h.once _).2)
    (fun p hp g hg z => by rw [hw g (mem_boundaries_hole hp hg)]; exact h.hole p hp g hg _)
    (fun p hp z => by
      have e1 : p.2.map (fun g => W (evV ⌊q.1⌋ g) z) = p.2.map (fun g => wind g (((⌊q.1⌋ : Int) : ℚ), (z : ℚ))) :=
        List.map_congr_left (fun g hg => hw g (mem_boundaries_hole hp hg) z)
      rw [e1, hw _ (mem_boundaries_outer hp)]
      exact h.inside p hp _)
  simp only [ht] at this
  rw [← this]
  have e' : (polys.map (fun p => if Gone 0 0 s n p then 0 else
        ((p.1 :: p.2).map (fun h => wind (mod (-0) (-0) (-s) (-n) h) q)).sum)) =
      (polys.map (fun p => if Gone 0 0 s n p then 0 else ((p.1 :: p.2).map (fun h => W ((evV ⌊q.1⌋ h).map f) ⌊q.2⌋)).sum)) := by
    apply List.map_congr_left
    intro p hp
    congr 2
    apply List.map_congr_left
    intro g hg
    exact hd g (List.mem_flatMap.mpr ⟨p, hp, hg⟩)
  rw [e']

theorem shrinkH {polys : List PolyHoles} (h : RegularPolys polys) (w e : Int) (q : ℚ × ℚ) (f : Int × Int → Int × Int)
    (hf : ∀ E : List (Int × Int), E.map (fun v => (if v.2 < 0 then v.1 + -e else if 0 < v.2 then v.1 - -w else v.1, v.2)) = E.map f)
    (lo hi : Int) (hlen : |w + e| = hi - lo)
    (hero : ∀ E, NoOpp E → (∀ z, W E z ≤ 1) → (0 < W (E.map f) ⌊q.1⌋ ↔ ∀ z, lo ≤ z → z ≤ hi → 0 < W E z)) :
    0 < (polys.map (fun p => if Gone w e 0 0 p then 0 else
        ((p.1 :: p.2).map (fun h => wind (mod (-w) (-e) (-0) (-0) h) q)).sum)).sum ↔
      ∀ z : Int, lo ≤ z → z ≤ hi → 0 < total polys (z, q.2) := by
  have hr : ∀ P ∈ boundaries polys, Rectilinear P := fun P hP => (h.boundary P hP).2.1
  have ht : ∀ z : Int, W ((boundaries polys).flatMap (evH ⌊q.2⌋)) z = total polys (z, q.2) := by
    intro z
    rw [← total_evH hr]; simp
  have hw : ∀ P ∈ boundaries polys, ∀ z : Int, W (evH ⌊q.2⌋ P) z = wind P ((z : ℚ), ((⌊q.2⌋ : Int) : ℚ)) :=
    fun P hP z => wind_evH (hr P hP) _ z
  have hd : ∀ P ∈ boundaries polys, wind (mod (-w) (-e) (-0) (-0) P) q = W ((evH ⌊q.2⌋ P).map f) ⌊q.1⌋ := by
    intro P hP
    rw [neg_zero, wind_modH (h.boundary P hP), hf]
  have := shrink_generic polys (evH ⌊q.2⌋) f ⌊q.1⌋ lo hi (Gone w e 0 0)
    (by
      intro p hp hg
      rcases hg with hs | hl
      · obtain ⟨z, z1, z2, z3⟩ := gapH (hr p.1 (mem_boundaries_outer hp)) ⌊q.2⌋ lo hi (by
          rcases hs with hs | hs
          · rw [show -w + -e = -(w + e) by ring, abs_neg] at hs; omega
          · have := extent_le (p.1.map Prod.snd); simp at hs; omega)
        exact ⟨z, z1, z2, by omega⟩
      · have h0 : wind (mod (-w) (-e) (-0) (-0) p.1) q = 0 := by
          rw [← removeColinear_wind, wind_short hl (removeColinear_rect (mod_rect (h.boundary _ (mem_boundaries_outer hp)) _ _ _ _))]
        rw [hd p.1 (mem_boundaries_outer hp)] at h0
        have hE := hero (evH ⌊q.2⌋ p.1)
          (noOpp_sub (fun e he => List.mem_flatMap.mpr ⟨_, mem_boundaries_outer hp, he⟩) (noOpp_evH hr h.opposite ⌊q.2⌋))
          (fun z => by rw [hw _ (mem_boundaries_outer hp)]; exact h.outer p hp _)
        rw [h0] at hE
        by_contra g
        push Not at g
        exact absurd (hE.mpr g) (lt_irrefl _))
    hero (noOpp_evH hr h.opposite _) (fun z => by rw [ht]; exact (h.once _).2)
    (fun p hp g hg z => by rw [hw g (mem_boundaries_hole hp hg)]; exact h.hole p hp g hg _)
    (fun p hp z => by
      have e1 : p.2.map (fun g => W (evH ⌊q.2⌋ g) z) = p.2.map (fun g => wind g ((z : ℚ), ((⌊q.2⌋ : Int) : ℚ))) :=
        List.map_congr_left (fun g hg => hw g (mem_boundaries_hole hp hg) z)
      rw [e1, hw _ (mem_boundaries_outer hp)]
      exact h.inside p hp _)
  simp only [ht] at this
  rw [← this]
  have e' : (polys.map (fun p => if Gone w e 0 0 p then 0 else
        ((p.1 :: p.2).map (fun h => wind (mod (-w) (-e) (-0) (-0) h) q)).sum)) =
      (polys.map (fun p => if Gone w e 0 0 p then 0 else ((p.1 :: p.2).map (fun h => W ((evH ⌊q.2⌋ h).map f) ⌊q.1⌋)).sum)) := by
    apply List.map_congr_left
    intro p hp
    congr 2
    apply List.map_congr_left
    intro g hg
    exact hd g (List.mem_flatMap.mpr ⟨p, hp, hg⟩)
  rw [e']

theorem total_floor {polys : List PolyHoles} (x y : ℚ) : total polys (x, y) = total polys (x, ((⌊y⌋ : Int) : ℚ)) ∧
    total polys (x, y) = total polys (((⌊x⌋ : Int) : ℚ), y) := by
  simp only [total, wind_eq, Int.floor_intCast, and_self]

end Verif.ResizePoly
