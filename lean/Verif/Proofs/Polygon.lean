import Verif.Model.Polygon
import Verif.Spec.Polygon
import Verif.Proofs.Set90Ops
import Mathlib.Algebra.BigOperators.Group.List.Lemmas
import Mathlib.Tactic.Ring
import Mathlib.Tactic.Linarith
/-! # Helper lemmas for polygons -/
namespace Verif.Polygon
open Verif.BooleanOp Verif.Set90 Verif.Isotropy Verif.Machine Verif.Spec

/-- Consecutive pairs of a path. -/
def pairs {α : Type*} : List α → List (α × α)
  | a :: b :: r => (a, b) :: pairs (b :: r)
  | _ => []

theorem zip_pairs {α : Type*} (a : α) (r : List α) (z : α) : (a :: r).zip (r ++ [z]) = pairs (a :: r ++ [z]) := by
  induction r generalizing a with
  | nil => rfl
  | cons b r ih => simp only [List.cons_append, List.zip_cons_cons, pairs]; rw [← List.cons_append, ← ih b]

theorem edges_cons (p : Int × Int) (r : List (Int × Int)) : edges (p :: r) = pairs (p :: r ++ [p]) := by
  rw [edges, List.rotate_cons_succ, List.rotate_zero, zip_pairs]

theorem pairs_concat {α : Type*} (L : List α) (u v : α) : pairs (L ++ [u, v]) = pairs (L ++ [u]) ++ [(u, v)] := by
  induction L with
  | nil => rfl
  | cons a L ih =>
    cases L with
    | nil => rfl
    | cons b L => simp only [List.cons_append, pairs] at *; rw [ih]

theorem edges_rotate1 (P : List (Int × Int)) : (edges (P.rotate 1)).Perm (edges P) := by
  match P with
  | [] => exact List.Perm.refl _
  | [p] => rw [show [p].rotate 1 = [p] by simp]
  | p :: q :: r =>
    rw [List.rotate_cons_succ, List.rotate_zero, List.cons_append, edges_cons, edges_cons]
    have h : q :: (r ++ [p]) ++ [q] = (q :: r) ++ [p, q] := by simp
    rw [h, pairs_concat]
    have h2 : pairs (p :: q :: r ++ [p]) = (p, q) :: pairs (q :: r ++ [p]) := rfl
    rw [h2]
    exact List.perm_append_singleton _ _

theorem edges_rotate (P : List (Int × Int)) (k : Nat) : (edges (P.rotate k)).Perm (edges P) := by
  induction k with
  | zero => simp
  | succ k ih => rw [← List.rotate_rotate]; exact (edges_rotate1 _).trans ih

theorem pairs_reverse {α : Type*} (L : List α) : pairs L.reverse = ((pairs L).map Prod.swap).reverse := by
  match L with
  | [] => rfl
  | [a] => rfl
  | a :: b :: r =>
    have ih := pairs_reverse (b :: r)
    simp only [List.reverse_cons, List.append_assoc, pairs, List.map_cons] at *
    rw [show r.reverse ++ ([b] ++ [a]) = r.reverse ++ [b, a] from rfl, pairs_concat, ih]; rfl

theorem edges_reverse (P : List (Int × Int)) : (edges P.reverse).Perm ((edges P).map Prod.swap) := by
  match P with
  | [] => exact List.Perm.refl _
  | p :: r =>
    have h : (p :: r).reverse = (p :: r.reverse).rotate 1 := by simp
    rw [h]
    refine (edges_rotate1 _).trans ?_
    rw [edges_cons, edges_cons]
    have h2 : p :: r.reverse ++ [p] = (p :: r ++ [p]).reverse := by simp
    rw [h2, pairs_reverse]
    exact List.reverse_perm _

theorem pairs_map {α β : Type*} (f : α → β) (L : List α) : pairs (L.map f) = (pairs L).map (Prod.map f f) := by
  match L with
  | [] => rfl
  | [a] => rfl
  | a :: b :: r => have ih := pairs_map f (b :: r); simp only [List.map_cons, pairs] at *; rw [ih]; rfl

theorem edges_map (f : Int × Int → Int × Int) (P : List (Int × Int)) : edges (P.map f) = (edges P).map (Prod.map f f) := by
  match P with
  | [] => rfl
  | p :: r =>
    rw [List.map_cons, edges_cons, edges_cons, ← pairs_map]; simp

/-- Differences of a function along a path telescope. -/
theorem pairs_telescope {α β : Type*} [AddCommGroup β] (f : α → β) (a z : α) (r : List α) :
    ((pairs (a :: r ++ [z])).map (fun e => f e.2 - f e.1)).sum = f z - f a := by
  induction r generalizing a with
  | nil => simp [pairs]
  | cons b r ih => simp only [List.cons_append, pairs, List.map_cons, List.sum_cons] at *; rw [ih]; abel

theorem edges_telescope {β : Type*} [AddCommGroup β] (f : Int × Int → β) (P : List (Int × Int)) :
    ((edges P).map (fun e => f e.2 - f e.1)).sum = 0 := by
  match P with
  | [] => rfl
  | p :: r => rw [edges_cons, pairs_telescope]; simp

/-! ### area -/

theorem areaGoQ_eq (first prev : Int × Int) (r : List (Int × Int)) (acc : ℚ) :
    areaGoQ first prev r acc = acc + ((pairs (prev :: r ++ [first])).map (fun e => areaTermQ first.2 e.1 e.2)).sum := by
  induction r generalizing prev acc with
  | nil =>
    simp only [areaGoQ, List.cons_append, List.nil_append, pairs, List.map_cons, List.map_nil, List.sum_cons, List.sum_nil]
    split_ifs with h
    · simp
    · push Not at h; rw [h]; simp [areaTermQ]
  | cons p r ih =>
    simp only [areaGoQ, List.cons_append, pairs, List.map_cons, List.sum_cons] at *
    rw [ih]
    split_ifs with h
    · ring
    · push Not at h; simp [areaTermQ, h]

theorem areaGo_eq (first prev : Int × Int) (r : List (Int × Int)) (acc : Int) :
    areaGo first prev r acc = acc + ((pairs (prev :: r ++ [first])).map (fun e => areaTerm first.2 e.1 e.2)).sum := by
  induction r generalizing prev acc with
  | nil =>
    simp only [areaGo, List.cons_append, List.nil_append, pairs, List.map_cons, List.map_nil, List.sum_cons, List.sum_nil]
    split_ifs with h
    · simp
    · push Not at h; rw [h]; simp [areaTerm]
  | cons p r ih =>
    simp only [areaGo, List.cons_append, pairs, List.map_cons, List.sum_cons] at *
    rw [ih]
    split_ifs with h
    · ring
    · push Not at h; simp [areaTerm, h]

theorem two_areaQ (P : List (Int × Int)) : 2 * areaQ P = -(shoelace P : ℚ) := by
  match P with
  | [] => simp [areaQ, shoelace, edges]
  | p :: r =>
    rw [areaQ, areaGoQ_eq, ← edges_cons, shoelace]
    have h := edges_telescope (fun q : Int × Int => (q.1 : ℚ) * q.2 - 2 * p.2 * q.1) (p :: r)
    have key : 2 * ((edges (p :: r)).map (fun e => areaTermQ p.2 e.1 e.2)).sum =
        ((edges (p :: r)).map (fun e : (Int × Int) × (Int × Int) => (fun q : Int × Int => (q.1 : ℚ) * q.2 - 2 * p.2 * q.1) e.2 -
          (fun q : Int × Int => (q.1 : ℚ) * q.2 - 2 * p.2 * q.1) e.1)).sum -
        (((edges (p :: r)).map (fun e => e.1.1 * e.2.2 - e.2.1 * e.1.2)).sum : Int) := by
      generalize edges (p :: r) = E
      induction E with
      | nil => simp
      | cons e E ih =>
        simp only [List.map_cons, List.sum_cons, mul_add] at *
        rw [ih, areaTermQ]; push_cast; ring
    rw [zero_add, key, h]; ring

theorem areaTerm_rect (yb : Int) (a b : Int × Int) (h : a.1 = b.1 ∨ a.2 = b.2) :
    (areaTerm yb a b : ℚ) = areaTermQ yb a b := by
  unfold areaTerm areaTermQ
  rcases h with h | h
  · simp [h]
  · rw [h]
    have : (b.1 - a.1) * (b.2 - yb + (b.2 - yb)) = 2 * ((b.1 - a.1) * (b.2 - yb)) := by ring
    rw [this, Int.mul_tdiv_cancel_left _ (by norm_num)]
    push_cast; ring

theorem area90_rect (P : List (Int × Int)) (h : Rectilinear P) : (area90 P : ℚ) = areaQ P := by
  match P with
  | [] => simp [area90, areaQ]
  | p :: r =>
    rw [area90, areaQ, areaGoQ_eq, areaGo_eq, zero_add, zero_add]
    rw [Rectilinear, edges_cons] at h
    revert h
    generalize pairs (p :: r ++ [p]) = E
    intro h
    induction E with
    | nil => simp
    | cons e E ih =>
      simp only [List.map_cons, List.sum_cons]
      push_cast
      rw [areaTerm_rect _ _ _ (h e (by simp)), ih (fun e he => h e (by simp [he]))]

theorem two_area90 (P : List (Int × Int)) (h : Rectilinear P) : 2 * area90 P = -shoelace P := by
  have h1 := area90_rect P h
  have h2 := two_areaQ P
  rw [← h1] at h2
  exact_mod_cast h2

theorem shoelace_perm {P Q : List (Int × Int)} (h : (edges P).Perm (edges Q)) : shoelace P = shoelace Q :=
  (h.map _).sum_eq

theorem shoelace_reverse (P : List (Int × Int)) : shoelace P.reverse = -shoelace P := by
  rw [shoelace, ((edges_reverse P).map _).sum_eq, shoelace, List.map_map]
  generalize edges P = E
  induction E with
  | nil => rfl
  | cons e E ih => simp only [List.map_cons, List.sum_cons, Function.comp, Prod.swap] at *; rw [ih]; ring

theorem shoelace_translate (P : List (Int × Int)) (dx dy : Int) :
    shoelace (P.map (fun p => (p.1 + dx, p.2 + dy))) = shoelace P := by
  rw [shoelace, edges_map, shoelace, List.map_map]
  have h := edges_telescope (fun q : Int × Int => dx * q.2 - dy * q.1) P
  have key : ((edges P).map ((fun e : (Int × Int) × (Int × Int) => e.1.1 * e.2.2 - e.2.1 * e.1.2) ∘
        Prod.map (fun p : Int × Int => (p.1 + dx, p.2 + dy)) (fun p => (p.1 + dx, p.2 + dy)))).sum =
      ((edges P).map (fun e => e.1.1 * e.2.2 - e.2.1 * e.1.2)).sum +
      ((edges P).map (fun e : (Int × Int) × (Int × Int) => (fun q : Int × Int => dx * q.2 - dy * q.1) e.2 -
        (fun q : Int × Int => dx * q.2 - dy * q.1) e.1)).sum := by
    generalize edges P = E
    induction E with
    | nil => rfl
    | cons e E ih => simp only [List.map_cons, List.sum_cons, Function.comp, Prod.map] at *; rw [ih]; ring
  rw [key, h, add_zero]

theorem edges_close (p : Int × Int) (r : List (Int × Int)) : edges (p :: r ++ [p]) = edges (p :: r) ++ [(p, p)] := by
  rw [List.cons_append, edges_cons, edges_cons]
  have : p :: (r ++ [p]) ++ [p] = (p :: r) ++ [p, p] := by simp
  rw [this, pairs_concat]

theorem shoelace_close (p : Int × Int) (r : List (Int × Int)) : shoelace (p :: r ++ [p]) = shoelace (p :: r) := by
  rw [shoelace, edges_close, shoelace]; simp

theorem rectilinear_perm {P Q : List (Int × Int)} (h : (edges P).Perm (edges Q)) (hp : Rectilinear P) : Rectilinear Q :=
  fun e he => hp e (h.mem_iff.mpr he)

theorem rectilinear_reverse {P : List (Int × Int)} (hp : Rectilinear P) : Rectilinear P.reverse := by
  intro e he
  rw [(edges_reverse P).mem_iff, List.mem_map] at he
  obtain ⟨f, hf, rfl⟩ := he
  rcases hp f hf with h | h <;> simp [h]

/-! ### 64-bit area -/

theorem tdiv2 (z : Int) : z.tdiv 2 = if 0 ≤ z then z / 2 else -(-z / 2) := by
  split_ifs with h
  · exact Int.tdiv_eq_ediv_of_nonneg h
  · have : z = -(-z) := by ring
    rw [this, Int.neg_tdiv, Int.tdiv_eq_ediv_of_nonneg (by omega)]; simp

theorem areaGo64_eq (M : Int) (hM : 0 ≤ M) (first prev : Int × Int) (r : List (Int × Int)) (acc B : Int)
    (hb : ∀ p ∈ first :: prev :: r, |p.1| ≤ M ∧ |p.2| ≤ M) (hacc : |acc| ≤ B)
    (hB : B + (r.length + 1) * (8 * M ^ 2) < 2 ^ 63) :
    areaGo64 first prev r acc = some (areaGo first prev r acc) := by
  have small : M ^ 2 < 2 ^ 60 := by
    have : (0:Int) ≤ r.length := by positivity
    have : 0 ≤ B := le_trans (abs_nonneg _) hacc
    nlinarith [sq_nonneg M]
  have hM30 : M < 2 ^ 30 := by nlinarith
  have term (a b : Int × Int) (f : Int × Int) (ha : |a.1| ≤ M ∧ |a.2| ≤ M) (hb : |b.1| ≤ M ∧ |b.2| ≤ M)
      (hf : |f.1| ≤ M ∧ |f.2| ≤ M) (hp : 8 * M ^ 2 < 2 ^ 63) :
      areaTerm64 f.2 a b = some (areaTerm f.2 a b) ∧ |areaTerm f.2 a b| ≤ 8 * M ^ 2 := by
    simp only [abs_le] at ha hb hf
    have hm : |(b.1 - a.1) * (b.2 - f.2 + (a.2 - f.2))| ≤ 8 * M ^ 2 := by
      rw [abs_mul]
      have h1 : |b.1 - a.1| ≤ 2 * M := by rw [abs_le]; omega
      have h2 : |b.2 - f.2 + (a.2 - f.2)| ≤ 4 * M := by rw [abs_le]; omega
      nlinarith [abs_nonneg (b.1 - a.1), abs_nonneg (b.2 - f.2 + (a.2 - f.2))]
    have hm' := abs_le.mp hm
    constructor
    · unfold areaTerm64 areaTerm
      rw [i64_some (by omega), i64_some (by omega), i64_some (by omega)]
      simp only [Option.bind_eq_bind, Option.bind_some]
      rw [i64_some (by omega)]
      simp only [Option.bind_some]
      rw [i64_some (by omega)]
      rfl
    · unfold areaTerm
      rw [abs_le, tdiv2]
      split_ifs <;> omega
  induction r generalizing prev acc B with
  | nil =>
    have h1 := hb first (by simp)
    have h2 := hb prev (by simp)
    simp only [List.length_nil, Nat.cast_zero, zero_add, one_mul] at hB
    have := abs_le.mp hacc
    obtain ⟨e, l⟩ := term prev first first h2 h1 h1 (by omega)
    have l' := abs_le.mp l
    simp only [areaGo64, areaGo]
    split_ifs with h
    · rw [e]; simp only [Option.bind_eq_bind, Option.bind_some]; rw [i64_some (by omega)]
    · rfl
  | cons p r ih =>
    have h1 := hb first (by simp)
    have h2 := hb prev (by simp)
    have h3 := hb p (by simp)
    have hsq : 0 ≤ M ^ 2 := sq_nonneg M
    simp only [List.length_cons, Nat.cast_add, Nat.cast_one] at hB
    have hr : (0:Int) ≤ r.length := by positivity
    have hB2 : B + 8 * M ^ 2 + (r.length + 1) * (8 * M ^ 2) < 2 ^ 63 := by linarith
    have := abs_le.mp hacc
    have hBM : B + 8 * M ^ 2 < 2 ^ 63 := by nlinarith
    obtain ⟨e, l⟩ := term prev p first h2 h3 h1 (by omega)
    have l' := abs_le.mp l
    have hb' : ∀ q ∈ first :: p :: r, |q.1| ≤ M ∧ |q.2| ≤ M := by
      intro q hq
      apply hb
      simp only [List.mem_cons] at hq ⊢
      tauto
    simp only [areaGo64, areaGo]
    split_ifs with h
    · rw [e]
      simp only [Option.bind_eq_bind, Option.bind_some]
      rw [i64_some (by omega)]
      simp only [Option.bind_some]
      exact ih p _ (B + 8 * M ^ 2) hb' (by rw [abs_le]; omega) hB2
    · simp only [Option.bind_eq_bind, Option.bind_some]
      exact ih p _ (B + 8 * M ^ 2) hb' (by rw [abs_le]; omega) hB2

end Verif.Polygon
