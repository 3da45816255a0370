import Verif.Proofs.Polygon
import Verif.Proofs.PolySet
import Verif.Spec.ArbForm
import Mathlib.Algebra.Order.BigOperators.Group.Finset
import Mathlib.Algebra.BigOperators.Group.List.Basic
import Mathlib.Algebra.BigOperators.Intervals
import Mathlib.Algebra.Order.Floor.Ring
import Mathlib.Data.Rat.Floor
import Mathlib.Data.List.Sort
import Mathlib.Tactic.Ring
import Mathlib.Tactic.Linarith
import Mathlib.Tactic.FieldSimp
/-!
# The sign of the area of outlines follows from their winding numbers

The plane is cut into slabs of width 1 between lattice abscissas. In a slab every edge is a straight line; the sum of the heights of the edges, each
with its direction, is linear in the abscissa, and by summation by parts it has the opposite sign of the windings.
-/
namespace Verif.PolyArea
open Verif.Spec Verif.Spec.Arb

/-! ### Summation by parts -/

def below (L : List (ℚ × Int)) (y : ℚ) : Int := (L.map (fun a => if a.1 ≤ y then a.2 else 0)).sum
def moment (L : List (ℚ × Int)) : ℚ := (L.map (fun a => (a.2 : ℚ) * a.1)).sum
def net (L : List (ℚ × Int)) : Int := (L.map Prod.snd).sum

theorem below_none {L : List (ℚ × Int)} {y : ℚ} (h : ∀ a ∈ L, y < a.1) : below L y = 0 := by
  induction L with
  | nil => rfl
  | cons a L ih =>
    have := ih (fun b hb => h b (List.mem_cons_of_mem _ hb))
    unfold below at *
    rw [List.map_cons, List.sum_cons, this, if_neg (not_le.2 (h a List.mem_cons_self))]; rfl

theorem abel (L : List (ℚ × Int)) : ∀ (S : Int) (y0 : ℚ), L.Pairwise (fun a b => a.1 ≤ b.1) → (∀ a ∈ L, y0 ≤ a.1) →
    S + net L = 0 → (∀ y, y0 ≤ y → 0 ≤ S + below L y) →
    (S : ℚ) * y0 + moment L ≤ 0 ∧ ((∃ y, y0 ≤ y ∧ 0 < S + below L y) → (S : ℚ) * y0 + moment L < 0) := by
  induction L with
  | nil =>
    intro S y0 _ _ h0 _
    have : S = 0 := by simpa [net] using h0
    subst this
    exact ⟨by simp [moment], fun ⟨y, _, h⟩ => by simp [below] at h⟩
  | cons a L ih =>
    intro S y0 hs hy h0 hp
    rw [List.pairwise_cons] at hs
    have hb : ∀ y, a.1 ≤ y → S + below (a :: L) y = (S + a.2) + below L y := by
      intro y hy
      unfold below
      rw [List.map_cons, List.sum_cons, if_pos hy]; ring
    have hz : ∀ y, y < a.1 → below (a :: L) y = 0 := fun y hy =>
      below_none (fun b hb => by
        rcases List.mem_cons.1 hb with rfl | hb
        · exact hy
        · exact lt_of_lt_of_le hy (hs.1 b hb))
    have hay := hy a List.mem_cons_self
    obtain ⟨i1, i2⟩ := ih (S + a.2) a.1 hs.2 hs.1 (by unfold net at *; rw [List.map_cons, List.sum_cons] at h0; omega)
      (fun y h => by rw [← hb y h]; exact hp y (le_trans hay h))
    have e : moment (a :: L) = (a.2 : ℚ) * a.1 + moment L := by unfold moment; rw [List.map_cons, List.sum_cons]
    push_cast at i1 i2
    have hS : (S : ℚ) * y0 ≤ S * a.1 := by
      rcases eq_or_lt_of_le hay with h | h
      · rw [h]
      · have : 0 ≤ S := by have := hp y0 le_rfl; rw [hz y0 h] at this; omega
        exact mul_le_mul_of_nonneg_left hay (by exact_mod_cast this)
    refine ⟨by rw [e]; linarith, fun ⟨y, h1, h2⟩ => ?_⟩
    by_cases c : a.1 ≤ y
    · have := i2 ⟨y, c, by rw [← hb y c]; exact h2⟩
      rw [e]; linarith
    · have c' := not_le.1 c
      rw [hz y c'] at h2
      have : (0 : ℚ) < S := by exact_mod_cast (by omega : 0 < S)
      have := mul_lt_mul_of_pos_left (lt_of_le_of_lt h1 c') this
      rw [e]; linarith

theorem moment_neg (L : List (ℚ × Int)) (h0 : net L = 0) (hp : ∀ y, 0 ≤ below L y) :
    moment L ≤ 0 ∧ ((∃ y, 0 < below L y) → moment L < 0) := by
  have hP : (L.mergeSort (fun a b => decide (a.1 ≤ b.1))).Perm L := List.mergeSort_perm L _
  have hs : (L.mergeSort (fun a b => decide (a.1 ≤ b.1))).Pairwise (fun a b => a.1 ≤ b.1) := by
    have := List.pairwise_mergeSort (le := fun (a b : ℚ × Int) => decide (a.1 ≤ b.1))
      (fun a b c h1 h2 => by simp only [decide_eq_true_eq] at *; exact le_trans h1 h2)
      (fun a b => by simp only [Bool.or_eq_true, decide_eq_true_eq]; exact le_total _ _) L
    exact this.imp (fun h => by simpa using h)
  generalize L.mergeSort (fun a b => decide (a.1 ≤ b.1)) = M at hP hs
  have e1 : moment M = moment L := (hP.map _).sum_eq
  have e2 : ∀ y, below M y = below L y := fun y => (hP.map _).sum_eq
  have e3 : net M = net L := (hP.map _).sum_eq
  cases M with
  | nil =>
    have : L = [] := hP.nil_eq.symm
    subst this
    exact ⟨by simp [moment], fun ⟨y, h⟩ => by simp [below] at h⟩
  | cons a M =>
    have ha := List.pairwise_cons.1 hs
    obtain ⟨i1, i2⟩ := abel (a :: M) 0 a.1 hs (fun b hb => by
      rcases List.mem_cons.1 hb with rfl | hb
      · exact le_rfl
      · exact ha.1 b hb) (by rw [e3, h0]; rfl) (fun y _ => by rw [e2]; simpa using hp y)
    rw [e1] at i1 i2
    refine ⟨by simpa using i1, fun ⟨y, h⟩ => ?_⟩
    have := i2 ⟨y, ?_, by rw [e2]; simpa using h⟩
    · simpa using this
    · by_contra c
      rw [← e2, below_none (fun b hb => ?_)] at h
      · exact absurd h (lt_irrefl _)
      · rcases List.mem_cons.1 hb with rfl | hb
        · exact not_le.1 c
        · exact lt_of_lt_of_le (not_le.1 c) (ha.1 b hb)

/-! ### Slabs -/

/-- The direction in which the edge passes the slab `[k, k + 1)`. -/
def pass (k : Int) (e : Edge) : Int := (if e.1.1 ≤ k then 1 else 0) - (if e.2.1 ≤ k then 1 else 0)

theorem crossing_pass {k : Int} {q : ℚ × ℚ} (h1 : (k : ℚ) ≤ q.1) (h2 : q.1 < k + 1) (e : Edge) :
    crossing q e = if lineY e.1 e.2 q.1 ≤ q.2 then pass k e else 0 := by
  have key : ∀ x : Int, ((x : ℚ) ≤ q.1 ↔ x ≤ k) ∧ (q.1 < x ↔ k < x) := by
    intro x
    have a : (x : ℚ) ≤ q.1 ↔ x ≤ k := by
      constructor
      · intro h
        have : (x : ℚ) < k + 1 := lt_of_le_of_lt h h2
        have : x < k + 1 := by exact_mod_cast this
        omega
      · intro h
        exact le_trans (by exact_mod_cast h) h1
    exact ⟨a, by rw [← not_le, a]; omega⟩
  unfold crossing pass
  simp only [(key _).1, (key _).2]
  by_cases l : lineY e.1 e.2 q.1 ≤ q.2
  · simp only [l, and_true, if_true]; split_ifs <;> omega
  · simp only [l, and_false, if_false]

/-- The edges as heights over the abscissa, with their directions in the slab. -/
def heights (k : Int) (t : ℚ) (E : List Edge) : List (ℚ × Int) := E.map (fun e => (lineY e.1 e.2 t, pass k e))

theorem below_heights {k : Int} {q : ℚ × ℚ} (h1 : (k : ℚ) ≤ q.1) (h2 : q.1 < k + 1) (E : List Edge) :
    below (heights k q.1 E) q.2 = (E.map (crossing q)).sum := by
  unfold below heights
  rw [List.map_map]
  congr 1
  apply List.map_congr_left
  intro e _
  rw [crossing_pass h1 h2]; rfl

/-- The sum of the directed heights at the abscissa. -/
def alt (k : Int) (E : List Edge) (t : ℚ) : ℚ := (E.map (fun e => (pass k e : ℚ) * lineY e.1 e.2 t)).sum

theorem alt_moment (k : Int) (E : List Edge) (t : ℚ) : alt k E t = moment (heights k t E) := by
  unfold alt moment heights; rw [List.map_map]; rfl

theorem alt_affine (k : Int) (E : List Edge) : ∃ a b : ℚ, ∀ t, alt k E t = a + b * t := by
  induction E with
  | nil => exact ⟨0, 0, fun t => by simp [alt]⟩
  | cons e E ih =>
    obtain ⟨a, b, h⟩ := ih
    refine ⟨pass k e * (e.1.2 - (e.2.2 - e.1.2) * e.1.1 / (e.2.1 - e.1.1)) + a, pass k e * ((e.2.2 - e.1.2) / (e.2.1 - e.1.1)) + b, fun t => ?_⟩
    have : alt k (e :: E) t = pass k e * lineY e.1 e.2 t + alt k E t := by unfold alt; rw [List.map_cons, List.sum_cons]
    rw [this, h]; unfold lineY; ring

/-- The edges form closed curves as far as slabs see it. -/
def Shut (E : List Edge) : Prop := ∀ k, (E.map (pass k)).sum = 0

theorem alt_neg {E : List Edge} (hE : Shut E) (hp : ∀ q, 0 ≤ (E.map (crossing q)).sum) (k : Int) {t : ℚ} (h1 : (k : ℚ) ≤ t) (h2 : t < k + 1) :
    alt k E t ≤ 0 ∧ ((∃ y, 0 < (E.map (crossing (t, y))).sum) → alt k E t < 0) := by
  rw [alt_moment]
  have := moment_neg (heights k t E) (by have := hE k; unfold net heights; rw [List.map_map]; exact this)
    (fun y => by rw [below_heights (q := (t, y)) h1 h2]; exact hp (t, y))
  refine ⟨this.1, fun ⟨y, h⟩ => this.2 ⟨y, ?_⟩⟩
  rw [below_heights (q := (t, y)) h1 h2]; exact h

/-- The middle of a slab. -/
theorem alt_mid {E : List Edge} (hE : Shut E) (hp : ∀ q, 0 ≤ (E.map (crossing q)).sum) (k : Int) :
    alt k E (k + 1 / 2) ≤ 0 ∧ ((∃ q : ℚ × ℚ, (k : ℚ) ≤ q.1 ∧ q.1 < k + 1 ∧ 0 < (E.map (crossing q)).sum) → alt k E (k + 1 / 2) < 0) := by
  have h0 := alt_neg hE hp k (t := k + 1 / 2) (by linarith) (by linarith)
  refine ⟨h0.1, fun ⟨q, q1, q2, q3⟩ => ?_⟩
  have hq := (alt_neg hE hp k q1 q2).2 ⟨q.2, q3⟩
  by_contra c
  have e : alt k E (k + 1 / 2) = 0 := le_antisymm h0.1 (not_lt.1 c)
  obtain ⟨a, b, h⟩ := alt_affine k E
  have l1 := (alt_neg hE hp k (t := k) le_rfl (by linarith)).1
  have l2 := (alt_neg hE hp k (t := k + 3 / 4) (by linarith) (by linarith)).1
  rw [h] at e hq l1 l2
  have b1 : 0 ≤ b := by linarith
  have b2 : b ≤ 0 := by linarith
  have b0 : b = 0 := le_antisymm b2 b1
  subst b0
  linarith

/-! ### The area by slabs -/

/-- Twice the signed area under the edges. -/
def twice (E : List Edge) : ℚ := (E.map (fun e => ((e.1.1 : ℚ) - e.2.1) * (e.1.2 + e.2.2))).sum

theorem line_sum (a b : ℚ) (m : Int) (n : Nat) : (∑ i ∈ Finset.range n, (a + b * ((m + i : Int) + 1 / 2 : ℚ))) = n * a + b * (n * m + n * n / 2) := by
  induction n with
  | zero => simp
  | succ n ih => rw [Finset.sum_range_succ, ih]; push_cast; ring

/-- Sum over the slabs of an interval. -/
def slabs (m : Int) (n : Nat) (f : Int → ℚ) : ℚ := ∑ i ∈ Finset.range n, f (m + i)

theorem slabs_part (m : Int) (n : Nat) (u v : Int) (hu : m ≤ u) (huv : u ≤ v) (hv : v ≤ m + n) (f : Int → ℚ) :
    slabs m n (fun k => if u ≤ k ∧ k < v then f k else 0) = ∑ i ∈ Finset.range (v - u).toNat, f (u + i) := by
  obtain ⟨c, hc⟩ := Int.eq_ofNat_of_zero_le (show 0 ≤ u - m by omega)
  obtain ⟨d, hd⟩ := Int.eq_ofNat_of_zero_le (show 0 ≤ v - u by omega)
  obtain ⟨r, hr⟩ := Int.eq_ofNat_of_zero_le (show 0 ≤ m + n - v by omega)
  have hn : n = c + d + r := by omega
  have hvu : (v - u).toNat = d := by omega
  subst hn
  unfold slabs
  rw [hvu, Finset.sum_range_add, Finset.sum_range_add]
  have z1 : ∑ x ∈ Finset.range c, (if u ≤ m + (x : Int) ∧ m + (x : Int) < v then f (m + x) else 0) = 0 :=
    Finset.sum_eq_zero (fun x hx => by have := Finset.mem_range.1 hx; rw [if_neg (by omega)])
  have z2 : ∑ x ∈ Finset.range r, (if u ≤ m + ((c + d + x : Nat) : Int) ∧ m + ((c + d + x : Nat) : Int) < v then f (m + ((c + d + x : Nat) : Int)) else 0) = 0 :=
    Finset.sum_eq_zero (fun x hx => by rw [if_neg (by push_cast; omega)])
  rw [z1, z2, zero_add, add_zero]
  refine Finset.sum_congr rfl fun x hx => ?_
  have := Finset.mem_range.1 hx
  dsimp only
  rw [if_pos (by push_cast; omega)]
  congr 1; push_cast; omega

theorem edge_slabs (m : Int) (n : Nat) (e : Edge) (h1 : m ≤ e.1.1) (h2 : m ≤ e.2.1) (h3 : e.1.1 ≤ m + n) (h4 : e.2.1 ≤ m + n) :
    ((e.1.1 : ℚ) - e.2.1) * (e.1.2 + e.2.2) = -2 * slabs m n (fun k => (pass k e : ℚ) * lineY e.1 e.2 (k + 1 / 2)) := by
  obtain ⟨⟨x1, y1⟩, ⟨x2, y2⟩⟩ := e
  dsimp only at *
  rcases lt_trichotomy x1 x2 with h | h | h
  · have e1 : slabs m n (fun k => (pass k ((x1, y1), (x2, y2)) : ℚ) * lineY (x1, y1) (x2, y2) (k + 1 / 2)) =
        slabs m n (fun k => if x1 ≤ k ∧ k < x2 then lineY (x1, y1) (x2, y2) (k + 1 / 2) else 0) := by
      unfold slabs
      refine Finset.sum_congr rfl fun i _ => ?_
      unfold pass; dsimp only
      split_ifs <;> first | omega | simp
    obtain ⟨d, hd⟩ := Int.eq_ofNat_of_zero_le (show 0 ≤ x2 - x1 by omega)
    have hx : x2 = x1 + d := by omega
    have hd0 : (d : ℚ) ≠ 0 := by have : d ≠ 0 := by omega
                                 exact_mod_cast this
    rw [e1, slabs_part m n x1 x2 h1 (le_of_lt h) h4, show (x2 - x1).toNat = d by omega]
    have e2 : ∀ k : Int, lineY (x1, y1) (x2, y2) (k + 1 / 2) = ((y1 : ℚ) - (y2 - y1) * x1 / d) + ((y2 : ℚ) - y1) / d * (k + 1 / 2) := by
      intro k; unfold lineY; subst hx; push_cast; rw [add_sub_cancel_left]; ring
    simp only [e2]
    rw [line_sum]
    subst hx
    push_cast
    field_simp
    ring
  · subst h
    have : slabs m n (fun k => (pass k ((x1, y1), (x1, y2)) : ℚ) * lineY (x1, y1) (x1, y2) (k + 1 / 2)) = 0 := by
      unfold slabs
      exact Finset.sum_eq_zero (fun i _ => by unfold pass; simp)
    rw [this]; ring
  · have e1 : slabs m n (fun k => (pass k ((x1, y1), (x2, y2)) : ℚ) * lineY (x1, y1) (x2, y2) (k + 1 / 2)) =
        slabs m n (fun k => if x2 ≤ k ∧ k < x1 then -lineY (x1, y1) (x2, y2) (k + 1 / 2) else 0) := by
      unfold slabs
      refine Finset.sum_congr rfl fun i _ => ?_
      unfold pass; dsimp only
      split_ifs <;> first | omega | simp
    obtain ⟨d, hd⟩ := Int.eq_ofNat_of_zero_le (show 0 ≤ x1 - x2 by omega)
    have hx : x1 = x2 + d := by omega
    have hd0 : (d : ℚ) ≠ 0 := by have : d ≠ 0 := by omega
                                 exact_mod_cast this
    rw [e1, slabs_part m n x2 x1 h2 (le_of_lt h) h3, show (x1 - x2).toNat = d by omega]
    have e2 : ∀ k : Int, -lineY (x1, y1) (x2, y2) (k + 1 / 2) = (-(y1 : ℚ) - (y2 - y1) * x1 / d) + ((y2 : ℚ) - y1) / d * (k + 1 / 2) := by
      intro k; unfold lineY; subst hx; push_cast
      rw [show (x2 : ℚ) - (x2 + d) = -d by ring]
      field_simp
      ring
    simp only [e2]
    rw [line_sum]
    subst hx
    push_cast
    field_simp
    ring

theorem twice_slabs (m : Int) (n : Nat) (E : List Edge) (h : ∀ e ∈ E, m ≤ e.1.1 ∧ m ≤ e.2.1 ∧ e.1.1 ≤ m + n ∧ e.2.1 ≤ m + n) :
    twice E = -2 * slabs m n (fun k => alt k E (k + 1 / 2)) := by
  induction E with
  | nil => simp [twice, alt, slabs]
  | cons e E ih =>
    have := ih (fun b hb => h b (List.mem_cons_of_mem _ hb))
    obtain ⟨a1, a2, a3, a4⟩ := h e List.mem_cons_self
    unfold twice at *
    rw [List.map_cons, List.sum_cons, this, edge_slabs m n e a1 a2 a3 a4, ← mul_add]
    congr 1
    unfold slabs
    rw [← Finset.sum_add_distrib]
    refine Finset.sum_congr rfl fun i _ => ?_
    unfold alt; dsimp only; rw [List.map_cons, List.sum_cons]

theorem bounds (E : List Edge) : ∃ (m : Int) (n : Nat), ∀ e ∈ E, m ≤ e.1.1 ∧ m ≤ e.2.1 ∧ e.1.1 ≤ m + n ∧ e.2.1 ≤ m + n := by
  have : ∃ B : Nat, ∀ e ∈ E, e.1.1.natAbs ≤ B ∧ e.2.1.natAbs ≤ B := by
    induction E with
    | nil => exact ⟨0, by simp⟩
    | cons e E ih =>
      obtain ⟨B, hB⟩ := ih
      refine ⟨B + e.1.1.natAbs + e.2.1.natAbs, fun a ha => ?_⟩
      rcases List.mem_cons.1 ha with rfl | ha
      · omega
      · have := hB a ha; omega
  obtain ⟨B, hB⟩ := this
  refine ⟨-B, 2 * B, fun e he => ?_⟩
  have := hB e he
  omega

/-- Closed curves that wind nowhere clockwise have area, the more so if they wind somewhere. -/
theorem twice_pos {E : List Edge} (hE : Shut E) (hp : ∀ q, 0 ≤ (E.map (crossing q)).sum) :
    0 ≤ twice E ∧ ((∃ q, 0 < (E.map (crossing q)).sum) → 0 < twice E) := by
  obtain ⟨m, n, h⟩ := bounds E
  rw [twice_slabs m n E h]
  have a := fun k => (alt_mid hE hp k)
  have l : slabs m n (fun k => alt k E (k + 1 / 2)) ≤ 0 := Finset.sum_nonpos (fun i _ => by have := (a (m + i)).1; exact this)
  refine ⟨by linarith, fun ⟨q, hq⟩ => ?_⟩
  have f1 := Int.floor_le q.1
  have f2 := Int.lt_floor_add_one q.1
  have hk : m ≤ ⌊q.1⌋ ∧ ⌊q.1⌋ < m + n := by
    by_contra c
    have : ∀ e ∈ E, crossing q e = 0 := by
      intro e he
      rw [crossing_pass f1 f2]
      have := h e he
      have : pass ⌊q.1⌋ e = 0 := by unfold pass; split_ifs <;> omega
      rw [this]; simp
    have : (E.map (crossing q)).sum = 0 := by
      rw [List.map_congr_left this]; simp
    omega
  obtain ⟨i, hi⟩ := Int.eq_ofNat_of_zero_le (show 0 ≤ ⌊q.1⌋ - m by omega)
  have s := (a ⌊q.1⌋).2 ⟨q, f1, f2, hq⟩
  have : slabs m n (fun k => alt k E (k + 1 / 2)) < 0 := by
    refine Finset.sum_neg' (fun j _ => (a (m + j)).1) ⟨i, Finset.mem_range.2 (by omega), ?_⟩
    rw [show m + (i : Int) = ⌊q.1⌋ by omega]; exact s
  linarith

theorem twice_perm {E F : List Edge} (h : E.Perm F) : twice E = twice F := (h.map _).sum_eq
theorem twice_append (E F : List Edge) : twice (E ++ F) = twice E + twice F := by unfold twice; rw [List.map_append, List.sum_append]
theorem shut_append {E F : List Edge} (h1 : Shut E) (h2 : Shut F) : Shut (E ++ F) := fun k => by rw [List.map_append, List.sum_append, h1, h2]; rfl

/-- The curves taken backwards. -/
def back (E : List Edge) : List Edge := E.map Prod.swap

theorem back_crossing (q : ℚ × ℚ) (E : List Edge) : ((back E).map (crossing q)).sum = -(E.map (crossing q)).sum := by
  unfold back
  induction E with
  | nil => rfl
  | cons e E ih => rw [List.map_cons, List.map_cons, List.sum_cons, ih, PolySet.crossing_swap, List.map_cons, List.sum_cons]; ring

theorem back_shut {E : List Edge} (h : Shut E) : Shut (back E) := by
  intro k
  have : ((back E).map (pass k)).sum = -(E.map (pass k)).sum := by
    unfold back
    clear h
    induction E with
    | nil => rfl
    | cons e E ih =>
      rw [List.map_cons, List.map_cons, List.sum_cons, ih, List.map_cons, List.sum_cons]
      have : pass k e.swap = -pass k e := by unfold pass; simp
      rw [this]; ring
  rw [this, h]; rfl

theorem back_twice (E : List Edge) : twice (back E) = -twice E := by
  unfold twice back
  induction E with
  | nil => simp
  | cons e E ih => rw [List.map_cons, List.map_cons, List.sum_cons, ih, List.map_cons, List.sum_cons]; simp only [Prod.fst_swap, Prod.snd_swap]; ring

/-- Curves that wind more have more area. -/
theorem twice_mono {E F : List Edge} (hE : Shut E) (hF : Shut F) (h : ∀ q, (E.map (crossing q)).sum ≤ (F.map (crossing q)).sum) : twice E ≤ twice F := by
  have := (twice_pos (E := F ++ back E) (shut_append hF (back_shut hE)) (fun q => by
    rw [List.map_append, List.sum_append, back_crossing]; have := h q; omega)).1
  rw [twice_append, back_twice] at this
  linarith

/-! ### Polygons -/

theorem shut_edges (P : List (Int × Int)) : Shut (edges P) := by
  intro k
  have := Polygon.edges_telescope (fun v : Int × Int => -(if v.1 ≤ k then (1 : Int) else 0)) P
  rw [← this]
  congr 1
  apply List.map_congr_left
  intro e _
  unfold pass; ring

theorem twice_edges (P : List (Int × Int)) : twice (edges P) = shoelace P := by
  have := Polygon.edges_telescope (fun v : Int × Int => -((v.1 : ℚ) * v.2)) P
  have e : (shoelace P : ℚ) = ((edges P).map (fun e => (e.1.1 : ℚ) * e.2.2 - e.2.1 * e.1.2)).sum := by
    unfold shoelace
    generalize edges P = E
    induction E with
    | nil => rfl
    | cons a E ih => simp only [List.map_cons, List.sum_cons]; rw [Int.cast_add, ih]; push_cast; rfl
  rw [e]
  unfold twice
  generalize edges P = E at this
  have key : ∀ E : List Edge, (E.map (fun e => ((e.1.1 : ℚ) - e.2.1) * (e.1.2 + e.2.2))).sum =
      (E.map (fun e => (e.1.1 : ℚ) * e.2.2 - e.2.1 * e.1.2)).sum + (E.map (fun e => -((e.2.1 : ℚ) * e.2.2) - -((e.1.1 : ℚ) * e.1.2))).sum := by
    intro E
    induction E with
    | nil => simp
    | cons a E ih => simp only [List.map_cons, List.sum_cons]; rw [ih]; ring
  rw [key, this, add_zero]

/-- A polygon that winds nowhere clockwise, and somewhere counterclockwise, has positive area. -/
theorem shoelace_pos {P : List (Int × Int)} (h : ∀ q, 0 ≤ windAt P q) (h' : ∃ q, 0 < windAt P q) : 0 < shoelace P := by
  have := (twice_pos (shut_edges P) h).2 h'
  rw [twice_edges] at this
  exact_mod_cast this

theorem shoelace_neg {P : List (Int × Int)} (h : ∀ q, windAt P q ≤ 0) (h' : ∃ q, windAt P q < 0) : shoelace P < 0 := by
  have := (twice_pos (E := back (edges P)) (back_shut (shut_edges P)) (fun q => by rw [back_crossing]; have := h q; unfold windAt at this; omega)).2
    (by obtain ⟨q, hq⟩ := h'; exact ⟨q, by rw [back_crossing]; unfold windAt at hq; omega⟩)
  rw [back_twice, twice_edges] at this
  exact_mod_cast (by linarith : (shoelace P : ℚ) < 0)

/-- The outer outline of a proper polygon is counterclockwise, the holes are clockwise. -/
theorem proper_sign {outer : List (Int × Int)} {holes : List (List (Int × Int))} (h : Proper outer holes) :
    0 < shoelace outer ∧ ∀ l ∈ holes, shoelace l < 0 := by
  refine ⟨shoelace_pos (fun q => by rcases h.ccw q with e | e <;> rw [e] <;> simp) ?_, fun l hl => shoelace_neg (fun q => by rcases h.cw l hl q with e | e <;> rw [e] <;> simp) ?_⟩
  · obtain ⟨q, hq⟩ := h.real outer List.mem_cons_self
    exact ⟨q, by have := h.ccw q; omega⟩
  · obtain ⟨q, hq⟩ := h.real l (List.mem_cons_of_mem _ hl)
    exact ⟨q, by have := h.cw l hl q; omega⟩

/-- What a proper polygon adds to the depth of a set is the winding of its outlines. -/
theorem proper_depth {outer : List (Int × Int)} {holes : List (List (Int × Int))} (h : Proper outer holes) (q : ℚ × ℚ) :
    objDepth outer holes q = windAt outer q + (holes.map (fun l => windAt l q)).sum := by
  obtain ⟨h1, h2⟩ := proper_sign h
  have : (holes.map (fun l => orient l * windAt l q)).sum = -(holes.map (fun l => windAt l q)).sum := by
    clear h
    induction holes with
    | nil => rfl
    | cons l r ih =>
      rw [List.map_cons, List.sum_cons, ih (fun a ha => h2 a (List.mem_cons_of_mem _ ha)), List.map_cons, List.sum_cons]
      have := h2 l List.mem_cons_self
      unfold orient
      rw [if_neg (by omega)]; ring
  unfold objDepth
  rw [this]
  unfold orient
  rw [if_pos h1]; ring

end Verif.PolyArea
