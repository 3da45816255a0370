import Mathlib.Algebra.BigOperators.Group.List.Lemmas
import Mathlib.Tactic.Linarith
import Mathlib.Algebra.Order.Group.Unbundled.Int
/-!
# Helper lemmas: coverage along a line, moving its entering or its leaving crossings

A crossing is a position and a sign; the coverage at `y` is the sum of the signs at or before `y`.
-/
namespace Verif.Shift1D

/-- Coverage. -/
def W (E : List (Int × Int)) (y : Int) : Int := (E.map (fun e => if e.1 ≤ y then e.2 else 0)).sum
/-- Weight of the entering crossings in `(lo, hi]`. -/
def pos (E : List (Int × Int)) (lo hi : Int) : Int := (E.map (fun e => if 0 < e.2 ∧ lo < e.1 ∧ e.1 ≤ hi then e.2 else 0)).sum
/-- Weight of the leaving crossings in `(lo, hi]`. -/
def neg (E : List (Int × Int)) (lo hi : Int) : Int := (E.map (fun e => if e.2 < 0 ∧ lo < e.1 ∧ e.1 ≤ hi then -e.2 else 0)).sum
/-- Move the leaving crossings up. -/
def up (n : Int) (e : Int × Int) : Int × Int := (if e.2 < 0 then e.1 + n else e.1, e.2)
/-- Move the entering crossings down. -/
def dn (n : Int) (e : Int × Int) : Int × Int := (if 0 < e.2 then e.1 - n else e.1, e.2)
/-- No entering and leaving crossing at the same position. -/
def NoOpp (E : List (Int × Int)) : Prop := ∀ e ∈ E, ∀ f ∈ E, e.1 = f.1 → ¬ (0 < e.2 ∧ f.2 < 0)

theorem W_append (A B : List (Int × Int)) (y : Int) : W (A ++ B) y = W A y + W B y := by simp [W]

theorem W_diff (E : List (Int × Int)) (lo hi : Int) (h : lo ≤ hi) : W E hi = W E lo + pos E lo hi - neg E lo hi := by
  induction E with
  | nil => simp [W, pos, neg]
  | cons e E ih =>
    simp only [W, pos, neg, List.map_cons, List.sum_cons] at *
    split_ifs <;> omega

theorem pos_nonneg (E : List (Int × Int)) (lo hi : Int) : 0 ≤ pos E lo hi := by
  induction E with
  | nil => simp [pos]
  | cons e E ih => simp only [pos, List.map_cons, List.sum_cons] at *; split_ifs <;> omega

theorem neg_nonneg (E : List (Int × Int)) (lo hi : Int) : 0 ≤ neg E lo hi := by
  induction E with
  | nil => simp [neg]
  | cons e E ih => simp only [neg, List.map_cons, List.sum_cons] at *; split_ifs <;> omega

theorem pos_mono (E : List (Int × Int)) {lo hi lo' hi' : Int} (h1 : lo' ≤ lo) (h2 : hi ≤ hi') : pos E lo hi ≤ pos E lo' hi' := by
  induction E with
  | nil => simp [pos]
  | cons e E ih => simp only [pos, List.map_cons, List.sum_cons] at *; split_ifs <;> omega

theorem neg_mono (E : List (Int × Int)) {lo hi lo' hi' : Int} (h1 : lo' ≤ lo) (h2 : hi ≤ hi') : neg E lo hi ≤ neg E lo' hi' := by
  induction E with
  | nil => simp [neg]
  | cons e E ih => simp only [neg, List.map_cons, List.sum_cons] at *; split_ifs <;> omega

theorem pos_mem {E : List (Int × Int)} {lo hi : Int} (h : 0 < pos E lo hi) : ∃ e ∈ E, 0 < e.2 ∧ lo < e.1 ∧ e.1 ≤ hi := by
  induction E with
  | nil => simp [pos] at h
  | cons e E ih =>
    by_cases g : 0 < e.2 ∧ lo < e.1 ∧ e.1 ≤ hi
    · exact ⟨e, by simp, g⟩
    · have : 0 < pos E lo hi := by
        simp only [pos, List.map_cons, List.sum_cons, if_neg g] at h ⊢; omega
      obtain ⟨f, hf, hf'⟩ := ih this
      exact ⟨f, by simp [hf], hf'⟩

theorem neg_mem {E : List (Int × Int)} {lo hi : Int} (h : 0 < neg E lo hi) : ∃ e ∈ E, e.2 < 0 ∧ lo < e.1 ∧ e.1 ≤ hi := by
  induction E with
  | nil => simp [neg] at h
  | cons e E ih =>
    by_cases g : e.2 < 0 ∧ lo < e.1 ∧ e.1 ≤ hi
    · exact ⟨e, by simp, g⟩
    · have : 0 < neg E lo hi := by
        simp only [neg, List.map_cons, List.sum_cons, if_neg g] at h ⊢; omega
      obtain ⟨f, hf, hf'⟩ := ih this
      exact ⟨f, by simp [hf], hf'⟩

theorem mem_pos {E : List (Int × Int)} {lo hi : Int} {e : Int × Int} (h : e ∈ E) (he : 0 < e.2 ∧ lo < e.1 ∧ e.1 ≤ hi) :
    e.2 ≤ pos E lo hi := by
  induction E with
  | nil => simp at h
  | cons f E ih =>
    have := pos_nonneg E lo hi
    rcases List.mem_cons.mp h with rfl | h
    · simp only [pos, List.map_cons, List.sum_cons, if_pos he] at this ⊢; omega
    · have := ih h
      simp only [pos, List.map_cons, List.sum_cons] at this ⊢; split_ifs <;> omega

theorem mem_neg {E : List (Int × Int)} {lo hi : Int} {e : Int × Int} (h : e ∈ E) (he : e.2 < 0 ∧ lo < e.1 ∧ e.1 ≤ hi) :
    -e.2 ≤ neg E lo hi := by
  induction E with
  | nil => simp at h
  | cons f E ih =>
    have := neg_nonneg E lo hi
    rcases List.mem_cons.mp h with rfl | h
    · simp only [neg, List.map_cons, List.sum_cons, if_pos he] at this ⊢; omega
    · have := ih h
      simp only [neg, List.map_cons, List.sum_cons] at this ⊢; split_ifs <;> omega

/-- An entering crossing: the coverage rises there. -/
theorem rise {E : List (Int × Int)} (ho : NoOpp E) {e : Int × Int} (h : e ∈ E) (hp : 0 < e.2) : W E (e.1 - 1) + 1 ≤ W E e.1 := by
  have h1 := W_diff E (e.1 - 1) e.1 (by omega)
  have h2 := mem_pos (lo := e.1 - 1) (hi := e.1) h ⟨hp, by omega, by omega⟩
  have h3 : neg E (e.1 - 1) e.1 = 0 := by
    by_contra g
    have := neg_nonneg E (e.1 - 1) e.1
    obtain ⟨f, hf, f1, f2, f3⟩ := neg_mem (show 0 < neg E (e.1 - 1) e.1 by omega)
    exact ho e h f hf (by omega) ⟨hp, f1⟩
  omega

/-- A leaving crossing: the coverage falls there. -/
theorem fall {E : List (Int × Int)} (ho : NoOpp E) {e : Int × Int} (h : e ∈ E) (hp : e.2 < 0) : W E e.1 + 1 ≤ W E (e.1 - 1) := by
  have h1 := W_diff E (e.1 - 1) e.1 (by omega)
  have h2 := mem_neg (lo := e.1 - 1) (hi := e.1) h ⟨hp, by omega, by omega⟩
  have h3 : pos E (e.1 - 1) e.1 = 0 := by
    by_contra g
    have := pos_nonneg E (e.1 - 1) e.1
    obtain ⟨f, hf, f1, f2, f3⟩ := pos_mem (show 0 < pos E (e.1 - 1) e.1 by omega)
    exact ho f hf e h (by omega) ⟨f1, hp⟩
  omega

theorem W_up (E : List (Int × Int)) (n y : Int) (hn : 0 ≤ n) : W (E.map (up n)) y = W E y + neg E (y - n) y := by
  induction E with
  | nil => simp [W, neg]
  | cons e E ih =>
    simp only [W, neg, up, List.map_cons, List.sum_cons, List.map_map] at *
    rw [ih]
    split_ifs <;> omega

theorem W_dn (E : List (Int × Int)) (n y : Int) (hn : 0 ≤ n) : W (E.map (dn n)) y = W E y + pos E y (y + n) := by
  induction E with
  | nil => simp [W, pos]
  | cons e E ih =>
    simp only [W, pos, dn, List.map_cons, List.sum_cons, List.map_map] at *
    rw [ih]
    split_ifs <;> omega

theorem W_up_neg (E : List (Int × Int)) (n y : Int) (hn : 0 ≤ n) : W (E.map (up (-n))) y = W E y - neg E y (y + n) := by
  induction E with
  | nil => simp [W, neg]
  | cons e E ih =>
    simp only [W, neg, up, List.map_cons, List.sum_cons, List.map_map] at *
    rw [ih]
    split_ifs <;> omega

theorem W_dn_neg (E : List (Int × Int)) (n y : Int) (hn : 0 ≤ n) : W (E.map (dn (-n))) y = W E y - pos E (y - n) y := by
  induction E with
  | nil => simp [W, pos]
  | cons e E ih =>
    simp only [W, pos, dn, List.map_cons, List.sum_cons, List.map_map] at *
    rw [ih]
    split_ifs <;> omega

theorem dilate_up {E : List (Int × Int)} (ho : NoOpp E) (h0 : ∀ y, 0 ≤ W E y) (n y : Int) (hn : 0 ≤ n) :
    0 < W (E.map (up n)) y ↔ ∃ z, y - n ≤ z ∧ z ≤ y ∧ 0 < W E z := by
  rw [W_up E n y hn]
  have hd := W_diff E (y - n) y (by omega)
  constructor
  · intro h
    by_cases hp : 0 < pos E (y - n) y
    · obtain ⟨e, he, e1, e2, e3⟩ := pos_mem hp
      have := rise ho he e1
      have := h0 (e.1 - 1)
      exact ⟨e.1, by omega, by omega, by omega⟩
    · exact ⟨y - n, by omega, by omega, by omega⟩
  · rintro ⟨z, z1, z2, z3⟩
    have := W_diff E z y z2
    have := pos_nonneg E z y
    have := neg_mono E z1 (le_refl y)
    omega

theorem dilate_dn {E : List (Int × Int)} (ho : NoOpp E) (h0 : ∀ y, 0 ≤ W E y) (n y : Int) (hn : 0 ≤ n) :
    0 < W (E.map (dn n)) y ↔ ∃ z, y ≤ z ∧ z ≤ y + n ∧ 0 < W E z := by
  rw [W_dn E n y hn]
  have hd := W_diff E y (y + n) (by omega)
  constructor
  · intro h
    by_cases hp : 0 < neg E y (y + n)
    · obtain ⟨e, he, e1, e2, e3⟩ := neg_mem hp
      have := fall ho he e1
      have := h0 e.1
      exact ⟨e.1 - 1, by omega, by omega, by omega⟩
    · exact ⟨y + n, by omega, by omega, by omega⟩
  · rintro ⟨z, z1, z2, z3⟩
    have := W_diff E y z z1
    have := neg_nonneg E y z
    have := pos_mono E (le_refl y) z2
    omega

theorem erode_up {E : List (Int × Int)} (ho : NoOpp E) (h1 : ∀ y, W E y ≤ 1) (n y : Int) (hn : 0 ≤ n) :
    0 < W (E.map (up (-n))) y ↔ ∀ z, y ≤ z → z ≤ y + n → 0 < W E z := by
  rw [W_up_neg E n y hn]
  have hy := h1 y
  have hn0 := neg_nonneg E y (y + n)
  constructor
  · intro h z z1 z2
    have := W_diff E y z z1
    have := pos_nonneg E y z
    have := neg_mono E (le_refl y) z2
    omega
  · intro h
    by_cases hp : 0 < neg E y (y + n)
    · obtain ⟨e, he, e1, e2, e3⟩ := neg_mem hp
      have := fall ho he e1
      have := h e.1 (by omega) (by omega)
      have := h1 (e.1 - 1)
      omega
    · have := h y (by omega) (by omega); omega

theorem erode_dn {E : List (Int × Int)} (ho : NoOpp E) (h1 : ∀ y, W E y ≤ 1) (n y : Int) (hn : 0 ≤ n) :
    0 < W (E.map (dn (-n))) y ↔ ∀ z, y - n ≤ z → z ≤ y → 0 < W E z := by
  rw [W_dn_neg E n y hn]
  have hy := h1 y
  have hn0 := pos_nonneg E (y - n) y
  constructor
  · intro h z z1 z2
    have := W_diff E z y z2
    have := neg_nonneg E z y
    have := pos_mono E z1 (le_refl y)
    omega
  · intro h
    by_cases hp : 0 < pos E (y - n) y
    · obtain ⟨e, he, e1, e2, e3⟩ := pos_mem hp
      have := rise ho he e1
      have := h (e.1 - 1) (by omega) (by omega)
      have := h1 e.1
      omega
    · have := h y (by omega) (by omega); omega

/-- Any crossing strictly inside a stretch gives a covered position in it. -/
theorem crossing_covered {E : List (Int × Int)} (ho : NoOpp E) (h0 : ∀ y, 0 ≤ W E y) {lo hi : Int} {e : Int × Int} (he : e ∈ E)
    (hs : e.2 ≠ 0) (h1 : lo < e.1) (h2 : e.1 ≤ hi) : ∃ z, lo ≤ z ∧ z ≤ hi ∧ 0 < W E z := by
  rcases lt_or_gt_of_ne hs with g | g
  · have := fall ho he g; have := h0 e.1
    exact ⟨e.1 - 1, by omega, by omega, by omega⟩
  · have := rise ho he g; have := h0 (e.1 - 1)
    exact ⟨e.1, by omega, by omega, by omega⟩

/-- No crossing inside a fully covered stretch. -/
theorem covered_no_crossing {E : List (Int × Int)} (ho : NoOpp E) (h1 : ∀ y, W E y ≤ 1) {lo hi : Int}
    (hc : ∀ z, lo ≤ z → z ≤ hi → 0 < W E z) {e : Int × Int} (he : e ∈ E) (g1 : lo < e.1) (g2 : e.1 ≤ hi) : e.2 = 0 := by
  by_contra hs
  rcases lt_or_gt_of_ne hs with g | g
  · have := fall ho he g; have := hc e.1 (by omega) (by omega); have := h1 (e.1 - 1); omega
  · have := rise ho he g; have := hc (e.1 - 1) (by omega) (by omega); have := h1 e.1; omega

/-- Two positions with different coverage have a crossing between them. -/
theorem crossing_between {E : List (Int × Int)} {lo hi : Int} (h : lo ≤ hi) (hd : W E lo ≠ W E hi) :
    ∃ e ∈ E, e.2 ≠ 0 ∧ lo < e.1 ∧ e.1 ≤ hi := by
  have := W_diff E lo hi h
  have := pos_nonneg E lo hi
  have := neg_nonneg E lo hi
  by_cases hp : 0 < pos E lo hi
  · obtain ⟨e, he, e1, e2, e3⟩ := pos_mem hp; exact ⟨e, he, by omega, e2, e3⟩
  · obtain ⟨e, he, e1, e2, e3⟩ := neg_mem (show 0 < neg E lo hi by omega); exact ⟨e, he, by omega, e2, e3⟩

end Verif.Shift1D
