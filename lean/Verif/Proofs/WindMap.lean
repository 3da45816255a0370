import Mathlib.Tactic.IntervalCases
import Verif.Proofs.PolySet
import Verif.Spec.Motion
import Verif.Model.Transform
/-!
# The winding number under the symmetries of the grid

Mirroring turns the downward ray into an upward one, exchanging the axes into a ray to the left. For a closed outline all of them count alike, up to sign, if the
point is not on the outline.
-/
namespace Verif.WindMap
open Verif.Spec Verif.Spec.Arb

/-- Which side of the edge the point is on. -/
def cr (ax ay bx b' qx qy : ℚ) : ℚ := (bx - ax) * (qy - ay) - (b' - ay) * (qx - ax)

/-- `crossing` without division. -/
def X (ax ay bx b' qx qy : ℚ) : Int :=
  if ax ≤ qx ∧ qx < bx ∧ 0 ≤ cr ax ay bx b' qx qy then 1 else if bx ≤ qx ∧ qx < ax ∧ cr ax ay bx b' qx qy ≤ 0 then -1 else 0

/-- The point is on the closed segment. -/
def On (ax ay bx b' qx qy : ℚ) : Prop := ∃ t : ℚ, 0 ≤ t ∧ t ≤ 1 ∧ qx = ax + t * (bx - ax) ∧ qy = ay + t * (b' - ay)

theorem crossing_X (q : ℚ × ℚ) (e : Edge) : crossing q e = X e.1.1 e.1.2 e.2.1 e.2.2 q.1 q.2 := by
  obtain ⟨⟨ax, ay⟩, bx, b'⟩ := e
  obtain ⟨qx, qy⟩ := q
  unfold crossing X lineY
  dsimp only
  have h1 : (ax : ℚ) < bx → (((ay : ℚ) + (b' - ay) * (qx - ax) / (bx - ax) ≤ qy) ↔ 0 ≤ cr ax ay bx b' qx qy) := by
    intro h
    have h' : (0 : ℚ) < bx - ax := by linarith
    unfold cr
    rw [← le_sub_iff_add_le', div_le_iff₀ h']
    constructor <;> intro h <;> linarith
  have h2 : (bx : ℚ) < ax → (((ay : ℚ) + (b' - ay) * (qx - ax) / (bx - ax) ≤ qy) ↔ cr ax ay bx b' qx qy ≤ 0) := by
    intro h
    have h' : (bx : ℚ) - ax < 0 := by linarith
    unfold cr
    rw [← le_sub_iff_add_le', div_le_iff_of_neg h']
    constructor <;> intro h <;> linarith
  by_cases c1 : (ax : ℚ) ≤ qx ∧ qx < bx
  · simp only [h1 (lt_of_le_of_lt c1.1 c1.2)]
    have n : ¬ ((bx : ℚ) ≤ qx ∧ qx < ax) := fun h => by linarith [h.1, c1.2]
    simp only [← and_assoc, n, false_and, if_false]
  · by_cases c2 : (bx : ℚ) ≤ qx ∧ qx < ax
    · simp only [h2 (lt_of_le_of_lt c2.1 c2.2)]
      simp only [← and_assoc, c1, false_and, if_false]
    · simp only [← and_assoc, c1, c2, false_and, if_false]

theorem cr_ne {ax ay bx b' qx qy : ℚ} (h : ¬ On ax ay bx b' qx qy) (h1 : ax ≤ qx) (h2 : qx ≤ bx) (h3 : ax < bx) : cr ax ay bx b' qx qy ≠ 0 := by
  intro e
  apply h
  have h' : (0 : ℚ) < bx - ax := by linarith
  refine ⟨(qx - ax) / (bx - ax), by apply div_nonneg <;> linarith, by rw [div_le_one h']; linarith, by rw [div_mul_cancel₀ _ h'.ne']; ring, ?_⟩
  unfold cr at e
  field_simp
  linarith

theorem on_swap {ax ay bx b' qx qy : ℚ} : On ax ay bx b' qx qy ↔ On bx b' ax ay qx qy := by
  constructor <;> rintro ⟨t, h1, h2, h3, h4⟩ <;> exact ⟨1 - t, by linarith, by linarith, by rw [h3]; ring, by rw [h4]; ring⟩

theorem on_flip {ax ay bx b' qx qy : ℚ} : On ax ay bx b' qx qy ↔ On ay ax b' bx qy qx := by
  constructor <;> rintro ⟨t, h1, h2, h3, h4⟩ <;> exact ⟨t, h1, h2, h4, h3⟩

theorem cr_swap (ax ay bx b' qx qy : ℚ) : cr bx b' ax ay qx qy = - cr ax ay bx b' qx qy := by unfold cr; ring

theorem cr_flip (ax ay bx b' qx qy : ℚ) : cr ay ax b' bx qy qx = - cr ax ay bx b' qx qy := by unfold cr; ring

theorem X_swap (ax ay bx b' qx qy : ℚ) : X bx b' ax ay qx qy = - X ax ay bx b' qx qy := by
  unfold X
  rw [cr_swap]
  by_cases c1 : ax ≤ qx ∧ qx < bx
  · have n : ¬ (bx ≤ qx ∧ qx < ax) := fun h => by linarith [h.1, c1.2]
    simp only [← and_assoc, c1, n, false_and, if_false, true_and, neg_nonpos]
    split_ifs <;> simp
  · by_cases c2 : bx ≤ qx ∧ qx < ax
    · simp only [← and_assoc, c1, c2, false_and, if_false, true_and, neg_nonneg]
      split_ifs <;> simp
    · simp only [← and_assoc, c1, c2, false_and, if_false]; rfl

/-- Mirrored up and down. -/
theorem X_mirY {ax ay bx b' qx qy : ℚ} (h : ¬ On ax ay bx b' qx qy) :
    X ax (-ay) bx (-b') qx (-qy) = - X ax ay bx b' qx qy + ((if qx < bx then 1 else 0) - (if qx < ax then 1 else 0)) := by
  have e : cr ax (-ay) bx (-b') qx (-qy) = - cr ax ay bx b' qx qy := by unfold cr; ring
  unfold X
  rw [e]
  by_cases c1 : ax ≤ qx ∧ qx < bx
  · have n : ¬ (bx ≤ qx ∧ qx < ax) := fun h => by linarith [h.1, c1.2]
    have z := cr_ne h c1.1 c1.2.le (lt_of_le_of_lt c1.1 c1.2)
    simp only [← and_assoc, c1, n, false_and, if_false, true_and, neg_nonneg, if_true, not_lt.2 c1.1]
    rcases lt_or_gt_of_ne z with g | g
    · rw [if_pos g.le, if_neg (not_le.2 g)]; simp
    · rw [if_neg (not_le.2 g), if_pos g.le]; simp
  · by_cases c2 : bx ≤ qx ∧ qx < ax
    · have z := cr_ne (fun g => h (on_swap.1 g)) c2.1 c2.2.le (lt_of_le_of_lt c2.1 c2.2)
      rw [cr_swap] at z
      have z : cr ax ay bx b' qx qy ≠ 0 := fun g => z (by rw [g]; simp)
      simp only [← and_assoc, c1, c2, false_and, if_false, true_and, neg_nonpos, if_true, not_lt.2 c2.1]
      rcases lt_or_gt_of_ne z with g | g
      · rw [if_neg (not_le.2 g), if_pos g.le]; simp
      · rw [if_pos g.le, if_neg (not_le.2 g)]; simp
    · have : (qx < bx ↔ qx < ax) := by
        constructor
        · intro g; by_contra k; exact c1 ⟨not_lt.1 k, g⟩
        · intro g; by_contra k; exact c2 ⟨not_lt.1 k, g⟩
      simp only [← and_assoc, c1, c2, false_and, if_false]
      simp only [this]
      simp

/-- Mirrored left and right, an edge that runs to the right. -/
theorem X_mirX_le {ax ay bx b' qx qy : ℚ} (h : ¬ On ax ay bx b' qx qy) (hab : ax ≤ bx) :
    X (-ax) ay (-bx) b' (-qx) qy = - X ax ay bx b' qx qy + ((if ax = qx ∧ ay ≤ qy then 1 else 0) - (if bx = qx ∧ b' ≤ qy then 1 else 0)) := by
  have e : cr (-ax) ay (-bx) b' (-qx) qy = - cr ax ay bx b' qx qy := by unfold cr; ring
  unfold X
  rw [e]
  rcases lt_or_eq_of_le hab with hl | hl
  · have n1 : ¬ (-ax ≤ -qx ∧ -qx < -bx) := fun g => by linarith [g.1, g.2]
    have n2 : ¬ (bx ≤ qx ∧ qx < ax) := fun g => by linarith [g.1, g.2]
    simp only [← and_assoc, n1, n2, false_and, if_false]
    rcases lt_trichotomy qx ax with k | k | k
    · have a1 : ¬ (-bx ≤ -qx ∧ -qx < -ax) := fun g => by linarith [g.2]
      have a2 : ¬ (ax ≤ qx ∧ qx < bx) := fun g => by linarith [g.1]
      simp only [a1, a2, false_and, if_false, k.ne', (lt_trans k hl).ne']; rfl
    · have a1 : ¬ (-bx ≤ -qx ∧ -qx < -ax) := fun g => by linarith [g.2]
      have a2 : (ax ≤ qx ∧ qx < bx) := ⟨k.ge, by linarith⟩
      have a3 : (0 ≤ cr ax ay bx b' qx qy ↔ ay ≤ qy) := by
        unfold cr
        rw [k, sub_self, mul_zero, sub_zero]
        constructor
        · intro g; by_contra m; nlinarith
        · intro g; exact mul_nonneg (by linarith) (by linarith)
      have a4 : ¬ bx = qx := by intro g; linarith
      have a5 : ax = qx := k.symm
      simp only [a1, a2, a3, false_and, if_false, a4]
      simp only [a5, true_and]
      split_ifs <;> simp
    · rcases lt_trichotomy qx bx with m | m | m
      · have a1 : (-bx ≤ -qx ∧ -qx < -ax) := ⟨by linarith, by linarith⟩
        have a2 : (ax ≤ qx ∧ qx < bx) := ⟨by linarith, m⟩
        simp only [a1, a2, true_and, neg_nonpos, k.ne, m.ne', false_and, if_false]
        split_ifs <;> simp
      · have a1 : (-bx ≤ -qx ∧ -qx < -ax) := ⟨by linarith, by linarith⟩
        have a2 : ¬ (ax ≤ qx ∧ qx < bx) := fun g => by linarith [g.2]
        have a3 : (0 ≤ cr ax ay bx b' qx qy ↔ b' ≤ qy) := by
          have : cr ax ay bx b' qx qy = (bx - ax) * (qy - b') := by rw [m]; unfold cr; ring
          rw [this]
          constructor
          · intro g; by_contra m; nlinarith
          · intro g; exact mul_nonneg (by linarith) (by linarith)
        have a4 : ¬ ax = qx := by intro g; linarith
        have a5 : bx = qx := m.symm
        simp only [a1, a2, a3, true_and, neg_nonpos, a4, false_and, if_false]
        simp only [a5, true_and]
        split_ifs <;> simp
      · have a1 : ¬ (-bx ≤ -qx ∧ -qx < -ax) := fun g => by linarith [g.1]
        have a2 : ¬ (ax ≤ qx ∧ qx < bx) := fun g => by linarith [g.2]
        simp only [a1, a2, false_and, if_false, k.ne, m.ne]; rfl
  · subst hl
    have n1 : ¬ (-ax ≤ -qx ∧ -qx < -ax) := fun g => by linarith [g.1, g.2]
    have n2 : ¬ (ax ≤ qx ∧ qx < ax) := fun g => by linarith [g.1, g.2]
    simp only [← and_assoc, n1, n2, false_and, if_false]
    by_cases k : ax = qx
    · have : (ay ≤ qy ↔ b' ≤ qy) := by
        by_contra hne
        apply h
        rw [not_iff] at hne
        have hd : b' - ay ≠ 0 := by
          intro g
          have : b' = ay := by linarith
          rw [this] at hne
          tauto
        refine ⟨(qy - ay) / (b' - ay), ?_, ?_, by rw [k]; ring, by rw [div_mul_cancel₀ _ hd]; ring⟩
        · by_cases g : ay ≤ qy
          · have g' : qy < b' := by by_contra m; exact (hne.2 (not_lt.1 m)) g
            exact div_nonneg (by linarith) (by linarith)
          · have g' : b' ≤ qy := hne.1 g
            exact div_nonneg_of_nonpos (by linarith) (by linarith)
        · by_cases g : ay ≤ qy
          · have g' : qy < b' := by by_contra m; exact (hne.2 (not_lt.1 m)) g
            rw [div_le_one (by linarith)]; linarith
          · have g' : b' ≤ qy := hne.1 g
            rw [div_le_one_of_neg (by linarith)]; linarith
      simp only [k, true_and, this]; simp
    · simp only [k, false_and, if_false]; rfl

/-- Mirrored left and right. -/
theorem X_mirX {ax ay bx b' qx qy : ℚ} (h : ¬ On ax ay bx b' qx qy) :
    X (-ax) ay (-bx) b' (-qx) qy = - X ax ay bx b' qx qy + ((if ax = qx ∧ ay ≤ qy then 1 else 0) - (if bx = qx ∧ b' ≤ qy then 1 else 0)) := by
  rcases le_total ax bx with g | g
  · exact X_mirX_le h g
  · have := X_mirX_le (fun k => h (on_swap.1 k)) g
    rw [X_swap, X_swap ax] at this
    linarith

/-- The axes exchanged, an edge that runs to the right. -/
theorem X_flip_le {ax ay bx b' qx qy : ℚ} (h : ¬ On ax ay bx b' qx qy) (hab : ax ≤ bx) :
    X ay ax b' bx qy qx = - X ax ay bx b' qx qy + ((if ax ≤ qx ∧ ay ≤ qy then 1 else 0) - (if bx ≤ qx ∧ b' ≤ qy then 1 else 0)) := by
  have e := cr_flip ax ay bx b' qx qy
  have n2 : ¬ (bx ≤ qx ∧ qx < ax) := fun g => by linarith [g.1, g.2]
  unfold X
  rw [e]
  simp only [← and_assoc, n2, false_and, if_false]
  by_cases c : ax ≤ qx ∧ qx < bx
  · have z := cr_ne h c.1 c.2.le (lt_of_le_of_lt c.1 c.2)
    have c' := not_le.2 c.2
    simp only [c, c', true_and, false_and, if_false, sub_zero]
    by_cases a1 : ay ≤ qy <;> by_cases a2 : b' ≤ qy
    · have m1 : ¬ qy < b' := not_lt.2 a2
      have m2 : ¬ qy < ay := not_lt.2 a1
      have : 0 ≤ cr ax ay bx b' qx qy := by
        have : cr ax ay bx b' qx qy = (bx - qx) * (qy - ay) + (qx - ax) * (qy - b') := by unfold cr; ring
        rw [this]
        exact add_nonneg (mul_nonneg (by linarith [c.2]) (by linarith)) (mul_nonneg (by linarith [c.1]) (by linarith))
      simp [a1, m1, m2, this]
    · have m1 : qy < b' := not_le.1 a2
      have m2 : ¬ qy < ay := not_lt.2 a1
      simp only [a1, m1, m2, true_and, and_false, false_and, if_false, if_true, neg_nonneg]
      rcases lt_or_gt_of_ne z with g | g
      · rw [if_pos g.le, if_neg (not_le.2 g)]; rfl
      · rw [if_neg (not_le.2 g), if_pos g.le]; rfl
    · have m1 : ¬ qy < b' := not_lt.2 a2
      have m2 : qy < ay := not_le.1 a1
      simp only [a1, a2, m1, m2, true_and, and_false, false_and, if_false, neg_nonpos]
      split_ifs <;> simp
    · have m1 : qy < b' := not_le.1 a2
      have m2 : qy < ay := not_le.1 a1
      have : ¬ 0 ≤ cr ax ay bx b' qx qy := by
        have : cr ax ay bx b' qx qy = (bx - qx) * (qy - ay) + (qx - ax) * (qy - b') := by unfold cr; ring
        rw [this, not_le]
        have k1 : (bx - qx) * (qy - ay) < 0 := mul_neg_of_pos_of_neg (by linarith [c.2]) (by linarith)
        have k2 : (qx - ax) * (qy - b') ≤ 0 := mul_nonpos_of_nonneg_of_nonpos (by linarith [c.1]) (by linarith)
        linarith
      simp [a1, a2, this]
  · simp only [c, false_and, if_false]
    have k : (qx < ax ∧ qx < bx) ∨ (ax ≤ qx ∧ bx ≤ qx) := by
      rcases lt_or_ge qx ax with g | g
      · exact Or.inl ⟨g, by linarith⟩
      · exact Or.inr ⟨g, by by_contra m; exact c ⟨g, not_le.1 m⟩⟩
    have cre : cr ax ay bx b' qx qy = -((b' - qy) * (qx - ax) + (qy - ay) * (qx - bx)) := by unfold cr; ring
    rcases k with ⟨k1, k2⟩ | ⟨k1, k2⟩
    · simp only [not_le.2 k1, not_le.2 k2, false_and, if_false]
      have a1 : ¬ ((ay ≤ qy ∧ qy < b') ∧ 0 ≤ - cr ax ay bx b' qx qy) := by
        rintro ⟨⟨g1, g2⟩, g3⟩
        rw [cre, neg_neg] at g3
        have := mul_neg_of_pos_of_neg (show 0 < b' - qy by linarith) (show qx - ax < 0 by linarith)
        have := mul_nonpos_of_nonneg_of_nonpos (show 0 ≤ qy - ay by linarith) (show qx - bx ≤ 0 by linarith)
        linarith
      have a2 : ¬ ((b' ≤ qy ∧ qy < ay) ∧ - cr ax ay bx b' qx qy ≤ 0) := by
        rintro ⟨⟨g1, g2⟩, g3⟩
        rw [cre, neg_neg] at g3
        have := mul_nonneg_of_nonpos_of_nonpos (show b' - qy ≤ 0 by linarith) (show qx - ax ≤ 0 by linarith)
        have := mul_pos_of_neg_of_neg (show qy - ay < 0 by linarith) (show qx - bx < 0 by linarith)
        linarith
      simp only [a1, a2, if_false]; rfl
    · simp only [k1, k2, true_and]
      by_cases a1 : ay ≤ qy ∧ qy < b'
      · have a2 : ¬ b' ≤ qy := not_le.2 a1.2
        have : 0 ≤ - cr ax ay bx b' qx qy := by
          rw [cre, neg_neg]
          exact add_nonneg (mul_nonneg (by linarith [a1.2]) (by linarith)) (mul_nonneg (by linarith [a1.1]) (by linarith))
        simp [a1, a2, this]
      · by_cases a2 : b' ≤ qy ∧ qy < ay
        · have m : ¬ ay ≤ qy := not_le.2 a2.2
          have : - cr ax ay bx b' qx qy ≤ 0 := by
            rw [cre, neg_neg]
            exact add_nonpos (mul_nonpos_of_nonpos_of_nonneg (by linarith [a2.1]) (by linarith)) (mul_nonpos_of_nonpos_of_nonneg (by linarith [a2.2]) (by linarith))
          simp only [a1, false_and, if_false, a2, m, true_and, this, if_true]; rfl
        · have : (ay ≤ qy ↔ b' ≤ qy) := by
            constructor
            · intro g; by_contra k; exact a1 ⟨g, not_le.1 k⟩
            · intro g; by_contra k; exact a2 ⟨g, not_le.1 k⟩
          simp only [a1, a2, false_and, if_false, this]; simp

/-- The axes exchanged. -/
theorem X_flip {ax ay bx b' qx qy : ℚ} (h : ¬ On ax ay bx b' qx qy) :
    X ay ax b' bx qy qx = - X ax ay bx b' qx qy + ((if ax ≤ qx ∧ ay ≤ qy then 1 else 0) - (if bx ≤ qx ∧ b' ≤ qy then 1 else 0)) := by
  rcases le_total ax bx with g | g
  · exact X_flip_le h g
  · have := X_flip_le (fun k => h (on_swap.1 k)) g
    rw [X_swap, X_swap ax] at this
    linarith

theorem X_self (ax ay qx qy : ℚ) : X ax ay ax ay qx qy = 0 := by
  unfold X
  rw [if_neg (fun k => absurd k.1 (not_le.2 k.2.1)), if_neg (fun k => absurd k.1 (not_le.2 k.2.1))]

/-! ### Outlines -/

def mirX (p : Int × Int) : Int × Int := (-p.1, p.2)
def mirY (p : Int × Int) : Int × Int := (p.1, -p.2)
def flip (p : Int × Int) : Int × Int := (p.2, p.1)

/-- A sum of terms that differ by telescoping ones. -/
theorem wind_of {P : List (Int × Int)} {q q' : ℚ × ℚ} {g : Int × Int → Int × Int} {c : Int} (f : Int × Int → Int)
    (h : ∀ e ∈ edges P, crossing q' (Prod.map g g e) = c * crossing q e + (f e.2 - f e.1)) : windAt (P.map g) q' = c * windAt P q := by
  unfold windAt
  rw [Polygon.edges_map, List.map_map]
  have e1 : (edges P).map (crossing q' ∘ Prod.map g g) = (edges P).map (fun e => c * crossing q e + (f e.2 - f e.1)) := List.map_congr_left h
  rw [e1, List.sum_map_add, Polygon.edges_telescope, List.sum_map_mul_left, add_zero]

theorem wind_mirX {P : List (Int × Int)} {q : ℚ × ℚ} (h : OffEdges P q) : windAt (P.map mirX) (-q.1, q.2) = -1 * windAt P q := by
  refine wind_of (fun p => -(if (p.1 : ℚ) = q.1 ∧ (p.2 : ℚ) ≤ q.2 then 1 else 0)) (fun e he => ?_)
  by_cases c : e.1 = e.2
  · obtain ⟨a, b⟩ := e
    dsimp only at c
    subst c
    simp [crossing_X, X_self, Prod.map]
  have := X_mirX (h e he c)
  rw [crossing_X, crossing_X]
  simp only [Prod.map, mirX, Int.cast_neg]
  rw [this]; ring

theorem wind_mirY {P : List (Int × Int)} {q : ℚ × ℚ} (h : OffEdges P q) : windAt (P.map mirY) (q.1, -q.2) = -1 * windAt P q := by
  refine wind_of (fun p => if q.1 < (p.1 : ℚ) then 1 else 0) (fun e he => ?_)
  by_cases c : e.1 = e.2
  · obtain ⟨a, b⟩ := e
    dsimp only at c
    subst c
    simp [crossing_X, X_self, Prod.map]
  have := X_mirY (h e he c)
  rw [crossing_X, crossing_X]
  simp only [Prod.map, mirY, Int.cast_neg]
  rw [this]; ring

theorem wind_flip {P : List (Int × Int)} {q : ℚ × ℚ} (h : OffEdges P q) : windAt (P.map flip) (q.2, q.1) = -1 * windAt P q := by
  refine wind_of (fun p => -(if (p.1 : ℚ) ≤ q.1 ∧ (p.2 : ℚ) ≤ q.2 then 1 else 0)) (fun e he => ?_)
  by_cases c : e.1 = e.2
  · obtain ⟨a, b⟩ := e
    dsimp only at c
    subst c
    simp [crossing_X, X_self, Prod.map]
  have := X_flip (h e he c)
  rw [crossing_X, crossing_X]
  simp only [Prod.map, flip]
  rw [this]; ring

theorem wind_move (P : List (Int × Int)) (d : Int × Int) (q : ℚ × ℚ) : windAt (P.map (fun p => (p.1 + d.1, p.2 + d.2))) (q.1 + d.1, q.2 + d.2) = windAt P q := by
  have := wind_of (P := P) (q := q) (q' := (q.1 + d.1, q.2 + d.2)) (g := fun p => (p.1 + d.1, p.2 + d.2)) (c := 1) (fun _ => 0) (fun e he => by
    rw [crossing_X, crossing_X]
    simp only [Prod.map, Int.cast_add]
    unfold X cr
    simp only [add_le_add_iff_right, add_lt_add_iff_right, add_sub_add_right_eq_sub]
    simp)
  rw [this, one_mul]

theorem off_of {P : List (Int × Int)} {q q' : ℚ × ℚ} {g : Int × Int → Int × Int} (h : OffEdges P q)
    (hg : ∀ e : Edge, OnEdge (Prod.map g g e) q' → OnEdge e q) : OffEdges (P.map g) q' := by
  intro e he hn
  rw [Polygon.edges_map] at he
  obtain ⟨a, ha, rfl⟩ := List.mem_map.1 he
  exact fun k => h a ha (fun c => hn (by simp [Prod.map, c])) (hg a k)

theorem off_mirX {P : List (Int × Int)} {q : ℚ × ℚ} (h : OffEdges P q) : OffEdges (P.map mirX) (-q.1, q.2) :=
  off_of h (by
    rintro e ⟨t, h1, h2, h3, h4⟩
    simp only [Prod.map, mirX, Int.cast_neg] at h3 h4
    exact ⟨t, h1, h2, by linarith, h4⟩)

theorem off_mirY {P : List (Int × Int)} {q : ℚ × ℚ} (h : OffEdges P q) : OffEdges (P.map mirY) (q.1, -q.2) :=
  off_of h (by
    rintro e ⟨t, h1, h2, h3, h4⟩
    simp only [Prod.map, mirY, Int.cast_neg] at h3 h4
    exact ⟨t, h1, h2, h3, by linarith⟩)

theorem off_flip {P : List (Int × Int)} {q : ℚ × ℚ} (h : OffEdges P q) : OffEdges (P.map flip) (q.2, q.1) :=
  off_of h (by
    rintro e ⟨t, h1, h2, h3, h4⟩
    exact ⟨t, h1, h2, h4, h3⟩)

theorem off_move {P : List (Int × Int)} {q : ℚ × ℚ} (h : OffEdges P q) (d : Int × Int) : OffEdges (P.map (fun p => (p.1 + d.1, p.2 + d.2))) (q.1 + d.1, q.2 + d.2) :=
  off_of h (by
    rintro e ⟨t, h1, h2, h3, h4⟩
    simp only [Prod.map, Int.cast_add] at h3 h4
    exact ⟨t, h1, h2, by linarith, by linarith⟩)

theorem wind_scale (P : List (Int × Int)) {k : Int} (hk : 0 < k) (q : ℚ × ℚ) : windAt (P.map (fun p => (p.1 * k, p.2 * k))) (q.1 * k, q.2 * k) = windAt P q := by
  have hk' : (0 : ℚ) < k := by exact_mod_cast hk
  have := wind_of (P := P) (q := q) (q' := (q.1 * k, q.2 * k)) (g := fun p => (p.1 * k, p.2 * k)) (c := 1) (fun _ => 0) (fun e he => by
    rw [crossing_X, crossing_X]
    simp only [Prod.map, Int.cast_mul]
    unfold X
    have e1 : ∀ a b c d x y : ℚ, cr (a * k) (b * k) (c * k) (d * k) (x * k) (y * k) = (k * k) * cr a b c d x y := by
      intros; unfold cr; ring
    have e2 : ∀ c : ℚ, (k * k : ℚ) * c ≤ 0 ↔ c ≤ 0 := by
      intro c
      have hk2 := mul_pos hk' hk'
      constructor <;> intro h <;> nlinarith
    simp only [e1, mul_le_mul_iff_left₀ hk', mul_lt_mul_iff_left₀ hk', mul_nonneg_iff_of_pos_left (mul_pos hk' hk'), e2]
    simp)
  rw [this, one_mul]

open Verif.Transform

/-- The winding number under the eight symmetries. -/
theorem wind_axis {P : List (Int × Int)} {q : ℚ × ℚ} (h : OffEdges P q) (a : Nat) (ha : a < 8) :
    windAt (P.map (axisTransform a)) (axisMap a q) = axisDet a * windAt P q ∧ OffEdges (P.map (axisTransform a)) (axisMap a q) := by
  have x1 := wind_mirX h
  have x2 := off_mirX h
  have y1 := wind_mirY h
  have y2 := off_mirY h
  have xy1 := wind_mirY x2
  have xy2 := off_mirY x2
  rw [x1] at xy1
  have c : ∀ f g : Int × Int → Int × Int, (P.map f).map g = P.map (g ∘ f) := fun f g => List.map_map
  interval_cases a
  · have e : axisTransform 0 = id := by funext p; simp [axisTransform, bit0, bit1, bit2, Isotropy.predicatedSwap]
    rw [e, List.map_id]
    exact ⟨by simp [axisMap, axisDet], h⟩
  · have e : axisTransform 1 = mirX := by funext p; simp [axisTransform, bit0, bit1, bit2, Isotropy.predicatedSwap, mirX]
    rw [e]
    exact ⟨x1, x2⟩
  · have e : axisTransform 2 = mirY := by funext p; simp [axisTransform, bit0, bit1, bit2, Isotropy.predicatedSwap, mirY]
    rw [e]
    exact ⟨y1, y2⟩
  · have e : axisTransform 3 = mirY ∘ mirX := by funext p; simp [axisTransform, bit0, bit1, bit2, Isotropy.predicatedSwap, mirY, mirX]
    rw [e, ← c]
    exact ⟨by rw [show axisMap 3 q = (-q.1, -q.2) from rfl, xy1]; simp [axisDet], xy2⟩
  · have e : axisTransform 4 = flip := by funext p; simp [axisTransform, bit0, bit1, bit2, Isotropy.predicatedSwap, flip]
    rw [e]
    exact ⟨wind_flip h, off_flip h⟩
  · have e : axisTransform 5 = flip ∘ mirX := by funext p; simp [axisTransform, bit0, bit1, bit2, Isotropy.predicatedSwap, flip, mirX]
    rw [e, ← c]
    exact ⟨by rw [show axisMap 5 q = (q.2, -q.1) from rfl, wind_flip x2, x1]; simp [axisDet], off_flip x2⟩
  · have e : axisTransform 6 = flip ∘ mirY := by funext p; simp [axisTransform, bit0, bit1, bit2, Isotropy.predicatedSwap, flip, mirY]
    rw [e, ← c]
    exact ⟨by rw [show axisMap 6 q = (-q.2, q.1) from rfl, wind_flip y2, y1]; simp [axisDet], off_flip y2⟩
  · have e : axisTransform 7 = flip ∘ mirY ∘ mirX := by funext p; simp [axisTransform, bit0, bit1, bit2, Isotropy.predicatedSwap, flip, mirY, mirX]
    rw [e, ← c, ← c]
    exact ⟨by rw [show axisMap 7 q = (-q.2, -q.1) from rfl, wind_flip xy2, xy1]; simp [axisDet], off_flip xy2⟩

/-- The winding number under a symmetry after a translation. -/
theorem wind_trans {P : List (Int × Int)} {q : ℚ × ℚ} (h : OffEdges P q) (t : Transformation) (ht : t.atr < 8) :
    windAt (P.map t.transform) (transMap t.atr t.p q) = axisDet t.atr * windAt P q ∧ OffEdges (P.map t.transform) (transMap t.atr t.p q) := by
  have e : P.map t.transform = (P.map (fun p => (p.1 + -t.p.1, p.2 + -t.p.2))).map (axisTransform t.atr) := by
    rw [List.map_map]
    apply List.map_congr_left
    intro p _
    simp [Transformation.transform, sub_eq_add_neg]
  have h1 := off_move h (-t.p.1, -t.p.2)
  have h2 := wind_move P (-t.p.1, -t.p.2) q
  have h3 := wind_axis h1 t.atr ht
  dsimp only at h1 h2 h3
  rw [h2] at h3
  rw [e]
  unfold transMap
  have e2 : ((q.1 - (t.p.1 : ℚ), q.2 - (t.p.2 : ℚ)) : ℚ × ℚ) = (q.1 + ((-t.p.1 : Int) : ℚ), q.2 + ((-t.p.2 : Int) : ℚ)) := by
    push_cast
    rw [sub_eq_add_neg, sub_eq_add_neg]
  rw [e2]
  exact h3

/-- The signed area. -/
theorem shoelace_axis (P : List (Int × Int)) (a : Nat) (ha : a < 8) : shoelace (P.map (axisTransform a)) = axisDet a * shoelace P := by
  unfold shoelace
  rw [Polygon.edges_map, List.map_map, ← List.sum_map_mul_left]
  congr 1
  apply List.map_congr_left
  intro e _
  interval_cases a <;> simp [axisTransform, bit0, bit1, bit2, Isotropy.predicatedSwap, axisDet] <;> ring

theorem shoelace_trans (P : List (Int × Int)) (t : Transformation) (ht : t.atr < 8) : shoelace (P.map t.transform) = axisDet t.atr * shoelace P := by
  have e : P.map t.transform = (P.map (fun p => (p.1 + -t.p.1, p.2 + -t.p.2))).map (axisTransform t.atr) := by
    rw [List.map_map]
    apply List.map_congr_left
    intro p _
    simp [Transformation.transform, sub_eq_add_neg]
  rw [e, shoelace_axis _ _ ht]
  rw [Polygon.shoelace_translate]

end Verif.WindMap
