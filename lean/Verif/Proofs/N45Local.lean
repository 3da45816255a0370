import Verif.Proofs.Set45Run
import Verif.Proofs.T45Sem
import Verif.Proofs.F45Step
import Mathlib.Tactic.IntervalCases
/-!
# The depth of 45-degree data next to a point
-/
namespace Verif.N45
open Verif.Deg45 Verif.Set45 Verif.Spec.Deg45
open Verif.F45 (qat)

/-- The point lies before `q` on the line of slope `r` through `q`. -/
def Before (r : Int) (q : ℚ × ℚ) (a : P) : Prop :=
  if r = 2 then (a.1 : ℚ) = q.1 ∧ (a.2 : ℚ) < q.2 else (a.1 : ℚ) < q.1 ∧ (a.2 : ℚ) + r * (q.1 - a.1) = q.2

instance (r : Int) (q : ℚ × ℚ) (a : P) : Decidable (Before r q a) := by unfold Before; infer_instance

/-- The weight with which the line of slope `r` arrives at `q`. -/
def W (E : List VC) (q : ℚ × ℚ) (r : Int) : Int := tot E (fun a => decide (Before r q a)) (fun c => qat c r)

/-- The weight that the vertices at `q` add to the line of slope `r`. -/
def F (E : List VC) (q : ℚ × ℚ) (r : Int) : Int := tot E (fun a => decide ((a.1 : ℚ) = q.1 ∧ (a.2 : ℚ) = q.2)) (fun c => qat c r)

/-- The part of the depth that lines strictly below from the left give. -/
def base (E : List VC) (q : ℚ × ℚ) (r : Int) : Int :=
  tot E (fun a => decide ((a.1 : ℚ) < q.1 ∧ (a.2 : ℚ) + r * (q.1 - a.1) < q.2)) (fun c => qat c r)

/-- The part that starts strictly below. -/
def col (E : List VC) (q : ℚ × ℚ) (r : Int) : Int := tot E (fun a => decide ((a.1 : ℚ) = q.1 ∧ (a.2 : ℚ) < q.2)) (fun c => qat c r)

/-- Everything that does not pass through the point is far from it. -/
def Far (E : List VC) (q : ℚ × ℚ) (ε : ℚ) : Prop :=
  ∀ v ∈ E, ((v.1.1 : ℚ) = q.1 ∨ (v.1.1 : ℚ) + ε ≤ q.1 ∨ q.1 + ε ≤ v.1.1) ∧
    ∀ r : Int, (r = -1 ∨ r = 0 ∨ r = 1) → ((v.1.2 : ℚ) + r * (q.1 - v.1.1) = q.2 ∨ (v.1.2 : ℚ) + r * (q.1 - v.1.1) + 2 * ε ≤ q.2 ∨ q.2 + 2 * ε ≤ (v.1.2 : ℚ) + r * (q.1 - v.1.1))

theorem far_exists (E : List VC) (q : ℚ × ℚ) : ∃ ε, 0 < ε ∧ Far E q ε := by
  have one : ∀ a b : ℚ, ∃ ε, 0 < ε ∧ (a = b ∨ a + 2 * ε ≤ b ∨ b + 2 * ε ≤ a) := by
    intro a b
    rcases lt_trichotomy a b with h | h | h
    · exact ⟨(b - a) / 2, by linarith, Or.inr (Or.inl (by linarith))⟩
    · exact ⟨1, by norm_num, Or.inl h⟩
    · exact ⟨(a - b) / 2, by linarith, Or.inr (Or.inr (by linarith))⟩
  induction E with
  | nil => exact ⟨1, by norm_num, by simp [Far]⟩
  | cons v E ih =>
    obtain ⟨ε, h0, h⟩ := ih
    obtain ⟨e1, p1, g1⟩ := one v.1.1 q.1
    obtain ⟨e2, p2, g2⟩ := one (v.1.2 + ((-1 : Int) : ℚ) * (q.1 - v.1.1)) q.2
    obtain ⟨e3, p3, g3⟩ := one (v.1.2 + ((0 : Int) : ℚ) * (q.1 - v.1.1)) q.2
    obtain ⟨e4, p4, g4⟩ := one (v.1.2 + ((1 : Int) : ℚ) * (q.1 - v.1.1)) q.2
    obtain ⟨δ, d0, d1, d2, d3, d4, d5⟩ : ∃ δ, 0 < δ ∧ δ ≤ ε ∧ δ ≤ e1 ∧ δ ≤ e2 ∧ δ ≤ e3 ∧ δ ≤ e4 := by
      refine ⟨min ε (min e1 (min e2 (min e3 e4))), lt_min h0 (lt_min p1 (lt_min p2 (lt_min p3 p4))), min_le_left _ _, ?_, ?_, ?_, ?_⟩
      · exact le_trans (min_le_right _ _) (min_le_left _ _)
      · exact le_trans (min_le_right _ _) (le_trans (min_le_right _ _) (min_le_left _ _))
      · exact le_trans (min_le_right _ _) (le_trans (min_le_right _ _) (le_trans (min_le_right _ _) (min_le_left _ _)))
      · exact le_trans (min_le_right _ _) (le_trans (min_le_right _ _) (le_trans (min_le_right _ _) (min_le_right _ _)))
    refine ⟨δ, d0, ?_⟩
    have lift : ∀ {a b e : ℚ}, δ ≤ e → (a = b ∨ a + 2 * e ≤ b ∨ b + 2 * e ≤ a) → (a = b ∨ a + 2 * δ ≤ b ∨ b + 2 * δ ≤ a) := by
      intro a b e he h
      rcases h with h | h | h
      · exact Or.inl h
      · exact Or.inr (Or.inl (by linarith))
      · exact Or.inr (Or.inr (by linarith))
    intro u hu
    rcases List.mem_cons.1 hu with rfl | hu
    · refine ⟨?_, ?_⟩
      · rcases lift d2 g1 with h | h | h
        · exact Or.inl h
        · exact Or.inr (Or.inl (by linarith))
        · exact Or.inr (Or.inr (by linarith))
      · rintro r (rfl | rfl | rfl)
        · exact lift d3 g2
        · exact lift d4 g3
        · exact lift d5 g4
    · obtain ⟨h1, h2⟩ := h u hu
      refine ⟨?_, fun r hr => lift d1 (h2 r hr)⟩
      rcases h1 with h | h | h
      · exact Or.inl h
      · exact Or.inr (Or.inl (by linarith))
      · exact Or.inr (Or.inr (by linarith))

/-- What one half line gives next to the point. -/
theorem ray_local {q q' : ℚ × ℚ} {ε : ℚ} {a : P} {r : Int} (hr : r = -1 ∨ r = 0 ∨ r = 1) (c : Int)
    (h1 : (a.1 : ℚ) = q.1 ∨ (a.1 : ℚ) + ε ≤ q.1 ∨ q.1 + ε ≤ a.1)
    (h2 : (a.2 : ℚ) + r * (q.1 - a.1) = q.2 ∨ (a.2 : ℚ) + r * (q.1 - a.1) + 2 * ε ≤ q.2 ∨ q.2 + 2 * ε ≤ (a.2 : ℚ) + r * (q.1 - a.1))
    (hc : Close ε q q') : ray q' a r c =
      (if (a.1 : ℚ) < q.1 ∧ (a.2 : ℚ) + r * (q.1 - a.1) < q.2 then c else 0) +
      (if q.1 ≤ q'.1 then (if (a.1 : ℚ) = q.1 ∧ (a.2 : ℚ) < q.2 then c else 0) else 0) +
      (if r * (q'.1 - q.1) ≤ q'.2 - q.2 then (if (a.1 : ℚ) < q.1 ∧ (a.2 : ℚ) + r * (q.1 - a.1) = q.2 then c else 0) +
        (if q.1 ≤ q'.1 then (if (a.1 : ℚ) = q.1 ∧ (a.2 : ℚ) = q.2 then c else 0) else 0) else 0) := by
  obtain ⟨⟨x1, x2⟩, y1, y2⟩ := hc
  have hm : -ε < (r : ℚ) * (q'.1 - q.1) ∧ (r : ℚ) * (q'.1 - q.1) < ε := by
    rcases hr with h | h | h <;> rw [h] <;> push_cast <;> constructor <;> linarith
  have e0 : (a.2 : ℚ) + r * (q'.1 - a.1) = (a.2 : ℚ) + r * (q.1 - a.1) + r * (q'.1 - q.1) := by ring
  unfold ray
  rw [e0]
  obtain ⟨m1, m2⟩ := hm
  generalize (r : ℚ) * (q'.1 - q.1) = m at *
  rcases h1 with h1 | h1 | h1
  · -- the same abscissa
    have ez : (r : ℚ) * (q.1 - a.1) = 0 := by rw [h1]; ring
    rw [ez, add_zero] at h2 ⊢
    rw [h1]
    simp only [lt_self_iff_false, false_and, if_false, true_and, zero_add]
    by_cases c1 : q.1 ≤ q'.1
    · simp only [c1, true_and, if_true]
      rcases h2 with h2 | h2 | h2
      · rw [h2]
        simp only [lt_self_iff_false, if_false, if_true, zero_add]
        by_cases c2 : m ≤ q'.2 - q.2
        · rw [if_pos (by linarith), if_pos c2]
        · rw [if_neg (by intro h; exact c2 (by linarith)), if_neg c2]
      · rw [if_pos (show (a.2 : ℚ) + m ≤ q'.2 by linarith), if_pos (show (a.2 : ℚ) < q.2 by linarith), if_neg (show ¬ (a.2 : ℚ) = q.2 by intro h; linarith)]
        simp
      · rw [if_neg (show ¬ (a.2 : ℚ) + m ≤ q'.2 by intro h; linarith), if_neg (show ¬ (a.2 : ℚ) < q.2 by intro h; linarith), if_neg (show ¬ (a.2 : ℚ) = q.2 by intro h; linarith)]
        simp
    · simp only [c1, false_and, if_false, zero_add]
      split_ifs <;> simp
  · rw [if_neg (show ¬ ((a.1 : ℚ) = q.1 ∧ (a.2 : ℚ) < q.2) from fun h => by linarith [h.1]),
      if_neg (show ¬ ((a.1 : ℚ) = q.1 ∧ (a.2 : ℚ) = q.2) from fun h => by linarith [h.1])]
    have l1 : (a.1 : ℚ) ≤ q'.1 := by linarith
    have l2 : (a.1 : ℚ) < q.1 := by linarith
    simp only [l1, l2, true_and, ite_self, add_zero]
    rcases h2 with h2 | h2 | h2
    · rw [h2]
      simp only [lt_self_iff_false, if_false, if_true, zero_add]
      by_cases c2 : m ≤ q'.2 - q.2
      · rw [if_pos (by linarith), if_pos c2]
      · rw [if_neg (by intro h; exact c2 (by linarith)), if_neg c2]
    · generalize (a.2 : ℚ) + r * (q.1 - a.1) = b at *
      rw [if_pos (show b + m ≤ q'.2 by linarith), if_pos (show b < q.2 by linarith), if_neg (show ¬ b = q.2 by intro h; linarith)]
      simp
    · generalize (a.2 : ℚ) + r * (q.1 - a.1) = b at *
      rw [if_neg (show ¬ b + m ≤ q'.2 by intro h; linarith), if_neg (show ¬ b < q.2 by intro h; linarith), if_neg (show ¬ b = q.2 by intro h; linarith)]
      simp
  · rw [if_neg (show ¬ ((a.1 : ℚ) ≤ q'.1 ∧ _) from fun h => by linarith [h.1])]
    rw [if_neg (show ¬ ((a.1 : ℚ) = q.1 ∧ (a.2 : ℚ) < q.2) from fun h => by linarith [h.1]),
      if_neg (show ¬ ((a.1 : ℚ) = q.1 ∧ (a.2 : ℚ) = q.2) from fun h => by linarith [h.1]),
      if_neg (show ¬ ((a.1 : ℚ) < q.1 ∧ _) from fun h => by linarith [h.1]),
      if_neg (show ¬ ((a.1 : ℚ) < q.1 ∧ _) from fun h => by linarith [h.1])]
    simp

/-- The part of one slope. -/
def part (E : List VC) (q q' : ℚ × ℚ) (r : Int) : Int :=
  base E q r + (if q.1 ≤ q'.1 then col E q r else 0) +
    (if r * (q'.1 - q.1) ≤ q'.2 - q.2 then W E q r + (if q.1 ≤ q'.1 then F E q r else 0) else 0)

theorem tot_ray {E : List VC} {q q' : ℚ × ℚ} {ε : ℚ} (hf : Far E q ε) (hc : Close ε q q') {r : Int} (hr : r = -1 ∨ r = 0 ∨ r = 1) :
    tot E (reach q' r) (fun c => qat c r) = part E q q' r := by
  have hr2 : r ≠ 2 := by omega
  induction E with
  | nil => simp [part, base, col, W, F]
  | cons v E ih =>
    have ih' := ih (fun u hu => hf u (List.mem_cons_of_mem _ hu))
    obtain ⟨h1, h2⟩ := hf v List.mem_cons_self
    have hl := ray_local hr (qat v.2 r) h1 (h2 r hr) hc
    rw [tot_cons, ih']
    have e1 : (if reach q' r v.1 = true then qat v.2 r else 0) = ray q' v.1 r (qat v.2 r) := by
      unfold reach ray
      simp only [decide_eq_true_eq]
    rw [e1, hl]
    unfold part base col W F Before
    simp only [tot_cons, hr2, if_false, decide_eq_true_eq]
    by_cases c1 : q.1 ≤ q'.1 <;> by_cases c2 : (r : ℚ) * (q'.1 - q.1) ≤ q'.2 - q.2 <;> simp only [c1, c2, if_true, if_false] <;> ring

theorem depth_part {E : List VC} {q q' : ℚ × ℚ} {ε : ℚ} (hf : Far E q ε) (hc : Close ε q q') :
    depth E q' = part E q q' (-1) + part E q q' 0 + part E q q' 1 := by
  rw [depth_tot]
  have h1 := tot_ray hf hc (r := -1) (by simp)
  have h2 := tot_ray hf hc (r := 0) (by simp)
  have h3 := tot_ray hf hc (r := 1) (by simp)
  rw [← h1, ← h2, ← h3]
  rfl

theorem col_sum {E : List VC} (hc : Closed E) (q : ℚ × ℚ) : col E q (-1) + col E q 0 + col E q 1 = W E q 2 := by
  have := closed_points hc (fun a => decide ((a.1 : ℚ) = q.1 ∧ (a.2 : ℚ) < q.2))
  rw [tot_add, tot_add] at this
  exact this

/-- The depth next to a point, from the weights of the lines through it. -/
theorem depth_local {E : List VC} (hc : Closed E) {q q' : ℚ × ℚ} {ε : ℚ} (hf : Far E q ε) (hcl : Close ε q q') :
    depth E q' = (base E q (-1) + base E q 0 + base E q 1) + (if q.1 ≤ q'.1 then W E q 2 else 0) +
      (if -(q'.1 - q.1) ≤ q'.2 - q.2 then W E q (-1) + (if q.1 ≤ q'.1 then F E q (-1) else 0) else 0) +
      (if 0 ≤ q'.2 - q.2 then W E q 0 + (if q.1 ≤ q'.1 then F E q 0 else 0) else 0) +
      (if q'.1 - q.1 ≤ q'.2 - q.2 then W E q 1 + (if q.1 ≤ q'.1 then F E q 1 else 0) else 0) := by
  rw [depth_part hf hcl, ← col_sum hc]
  unfold part
  have e1 : (((-1 : Int) : ℚ)) * (q'.1 - q.1) = -(q'.1 - q.1) := by push_cast; ring
  have e2 : (((0 : Int) : ℚ)) * (q'.1 - q.1) = 0 := by push_cast; ring
  have e3 : (((1 : Int) : ℚ)) * (q'.1 - q.1) = q'.1 - q.1 := by push_cast; ring
  rw [e1, e2, e3]
  by_cases c1 : q.1 ≤ q'.1 <;> simp only [c1, if_true, if_false] <;> ring

/-- The eight sectors around a point without weights of its own. -/
theorem sectors {E : List VC} (hc : Closed E) {q : ℚ × ℚ} (hF : ∀ r, F E q r = 0) (δ : ℚ) (hδ : 0 < δ) : ∃ t A, 0 < t ∧ 2 * t < δ ∧
    depth E (q.1 - t, q.2 - 2 * t) = A ∧ depth E (q.1 - t, q.2 - t) = A + W E q 1 ∧ depth E (q.1 - t, q.2) = A + W E q 1 + W E q 0 ∧
    depth E (q.1 - t, q.2 + t) = A + W E q 1 + W E q 0 + W E q (-1) ∧
    depth E (q.1 + t, q.2 - 2 * t) = A + W E q 2 ∧ depth E (q.1 + t, q.2 - t) = A + W E q 2 + W E q (-1) ∧
    depth E (q.1 + t, q.2) = A + W E q 2 + W E q (-1) + W E q 0 ∧ depth E (q.1 + t, q.2 + t) = A + W E q 2 + W E q (-1) + W E q 0 + W E q 1 := by
  obtain ⟨ε, h0, hf⟩ := far_exists E q
  obtain ⟨t, t0, t1, t2⟩ : ∃ t, 0 < t ∧ 2 * t < ε ∧ 2 * t < δ := by
    refine ⟨min ε δ / 4, by have := lt_min h0 hδ; linarith, ?_, ?_⟩
    · have := min_le_left ε δ; have := lt_min h0 hδ; linarith
    · have := min_le_right ε δ; have := lt_min h0 hδ; linarith
  refine ⟨t, base E q (-1) + base E q 0 + base E q 1, t0, t2, ?_⟩
  have hcl : ∀ x y : ℚ, -ε < x → x < ε → -ε < y → y < ε → Close ε q (q.1 + x, q.2 + y) := by
    intro x y a b c d
    refine ⟨⟨?_, ?_⟩, ?_, ?_⟩ <;> dsimp only <;> linarith
  have key : ∀ x y : ℚ, -ε < x → x < ε → -ε < y → y < ε → depth E (q.1 + x, q.2 + y) =
      (base E q (-1) + base E q 0 + base E q 1) + (if 0 ≤ x then W E q 2 else 0) + (if -x ≤ y then W E q (-1) else 0) +
      (if 0 ≤ y then W E q 0 else 0) + (if x ≤ y then W E q 1 else 0) := by
    intro x y a b c d
    rw [depth_local hc hf (hcl x y a b c d)]
    dsimp only
    simp only [hF, ite_self, add_zero, add_sub_cancel_left, le_add_iff_nonneg_right]
  have sb : ∀ x y : ℚ, (q.1 - x, q.2 - y) = (q.1 + -x, q.2 + -y) := fun x y => by rw [sub_eq_add_neg, sub_eq_add_neg]
  have l1 : ¬ (0 : ℚ) ≤ -t := by linarith
  have l2 : ¬ (0 : ℚ) ≤ -(2 * t) := by linarith
  have l3 : (0 : ℚ) ≤ t := le_of_lt t0
  refine ⟨?_, ?_, ?_, ?_, ?_, ?_, ?_, ?_⟩
  · rw [sb, key _ _ (by linarith) (by linarith) (by linarith) (by linarith), if_neg l1, if_neg l2, if_neg (by linarith), if_neg (by linarith)]; ring
  · rw [sb, key _ _ (by linarith) (by linarith) (by linarith) (by linarith), if_neg l1, if_neg l1, if_neg (by linarith), if_pos (by linarith)]; ring
  · rw [show (q.1 - t, q.2) = (q.1 + -t, q.2 + 0) by simp [sub_eq_add_neg], key _ _ (by linarith) (by linarith) (by linarith) (by linarith),
      if_neg l1, if_neg (by linarith), if_pos (by linarith), if_pos (by linarith)]; ring
  · rw [show (q.1 - t, q.2 + t) = (q.1 + -t, q.2 + t) by simp [sub_eq_add_neg], key _ _ (by linarith) (by linarith) (by linarith) (by linarith),
      if_neg l1, if_pos (by linarith), if_pos (by linarith), if_pos (by linarith)]; ring
  · rw [show (q.1 + t, q.2 - 2 * t) = (q.1 + t, q.2 + -(2 * t)) by simp [sub_eq_add_neg], key _ _ (by linarith) (by linarith) (by linarith) (by linarith),
      if_pos l3, if_neg (by linarith), if_neg l2, if_neg (by linarith)]; ring
  · rw [show (q.1 + t, q.2 - t) = (q.1 + t, q.2 + -t) by simp [sub_eq_add_neg], key _ _ (by linarith) (by linarith) (by linarith) (by linarith),
      if_pos l3, if_pos (by linarith), if_neg l1, if_neg (by linarith)]; ring
  · rw [show (q.1 + t, q.2) = (q.1 + t, q.2 + 0) by simp, key _ _ (by linarith) (by linarith) (by linarith) (by linarith),
      if_pos l3, if_pos (by linarith), if_pos (by linarith), if_neg (by linarith)]; ring
  · rw [key _ _ (by linarith) (by linarith) (by linarith) (by linarith), if_pos l3, if_pos (by linarith), if_pos (by linarith), if_pos (by linarith)]

/-- Without lines through a point the depth next to it does not change. -/
theorem local_const {E : List VC} (hc : Closed E) {q : ℚ × ℚ} (hF : ∀ r, F E q r = 0) (hW : ∀ r, (r = -1 ∨ r = 0 ∨ r = 1 ∨ r = 2) → W E q r = 0) :
    ∃ ε A, 0 < ε ∧ ∀ q', Close ε q q' → depth E q' = A := by
  obtain ⟨ε, h0, hf⟩ := far_exists E q
  refine ⟨ε, base E q (-1) + base E q 0 + base E q 1, h0, fun q' hq => ?_⟩
  rw [depth_local hc hf hq]
  simp [hF, hW]

/-- Left of the point the depth changes twice as one goes up. -/
def Left2 (f : ℚ × ℚ → Int) (p : P) : Prop :=
  ∀ ε : ℚ, 0 < ε → ∃ t z1 z2 z3 : ℚ, 0 < t ∧ t < ε ∧ p.2 - ε < z1 ∧ z1 < z2 ∧ z2 < z3 ∧ z3 < p.2 + ε ∧
    f (p.1 - t, z1) ≠ f (p.1 - t, z2) ∧ f (p.1 - t, z2) ≠ f (p.1 - t, z3)

theorem left2 {E : List VC} (hc : Closed E) {p : P} (hF : ∀ r, F E ((p.1 : ℚ), (p.2 : ℚ)) r = 0)
    (h : (W E (p.1, p.2) 1 ≠ 0 ∧ W E (p.1, p.2) 0 ≠ 0) ∨ (W E (p.1, p.2) 1 ≠ 0 ∧ W E (p.1, p.2) (-1) ≠ 0) ∨ (W E (p.1, p.2) 0 ≠ 0 ∧ W E (p.1, p.2) (-1) ≠ 0)) :
    Left2 (depth E) p := by
  intro ε hε
  obtain ⟨t, A, t0, t1, s1, s2, s3, s4, -⟩ := sectors hc hF ε hε
  dsimp only at s1 s2 s3 s4
  by_cases c0 : W E (p.1, p.2) 0 = 0
  · have h1 : W E (p.1, p.2) 1 ≠ 0 ∧ W E (p.1, p.2) (-1) ≠ 0 := by
      rcases h with h | h | h
      · exact absurd c0 h.2
      · exact h
      · exact absurd c0 h.1
    refine ⟨t, p.2 - 2 * t, p.2 - t, p.2 + t, t0, by linarith, by linarith, by linarith, by linarith, by linarith, ?_, ?_⟩
    · rw [s1, s2]; omega
    · rw [s2, s4, c0]; omega
  · by_cases c1 : W E (p.1, p.2) 1 = 0
    · have h1 : W E (p.1, p.2) (-1) ≠ 0 := by
        rcases h with h | h | h
        · exact absurd c1 h.1
        · exact absurd c1 h.1
        · exact h.2
      refine ⟨t, p.2 - t, p.2, p.2 + t, t0, by linarith, by linarith, by linarith, by linarith, by linarith, ?_, ?_⟩
      · rw [s2, s3]; omega
      · rw [s3, s4]; omega
    · refine ⟨t, p.2 - 2 * t, p.2 - t, p.2, t0, by linarith, by linarith, by linarith, by linarith, by linarith, ?_, ?_⟩
      · rw [s1, s2]; omega
      · rw [s2, s3]; omega

theorem cross_int {A w1 w2 w3 w4 : Int} (a1 : A = 0 ∨ A = 1) (a2 : A + w3 = 0 ∨ A + w3 = 1) (a3 : A + w3 + w2 = 0 ∨ A + w3 + w2 = 1)
    (a4 : A + w3 + w2 + w1 = 0 ∨ A + w3 + w2 + w1 = 1) (a5 : A + w4 = 0 ∨ A + w4 = 1) (a6 : A + w4 + w1 = 0 ∨ A + w4 + w1 = 1)
    (a7 : A + w4 + w1 + w2 = 0 ∨ A + w4 + w1 + w2 = 1) (a8 : A + w4 + w1 + w2 + w3 = 0 ∨ A + w4 + w1 + w2 + w3 = 1) :
    ((w1 ≠ 0 ∧ w2 ≠ 0) ∨ (w1 ≠ 0 ∧ w3 ≠ 0) ∨ (w1 ≠ 0 ∧ w4 ≠ 0) ∨ (w2 ≠ 0 ∧ w3 ≠ 0) ∨ (w2 ≠ 0 ∧ w4 ≠ 0) ∨ (w3 ≠ 0 ∧ w4 ≠ 0)) →
    ((w3 ≠ 0 ∧ w2 ≠ 0) ∨ (w3 ≠ 0 ∧ w1 ≠ 0) ∨ (w2 ≠ 0 ∧ w1 ≠ 0)) ∧ (w2 ≠ 0 ∨ w4 ≠ 0) := by
  have b1 : -1 ≤ w1 ∧ w1 ≤ 1 := by omega
  have b2 : -1 ≤ w2 ∧ w2 ≤ 1 := by omega
  have b3 : -1 ≤ w3 ∧ w3 ≤ 1 := by omega
  have b4 : -1 ≤ w4 ∧ w4 ≤ 1 := by omega
  obtain ⟨b11, b12⟩ := b1
  obtain ⟨b21, b22⟩ := b2
  obtain ⟨b31, b32⟩ := b3
  obtain ⟨b41, b42⟩ := b4
  rcases a1 with rfl | rfl <;> interval_cases w1 <;> interval_cases w2 <;> interval_cases w3 <;> interval_cases w4 <;> revert a2 a3 a4 a5 a6 a7 a8 <;> decide

/-- Lines that cross where there is no vertex: at least two of them are not vertical, and the point is on the grid. -/
theorem crossing {E : List VC} (hc : Closed E) (h01 : ∀ q, depth E q = 0 ∨ depth E q = 1) {q : ℚ × ℚ} (hF : ∀ r, F E q r = 0) {r s : Int} (hr : r = -1 ∨ r = 0 ∨ r = 1 ∨ r = 2)
    (hs : s = -1 ∨ s = 0 ∨ s = 1 ∨ s = 2) (hrs : r ≠ s) (h1 : W E q r ≠ 0) (h2 : W E q s ≠ 0) :
    ((W E q 1 ≠ 0 ∧ W E q 0 ≠ 0) ∨ (W E q 1 ≠ 0 ∧ W E q (-1) ≠ 0) ∨ (W E q 0 ≠ 0 ∧ W E q (-1) ≠ 0)) ∧ (W E q 0 ≠ 0 ∨ W E q 2 ≠ 0) := by
  obtain ⟨t, A, -, -, s1, s2, s3, s4, s5, s6, s7, s8⟩ := sectors hc hF 1 (by norm_num)
  have a1 := h01 (q.1 - t, q.2 - 2 * t)
  have a2 := h01 (q.1 - t, q.2 - t)
  have a3 := h01 (q.1 - t, q.2)
  have a4 := h01 (q.1 - t, q.2 + t)
  have a5 := h01 (q.1 + t, q.2 - 2 * t)
  have a6 := h01 (q.1 + t, q.2 - t)
  have a7 := h01 (q.1 + t, q.2)
  have a8 := h01 (q.1 + t, q.2 + t)
  rw [s1] at a1; rw [s2] at a2; rw [s3] at a3; rw [s4] at a4; rw [s5] at a5; rw [s6] at a6; rw [s7] at a7; rw [s8] at a8
  refine cross_int a1 a2 a3 a4 a5 a6 a7 a8 ?_
  rcases hr with rfl | rfl | rfl | rfl <;> rcases hs with rfl | rfl | rfl | rfl <;> first | exact absurd rfl hrs | simp [h1, h2]

/-- A line through a point without weights of its own carries one unit. -/
theorem unit {E : List VC} (hc : Closed E) (h01 : ∀ q, depth E q = 0 ∨ depth E q = 1) {q : ℚ × ℚ} (hF : ∀ r, F E q r = 0) {r : Int} (hr : r = -1 ∨ r = 0 ∨ r = 1 ∨ r = 2)
    (h1 : W E q r ≠ 0) : W E q r = 1 ∨ W E q r = -1 := by
  obtain ⟨t, A, -, -, s1, s2, s3, s4, s5, s6, s7, s8⟩ := sectors hc hF 1 (by norm_num)
  have a1 := h01 (q.1 - t, q.2 - 2 * t)
  have a2 := h01 (q.1 - t, q.2 - t)
  have a3 := h01 (q.1 - t, q.2)
  have a4 := h01 (q.1 - t, q.2 + t)
  have a5 := h01 (q.1 + t, q.2 - 2 * t)
  rw [s1] at a1; rw [s2] at a2; rw [s3] at a3; rw [s4] at a4; rw [s5] at a5
  rcases hr with rfl | rfl | rfl | rfl
  · clear a1 a2 a5; omega
  · clear a1 a4 a5; omega
  · clear a3 a4 a5; omega
  · clear a2 a3 a4; omega

end Verif.N45
