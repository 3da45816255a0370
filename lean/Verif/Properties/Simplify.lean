import Verif.Model.Simplify
import Verif.Spec.Simplify
import Mathlib.Tactic.Linarith
import Mathlib.Tactic.FieldSimp
import Mathlib.Tactic.Ring
import Mathlib.Tactic.NormNum
/-!
# C45: simplification
-/
namespace Verif.Properties.Simplify
open Verif.Simplify Verif.Spec.Simplify

private theorem sq_pos_of_ne {x y : ℚ} (h : ¬ x * x + y * y = 0) : 0 < x * x + y * y := by
  rcases lt_or_eq_of_le (by nlinarith [mul_self_nonneg x, mul_self_nonneg y] : (0:ℚ) ≤ x * x + y * y) with g | g
  · exact g
  · exact absurd g.symm h

/-- What one vertex test guarantees for every triple: a vertex that is removed lies within the
tolerance of the infinite line through its neighbours, or its neighbours coincide. The claim asks for
the segment instead of the line; `C45_removes_far_vertex_violated` shows that this fails. -/
theorem C45_removed_near_line_partial (len : ℚ) (a b c : ℚ × ℚ) (h : keep len a b c = false) :
    a = c ∨ NearLine len a b c := by
  unfold keep dist2 at h
  dsimp only at h
  by_cases h0 : (c.1 - a.1) * (c.1 - a.1) + (c.2 - a.2) * (c.2 - a.2) = 0
  · left
    have h1 : c.1 - a.1 = 0 := by
      have := mul_self_nonneg (c.1 - a.1); have := mul_self_nonneg (c.2 - a.2)
      exact mul_self_eq_zero.mp (by linarith)
    have h2 : c.2 - a.2 = 0 := by
      have := mul_self_nonneg (c.1 - a.1); have := mul_self_nonneg (c.2 - a.2)
      exact mul_self_eq_zero.mp (by linarith)
    ext <;> linarith
  · right
    rw [if_neg h0] at h
    have hp := sq_pos_of_ne h0
    unfold NearLine Within
    split_ifs at h with g1 g2
    · refine ⟨0, ?_⟩
      simp only [gt_iff_lt, decide_eq_false_iff_not, not_lt] at h
      dsimp only
      nlinarith
    · refine ⟨1, ?_⟩
      simp only [gt_iff_lt, decide_eq_false_iff_not, not_lt] at h
      dsimp only
      nlinarith
    · refine ⟨((b.1 - a.1) * (c.1 - a.1) + (b.2 - a.2) * (c.2 - a.2)) /
        ((c.1 - a.1) * (c.1 - a.1) + (c.2 - a.2) * (c.2 - a.2)), ?_⟩
      simp only [gt_iff_lt, decide_eq_false_iff_not, not_lt] at h
      dsimp only
      generalize ((b.1 - a.1) * (c.1 - a.1) + (b.2 - a.2) * (c.2 - a.2)) /
        ((c.1 - a.1) * (c.1 - a.1) + (c.2 - a.2) * (c.2 - a.2)) = t at h ⊢
      calc _ = (b.1 - a.1 - (c.1 - a.1) * t) * (b.1 - a.1 - (c.1 - a.1) * t) +
          (b.2 - a.2 - (c.2 - a.2) * t) * (b.2 - a.2 - (c.2 - a.2) * t) := by ring
        _ ≤ _ := by rw [pow_two]; exact h

example : keep 1 (0, 0) (5, 1) (10, 0) = false := by decide +kernel

/-- The clamped projection minimises the distance to the segment. -/
private theorem near_iff (len : ℚ) (ux uy wx wy : ℚ) (hp : 0 < wx * wx + wy * wy) :
    (∃ t : ℚ, 0 ≤ t ∧ t ≤ 1 ∧ (ux - t * wx) ^ 2 + (uy - t * wy) ^ 2 ≤ len ^ 2) ↔
    ((if (ux * wx + uy * wy) / (wx * wx + wy * wy) < 0 then ux * ux + uy * uy
      else if (ux * wx + uy * wy) / (wx * wx + wy * wy) > 1 then (wx - ux) * (wx - ux) + (wy - uy) * (wy - uy)
      else (ux - wx * ((ux * wx + uy * wy) / (wx * wx + wy * wy))) * (ux - wx * ((ux * wx + uy * wy) / (wx * wx + wy * wy))) +
        (uy - wy * ((ux * wx + uy * wy) / (wx * wx + wy * wy))) * (uy - wy * ((ux * wx + uy * wy) / (wx * wx + wy * wy)))) ≤
      len * len) := by
  obtain ⟨f, hf⟩ : ∃ f, f = (ux * wx + uy * wy) / (wx * wx + wy * wy) := ⟨_, rfl⟩
  rw [← hf]
  have hf' : f * (wx * wx + wy * wy) = ux * wx + uy * wy := by rw [hf, div_mul_cancel₀ _ hp.ne']
  have key : ∀ t : ℚ, (ux - t * wx) ^ 2 + (uy - t * wy) ^ 2 =
      (ux - f * wx) ^ 2 + (uy - f * wy) ^ 2 + (t - f) ^ 2 * (wx * wx + wy * wy) := by
    intro t
    have : (ux - t * wx) ^ 2 + (uy - t * wy) ^ 2 - ((ux - f * wx) ^ 2 + (uy - f * wy) ^ 2)
        - (t - f) ^ 2 * (wx * wx + wy * wy) = 2 * (t - f) * (f * (wx * wx + wy * wy) - (ux * wx + uy * wy)) := by ring
    rw [hf'] at this
    linarith
  constructor
  · rintro ⟨t, ht0, ht1, h⟩
    have kt := key t
    split_ifs with g1 g2
    · have k0 := key 0
      have : (0 - f) ^ 2 * (wx * wx + wy * wy) ≤ (t - f) ^ 2 * (wx * wx + wy * wy) :=
        mul_le_mul_of_nonneg_right (by nlinarith) hp.le
      nlinarith
    · have k0 := key 1
      have : (1 - f) ^ 2 * (wx * wx + wy * wy) ≤ (t - f) ^ 2 * (wx * wx + wy * wy) :=
        mul_le_mul_of_nonneg_right (by nlinarith) hp.le
      nlinarith
    · have : 0 ≤ (t - f) ^ 2 * (wx * wx + wy * wy) := mul_nonneg (sq_nonneg _) hp.le
      nlinarith
  · split_ifs with g1 g2
    · intro h; exact ⟨0, le_refl _, by norm_num, by nlinarith⟩
    · intro h; exact ⟨1, by norm_num, le_refl _, by nlinarith⟩
    · intro h
      exact ⟨f, not_lt.mp g1, not_lt.mp g2, by nlinarith⟩

/-- Where the test is exact: when the neighbours lie on one horizontal line, or on one line of slope
one, a vertex is removed exactly when it is within the tolerance of the segment joining them. -/
theorem C45_removed_exact_partial (len : ℚ) (a b c : ℚ × ℚ) (hac : a ≠ c)
    (hdir : c.2 - a.2 = 0 ∨ c.2 - a.2 = c.1 - a.1) :
    keep len a b c = false ↔ NearSegment len a b c := by
  have h0 : ¬ (c.1 - a.1) * (c.1 - a.1) + (c.2 - a.2) * (c.2 - a.2) = 0 := by
    intro h0
    apply hac
    have h1 : c.1 - a.1 = 0 := by
      have := mul_self_nonneg (c.1 - a.1); have := mul_self_nonneg (c.2 - a.2)
      exact mul_self_eq_zero.mp (by linarith)
    have h2 : c.2 - a.2 = 0 := by
      have := mul_self_nonneg (c.1 - a.1); have := mul_self_nonneg (c.2 - a.2)
      exact mul_self_eq_zero.mp (by linarith)
    ext <;> linarith
  have hp := sq_pos_of_ne h0
  have hn := near_iff len (b.1 - a.1) (b.2 - a.2) (c.1 - a.1) (c.2 - a.2) hp
  have hsp : NearSegment len a b c ↔ ∃ t : ℚ, 0 ≤ t ∧ t ≤ 1 ∧
      ((b.1 - a.1) - t * (c.1 - a.1)) ^ 2 + ((b.2 - a.2) - t * (c.2 - a.2)) ^ 2 ≤ len ^ 2 := by
    unfold NearSegment Within
    refine exists_congr fun t => and_congr_right fun _ => and_congr_right fun _ => ?_
    dsimp only
    rw [show b.1 - (a.1 + t * (c.1 - a.1)) = (b.1 - a.1) - t * (c.1 - a.1) by ring,
      show b.2 - (a.2 + t * (c.2 - a.2)) = (b.2 - a.2) - t * (c.2 - a.2) by ring]
  rw [hsp, hn]
  unfold keep dist2
  dsimp only
  rw [if_neg h0]
  obtain ⟨f, hf⟩ : ∃ f, f = ((b.1 - a.1) * (c.1 - a.1) + (b.2 - a.2) * (c.2 - a.2)) /
      ((c.1 - a.1) * (c.1 - a.1) + (c.2 - a.2) * (c.2 - a.2)) := ⟨_, rfl⟩
  rw [← hf]
  have hff : ((c.1 - a.1) * f * (c.1 - a.1) + (c.2 - a.2) * f * (c.1 - a.1)) /
      ((c.1 - a.1) * (c.1 - a.1) + (c.2 - a.2) * (c.2 - a.2)) = f := by
    rw [div_eq_iff h0]
    rcases hdir with g | g <;> rw [g] <;> ring
  rw [hff, show c.1 - b.1 = (c.1 - a.1) - (b.1 - a.1) by ring, show c.2 - b.2 = (c.2 - a.2) - (b.2 - a.2) by ring]
  split_ifs <;> simp

example : (0, 0) ≠ ((10, 0) : ℚ × ℚ) ∧ keep 1 (0, 0) (12, 0) (10, 0) = true ∧
    keep 1 (0, 0) (11, 0) (10, 0) = false := by decide +kernel

/-- The claim fails in the removing direction: on the quadrilateral (0,0), (0,100), (0,10), (-50,5)
with tolerance 1 the tip (0,100) is removed, although it is 90 away from the segment joining its
neighbours (0,0) and (0,10). The second product of the clamping quotient multiplies by the wrong
component, so on a vertical segment the projection is never recognised as being past the end. -/
theorem C45_removes_far_vertex_violated :
    simplify [(0, 0), (0, 100), (0, 10), (-50, 5)] 1 = some ([(0, 10), (-50, 5), (0, 0)], 1) ∧
    ¬ NearSegment 1 (0, 0) (0, 100) (0, 10) := by
  constructor
  · have e1 : pass 1 [(0, 0), (0, 100), (0, 10), (-50, 5)] = [(0, 10), (-50, 5), (0, 0)] := by decide +kernel
    have e2 : pass 1 [(0, 10), (-50, 5), (0, 0)] = [(-50, 5), (0, 0), (0, 10)] := by decide +kernel
    unfold simplify
    simp only [List.head?_cons, List.getLast?_cons_cons, List.getLast?_singleton]
    rw [loop, e1]
    norm_num
    rw [loop, e2]
    norm_num
  · rintro ⟨t, h0, h1, h⟩
    unfold Within at h
    dsimp only at h
    nlinarith

/-- The claim fails in the other direction too: the vertex (5,-10) lies on the segment joining its
neighbours and is still there at the end, with any tolerance below its distance to the first of them. -/
theorem C45_leaves_collinear_vertex_violated :
    simplify [(0, 0), (5, -10), (10, -20), (100, 100)] 1 = some ([(0, 0), (5, -10), (10, -20), (100, 100)], 0) ∧
    NearSegment 0 (0, 0) (5, -10) (10, -20) := by
  constructor
  · have e1 : (pass 1 [(0, 0), (5, -10), (10, -20), (100, 100)]).length = 4 := by decide +kernel
    unfold simplify
    simp only [List.head?_cons, List.getLast?_cons_cons, List.getLast?_singleton]
    rw [loop, e1]
    norm_num
  · exact ⟨1 / 2, by norm_num, by norm_num, by unfold Within; norm_num⟩

/-! ### The vertex list -/

private theorem passGo_sublist (len : ℚ) (f s p : P) (l : List P) : (passGo len f s p l).Sublist (l ++ [f]) := by
  induction l generalizing p with
  | nil => unfold passGo; split <;> simp
  | cons b r ih =>
    unfold passGo
    dsimp only
    split
    · exact (ih b).cons_cons b
    · exact (ih p).cons b

private theorem pass_cyclic (len : ℚ) (d : List P) : (pass len d).Sublist (d.rotate 1) ∨ pass len d = d := by
  unfold pass
  split
  · left
    rw [List.rotate_cons_succ, List.rotate_zero]
    exact passGo_sublist len _ _ _ _
  · right; rfl

private theorem cyc_trans {α : Type} {a b c : List α} (h1 : CyclicSublist a b) (h2 : CyclicSublist b c) :
    CyclicSublist a c := by
  obtain ⟨k, hk⟩ := h1
  obtain ⟨j, hj⟩ := h2
  -- a rotation of a sublist is a sublist of a rotation
  have : ∃ i, (b.rotate k).Sublist (c.rotate i) := by
    rw [List.rotate_eq_drop_append_take_mod]
    have hb : b = b.take (k % b.length) ++ b.drop (k % b.length) := (List.take_append_drop _ _).symm
    rw [hb, List.append_sublist_iff] at hj
    obtain ⟨r1, r2, hr, s1, s2⟩ := hj
    refine ⟨j + r1.length, ?_⟩
    rw [← List.rotate_rotate, hr, List.rotate_append_length_eq]
    exact s2.append s1
  obtain ⟨i, hi⟩ := this
  exact ⟨i, hk.trans hi⟩

private theorem loop_spec (len : ℚ) (d : List P) (n : Nat) (e : List P) (m : Nat) (h : loop len d n = some (e, m)) :
    CyclicSublist e d ∧ n ≤ m ∧ m - n + e.length = d.length ∧ 3 ≤ e.length ∧ (pass len e).length = e.length := by
  induction hn : d.length using Nat.strong_induction_on generalizing d n with
  | _ k ih =>
    unfold loop at h
    split at h
    · exact absurd h (by simp)
    rename_i h3
    have hl := pass_length len d
    split at h
    · rename_i h0
      simp only [Option.some.injEq, Prod.mk.injEq] at h
      obtain ⟨rfl, rfl⟩ := h
      exact ⟨⟨0, by simp⟩, le_refl _, by omega, by omega, by omega⟩
    · rename_i h0
      have := ih _ (by omega) (pass len d) _ h rfl
      refine ⟨cyc_trans this.1 ?_, by omega, by omega, this.2.2.2⟩
      rcases pass_cyclic len d with g | g
      · exact ⟨1, g⟩
      · exact ⟨0, by rw [g]; simp⟩

private theorem pass_full (len : ℚ) (f s p : P) (l : List P) (h : (passGo len f s p l).length = l.length + 1) :
    (∀ i, (hi : i < l.length) → keep len ((p :: l)[i]'(by simp; omega)) l[i] ((l ++ [f])[i + 1]'(by simpa using hi)) = true) ∧
    keep len ((p :: l)[l.length]'(by simp)) f s = true := by
  induction l generalizing p with
  | nil =>
    refine ⟨fun i hi => absurd hi (by simp), ?_⟩
    unfold passGo at h
    by_contra g
    simp only [List.length_nil, List.getElem_cons_zero] at g
    rw [if_neg g] at h
    simp at h
  | cons b r ih =>
    unfold passGo at h
    dsimp only at h
    have hk : keep len p b (r.head?.getD f) = true := by
      by_contra g
      rw [if_neg g] at h
      have := passGo_length len f s p r
      simp only [List.length_cons] at h
      omega
    rw [if_pos hk] at h
    simp only [List.length_cons, Nat.add_right_cancel_iff] at h
    obtain ⟨i1, i2⟩ := ih b h
    refine ⟨fun i hi => ?_, by simpa using i2⟩
    match i with
    | 0 =>
      cases r with
      | nil => simpa using hk
      | cons c r => simpa using hk
    | i + 1 => simpa using i1 i (by simpa using hi)

private theorem full_cyclic (len : ℚ) (e : List P) (h3 : 3 ≤ e.length) (h : (pass len e).length = e.length) (i : Nat)
    (hi : i < e.length) : keep len e[i] (e[(i + 1) % e.length]'(Nat.mod_lt _ (by omega)))
      (e[(i + 2) % e.length]'(Nat.mod_lt _ (by omega))) = true := by
  match e, h3 with
  | a :: b :: c :: r, _ =>
    unfold pass at h
    obtain ⟨h1, h2⟩ := pass_full len a b a (b :: c :: r) (by simpa using h)
    simp only [List.length_cons] at hi h1 h2 ⊢
    by_cases g1 : i + 2 < r.length + 1 + 1 + 1
    · have := h1 i (by omega)
      simp only [Nat.mod_eq_of_lt g1, Nat.mod_eq_of_lt (show i + 1 < r.length + 1 + 1 + 1 by omega)]
      have e1 : (b :: c :: r ++ [a])[i + 1]'(by simp; omega) = (b :: c :: r)[i + 1]'(by simp; omega) :=
        List.getElem_append_left _
      rw [e1] at this
      simpa using this
    · by_cases g2 : i + 2 = r.length + 1 + 1 + 1
      · have := h1 i (by omega)
        simp only [g2, Nat.mod_self, Nat.mod_eq_of_lt (show i + 1 < r.length + 1 + 1 + 1 by omega)]
        have hir : i = r.length + 1 := by omega
        subst hir
        simpa [List.getElem_append] using this
      · have hir : i = r.length + 1 + 1 := by omega
        subst hir
        have e1 : (r.length + 1 + 1 + 1) % (r.length + 1 + 1 + 1) = 0 := Nat.mod_self _
        have e2 : (r.length + 1 + 1 + 2) % (r.length + 1 + 1 + 1) = 1 := by
          rw [show r.length + 1 + 1 + 2 = 1 + (r.length + 1 + 1 + 1) by omega, Nat.add_mod_right]
          exact Nat.mod_eq_of_lt (by omega)
        simp only [e1, e2]
        simpa using h2

private theorem keep_same (len : ℚ) (a c : P) : keep len a a c = false := by
  unfold keep dist2
  dsimp only
  by_cases h0 : (c.1 - a.1) * (c.1 - a.1) + (c.2 - a.2) * (c.2 - a.2) = 0
  · rw [if_pos h0]
  · rw [if_neg h0]
    simp
    rw [if_neg (by norm_num)]
    simp [mul_self_nonneg]

/-- Every list and every tolerance: the result consists of vertices of the input in the same cyclic
order, the returned number is exactly the number of vertices removed, a closed input gives a closed
result, and at the end no vertex is left that lies within the tolerance of the segment joining its
neighbours, provided that segment is horizontal or has slope one. Missing for the full claim: the
other directions, where the test is wrong, see the `_violated` theorems. -/
theorem C45_result_partial (src : List (ℚ × ℚ)) (len : ℚ) (hsrc : src ≠ []) :
    ∃ dst n, simplify src len = some (dst, n) ∧ n + dst.length = src.length ∧
      (dst = [] ∨ ∃ e : List (ℚ × ℚ), 3 ≤ e.length ∧ CyclicSublist e src ∧
        (src.head? = src.getLast? → dst = e ++ e.head?.toList) ∧ (src.head? ≠ src.getLast? → dst = e) ∧
        ∀ i a b c, e[i]? = some a → e[(i + 1) % e.length]? = some b → e[(i + 2) % e.length]? = some c →
          a ≠ c ∧ ((c.2 - a.2 = 0 ∨ c.2 - a.2 = c.1 - a.1) → ¬ NearSegment len a b c)) := by
  obtain ⟨f, hf⟩ : ∃ f, src.head? = some f := by
    cases src with
    | nil => exact absurd rfl hsrc
    | cons a r => exact ⟨a, rfl⟩
  obtain ⟨l, hl⟩ : ∃ l, src.getLast? = some l := ⟨_, List.getLast?_eq_some_getLast hsrc⟩
  unfold simplify
  rw [hf, hl]
  dsimp only
  cases hloop : loop len src 0 with
  | none => exact ⟨[], src.length, rfl, by simp, Or.inl rfl⟩
  | some r =>
    obtain ⟨e, m⟩ := r
    obtain ⟨hc, -, hm, h3, hfull⟩ := loop_spec len src 0 e m hloop
    have hfin : ∀ i a b c, e[i]? = some a → e[(i + 1) % e.length]? = some b → e[(i + 2) % e.length]? = some c →
          a ≠ c ∧ ((c.2 - a.2 = 0 ∨ c.2 - a.2 = c.1 - a.1) → ¬ NearSegment len a b c) := by
      intro i a b c ha hb hcc
      obtain ⟨hi, ha⟩ := List.getElem?_eq_some_iff.mp ha
      obtain ⟨hi1, hb⟩ := List.getElem?_eq_some_iff.mp hb
      obtain ⟨hi2, hcc⟩ := List.getElem?_eq_some_iff.mp hcc
      have hk := full_cyclic len e h3 hfull i hi
      rw [ha, hb, hcc] at hk
      have hac : a ≠ c := by
        rintro rfl
        unfold keep dist2 at hk
        simp at hk
      refine ⟨hac, fun hd hn => ?_⟩
      rw [(C45_removed_exact_partial len a b c hac hd).mpr hn] at hk
      exact absurd hk (by simp)
    dsimp only
    by_cases hfl : f = l
    · rw [if_pos hfl]
      have hm0 : m ≠ 0 := by
        rintro rfl
        -- nothing was removed, so the first pass already kept everything
        unfold loop at hloop
        split at hloop
        · exact absurd hloop (by simp)
        rename_i hs3
        have hpl := pass_length len src
        split at hloop
        · rename_i h0
          have hk := full_cyclic len src (by omega) (by omega) (src.length - 1) (by omega)
          have e0 : src[(src.length - 1 + 1) % src.length]'(Nat.mod_lt _ (by omega)) = src[src.length - 1]'(by omega) := by
            have h1 : (src.length - 1 + 1) % src.length = 0 := by
              rw [show src.length - 1 + 1 = src.length by omega, Nat.mod_self]
            simp only [h1]
            rw [List.head?_eq_getElem?, List.getElem?_eq_getElem (by omega), Option.some.injEq] at hf
            rw [List.getLast?_eq_getElem?, List.getElem?_eq_getElem (by omega), Option.some.injEq] at hl
            rw [hf, hl, hfl]
          rw [e0, keep_same] at hk
          exact absurd hk (by simp)
        · rename_i h0
          have := loop_spec len _ _ e 0 hloop
          omega
      refine ⟨_, _, rfl, ?_, Or.inr ⟨e, h3, hc, fun _ => rfl, fun h => absurd (by rw [hfl]) h, hfin⟩⟩
      rw [if_neg hm0, List.length_append]
      have : e.head?.toList.length = 1 := by
        cases e with
        | nil => simp at h3
        | cons => rfl
      omega
    · rw [if_neg hfl]
      exact ⟨_, _, rfl, by omega, Or.inr ⟨e, h3, hc, fun h => absurd (Option.some.inj h) hfl, fun _ => rfl, hfin⟩⟩

example : ∃ src : List (ℚ × ℚ), src ≠ [] ∧ src.head? = src.getLast? ∧ 5 ≤ src.length :=
  ⟨[(0, 0), (5, 0), (10, 0), (10, 10), (0, 0)], by simp, by simp, by simp⟩

end Verif.Properties.Simplify
