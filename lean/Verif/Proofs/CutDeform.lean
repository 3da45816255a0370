import Mathlib.Topology.Order.Compact
import Mathlib.Topology.Algebra.Order.Archimedean
import Mathlib.Topology.Algebra.Order.Field
import Mathlib.Topology.Instances.Real.Lemmas
import Mathlib.Tactic.FieldSimp
import Mathlib.Tactic.Positivity
import Mathlib.Tactic.LinearCombination
import Mathlib.Tactic.Linarith
/-! Two segments whose ends move along straight lines: when they meet at the beginning, then they meet at the end
or an end of the one meets the other on the way. -/
namespace Verif.Deform
open Set Filter Topology

/-- The point moved by `s` times an offset. -/
def mv (u o : ℝ × ℝ) (s : ℝ) : ℝ × ℝ := (u.1 + s * o.1, u.2 + s * o.2)

/-- The point at `a` on the way from `p` to `q`. -/
def lin (p q : ℝ × ℝ) (a : ℝ) : ℝ × ℝ := (p.1 + a * (q.1 - p.1), p.2 + a * (q.2 - p.2))

/-- The point lies on the segment. -/
def On (x p q : ℝ × ℝ) : Prop := ∃ a, 0 ≤ a ∧ a ≤ 1 ∧ x = lin p q a

/-- An end of one of the segments lies on the other. -/
def Touch (p q p' q' : ℝ × ℝ) : Prop := On p p' q' ∨ On q p' q' ∨ On p' p q ∨ On q' p q

/-- The cross product of the directions. -/
def dt (p q p' q' : ℝ × ℝ) : ℝ := (q.1 - p.1) * (q'.2 - p'.2) - (q'.1 - p'.1) * (q.2 - p.2)

theorem on_fst (p q : ℝ × ℝ) : On p p q := ⟨0, le_refl _, by norm_num, by unfold lin; simp⟩
theorem on_snd (p q : ℝ × ℝ) : On q p q := ⟨1, by norm_num, le_refl _, by unfold lin; ext <;> simp⟩

/-- Parallel segments that meet touch. -/
theorem touch_par {p q p' q' : ℝ × ℝ} (hd : dt p q p' q' = 0) {a b : ℝ} (a0 : 0 ≤ a) (a1 : a ≤ 1) (b0 : 0 ≤ b) (b1 : b ≤ 1)
    (h : lin p q a = lin p' q' b) : Touch p q p' q' := by
  by_cases hz : q.1 - p.1 = 0 ∧ q.2 - p.2 = 0
  · left
    refine ⟨b, b0, b1, ?_⟩
    rw [← h]
    unfold lin
    rw [hz.1, hz.2]; simp
  · -- the second segment in the coordinate of the first
    obtain ⟨k, k1, k2⟩ : ∃ k, q'.1 - p'.1 = k * (q.1 - p.1) ∧ q'.2 - p'.2 = k * (q.2 - p.2) := by
      unfold dt at hd
      by_cases hx : q.1 - p.1 = 0
      · have hy : q.2 - p.2 ≠ 0 := fun hy => hz ⟨hx, hy⟩
        refine ⟨(q'.2 - p'.2) / (q.2 - p.2), ?_, by field_simp⟩
        rw [hx] at hd ⊢
        have : (q'.1 - p'.1) * (q.2 - p.2) = 0 := by linarith
        rw [(mul_eq_zero.1 this).resolve_right hy]; ring
      · refine ⟨(q'.1 - p'.1) / (q.1 - p.1), by field_simp, ?_⟩
        field_simp
        linarith
    unfold lin at h
    rw [Prod.mk.injEq] at h
    obtain ⟨h1, h2⟩ := h
    rw [k1] at h1; rw [k2] at h2
    have hp' : p' = lin p q (a - b * k) := by
      unfold lin; apply Prod.ext
      · dsimp only; linear_combination -h1
      · dsimp only; linear_combination -h2
    have hq' : q' = lin p q (a - b * k + k) := by
      unfold lin; apply Prod.ext
      · dsimp only; linear_combination -h1 + k1
      · dsimp only; linear_combination -h2 + k2
    by_cases c1 : 0 ≤ a - b * k ∧ a - b * k ≤ 1
    · exact Or.inr (Or.inr (Or.inl ⟨_, c1.1, c1.2, hp'⟩))
    by_cases c2 : 0 ≤ a - b * k + k ∧ a - b * k + k ≤ 1
    · exact Or.inr (Or.inr (Or.inr ⟨_, c2.1, c2.2, hq'⟩))
    -- then the second segment covers the first
    have hk : k ≠ 0 := by
      rintro rfl; apply c1; constructor <;> linarith
    left
    refine ⟨-(a - b * k) / k, ?_, ?_, ?_⟩
    · rcases lt_or_gt_of_ne hk with g | g
      · rw [le_div_iff_of_neg g]
        by_contra hc
        have : b * k ≤ 0 := by nlinarith
        apply c1; constructor <;> nlinarith
      · rw [le_div_iff₀ g]
        by_contra hc
        apply c1
        constructor <;> nlinarith
    · rcases lt_or_gt_of_ne hk with g | g
      · rw [div_le_iff_of_neg g]
        by_contra hc
        apply c2; constructor <;> nlinarith
      · rw [div_le_iff₀ g]
        by_contra hc
        apply c2
        constructor <;> nlinarith
    · unfold lin
      have e : -(a - b * k) / k * k = -(a - b * k) := div_mul_cancel₀ _ hk
      generalize -(a - b * k) / k = c at e
      apply Prod.ext
      · dsimp only; rw [k1]
        linear_combination h1 - (q.1 - p.1) * e
      · dsimp only; rw [k2]
        linear_combination h2 - (q.2 - p.2) * e

theorem deform {u v u' v' o1 o2 o3 o4 : ℝ × ℝ} {a b : ℝ} (a0 : 0 ≤ a) (a1 : a ≤ 1) (b0 : 0 ≤ b) (b1 : b ≤ 1) (h : lin u v a = lin u' v' b) :
    (∃ s, 0 ≤ s ∧ s ≤ 1 ∧ Touch (mv u o1 s) (mv v o2 s) (mv u' o3 s) (mv v' o4 s)) ∨
    ((∃ x, On x (mv u o1 1) (mv v o2 1) ∧ On x (mv u' o3 1) (mv v' o4 1)) ∧ dt (mv u o1 1) (mv v o2 1) (mv u' o3 1) (mv v' o4 1) ≠ 0) := by
  have hmv0 : ∀ u o, mv u o 0 = u := by intro u o; unfold mv; ext <;> simp
  let K : Set (ℝ × ℝ × ℝ) := {x | x ∈ Icc (0 : ℝ) 1 ×ˢ Icc (0 : ℝ) 1 ×ˢ Icc (0 : ℝ) 1 ∧
    lin (mv u o1 x.1) (mv v o2 x.1) x.2.1 = lin (mv u' o3 x.1) (mv v' o4 x.1) x.2.2}
  have hK : IsCompact K := by
    have hc : IsCompact (Icc (0 : ℝ) 1 ×ˢ Icc (0 : ℝ) 1 ×ˢ Icc (0 : ℝ) 1) := isCompact_Icc.prod (isCompact_Icc.prod isCompact_Icc)
    refine hc.inter_right (t := {x : ℝ × ℝ × ℝ | lin (mv u o1 x.1) (mv v o2 x.1) x.2.1 = lin (mv u' o3 x.1) (mv v' o4 x.1) x.2.2}) ?_
    apply isClosed_eq
    · unfold lin mv; fun_prop
    · unfold lin mv; fun_prop
  have hne : (Prod.fst '' K).Nonempty := by
    refine ⟨0, (0, a, b), ⟨⟨⟨le_refl _, zero_le_one⟩, ⟨a0, a1⟩, ⟨b0, b1⟩⟩, ?_⟩, rfl⟩
    dsimp only
    rw [hmv0, hmv0, hmv0, hmv0]; exact h
  obtain ⟨s, ⟨⟨x, hx, rfl⟩, hmax⟩⟩ := (hK.image continuous_fst).exists_isGreatest hne
  obtain ⟨s, α, β⟩ := x
  obtain ⟨⟨⟨s0, s1⟩, ⟨α0, α1⟩, ⟨β0, β1⟩⟩, heq⟩ := hx
  dsimp only at s0 s1 α0 α1 β0 β1 heq hmax
  by_cases hd : dt (mv u o1 s) (mv v o2 s) (mv u' o3 s) (mv v' o4 s) = 0
  · exact Or.inl ⟨s, s0, s1, touch_par hd α0 α1 β0 β1 heq⟩
  rcases s1.lt_or_eq with hs | hs
  swap
  · subst hs
    exact Or.inr ⟨⟨_, ⟨α, α0, α1, rfl⟩, ⟨β, β0, β1, heq⟩⟩, hd⟩
  left
  by_contra hT
  have hT : ¬ Touch (mv u o1 s) (mv v o2 s) (mv u' o3 s) (mv v' o4 s) := fun h => hT ⟨s, s0, s1, h⟩
  have l0 : ∀ p q, lin p q 0 = p := by intro p q; unfold lin; simp
  have l1 : ∀ p q, lin p q 1 = q := by intro p q; unfold lin; ext <;> simp
  have α0' : 0 < α := by
    rcases α0.lt_or_eq with g | g
    · exact g
    · subst g; rw [l0] at heq; exact absurd (Or.inl ⟨β, β0, β1, heq⟩) hT
  have α1' : α < 1 := by
    rcases α1.lt_or_eq with g | g
    · exact g
    · subst g; rw [l1] at heq; exact absurd (Or.inr (Or.inl ⟨β, β0, β1, heq⟩)) hT
  have β0' : 0 < β := by
    rcases β0.lt_or_eq with g | g
    · exact g
    · subst g; rw [l0] at heq; exact absurd (Or.inr (Or.inr (Or.inl ⟨α, α0, α1, heq.symm⟩))) hT
  have β1' : β < 1 := by
    rcases β1.lt_or_eq with g | g
    · exact g
    · subst g; rw [l1] at heq; exact absurd (Or.inr (Or.inr (Or.inr ⟨α, α0, α1, heq.symm⟩))) hT
  -- the solution as a function of the time
  let D : ℝ → ℝ := fun t => dt (mv u o1 t) (mv v o2 t) (mv u' o3 t) (mv v' o4 t)
  let NA : ℝ → ℝ := fun t => ((mv u' o3 t).1 - (mv u o1 t).1) * ((mv v' o4 t).2 - (mv u' o3 t).2) - ((mv v' o4 t).1 - (mv u' o3 t).1) * ((mv u' o3 t).2 - (mv u o1 t).2)
  let NB : ℝ → ℝ := fun t => ((mv u' o3 t).1 - (mv u o1 t).1) * ((mv v o2 t).2 - (mv u o1 t).2) - ((mv v o2 t).1 - (mv u o1 t).1) * ((mv u' o3 t).2 - (mv u o1 t).2)
  have cD : Continuous D := by unfold D dt mv; fun_prop
  have cA : Continuous NA := by unfold NA mv; fun_prop
  have cB : Continuous NB := by unfold NB mv; fun_prop
  have hDs : D s ≠ 0 := hd
  have hA : NA s / D s = α := by
    rw [div_eq_iff hDs]
    unfold NA D dt
    unfold lin at heq
    rw [Prod.mk.injEq] at heq
    obtain ⟨e1, e2⟩ := heq
    generalize mv u o1 s = p at *; generalize mv v o2 s = q at *; generalize mv u' o3 s = p' at *; generalize mv v' o4 s = q' at *
    linear_combination -(q'.2 - p'.2) * e1 + (q'.1 - p'.1) * e2
  have hB : NB s / D s = β := by
    rw [div_eq_iff hDs]
    unfold NB D dt
    unfold lin at heq
    rw [Prod.mk.injEq] at heq
    obtain ⟨e1, e2⟩ := heq
    generalize mv u o1 s = p at *; generalize mv v o2 s = q at *; generalize mv u' o3 s = p' at *; generalize mv v' o4 s = q' at *
    linear_combination -(q.2 - p.2) * e1 + (q.1 - p.1) * e2
  have tA : Tendsto (fun t => NA t / D t) (𝓝 s) (𝓝 α) := by
    have := (cA.tendsto s).div (cD.tendsto s) hDs
    rwa [hA] at this
  have tB : Tendsto (fun t => NB t / D t) (𝓝 s) (𝓝 β) := by
    have := (cB.tendsto s).div (cD.tendsto s) hDs
    rwa [hB] at this
  have e1 : ∀ᶠ t in 𝓝 s, D t ≠ 0 := (cD.tendsto s).eventually_ne hDs
  have e2 : ∀ᶠ t in 𝓝 s, NA t / D t ∈ Ioo (0 : ℝ) 1 := tA.eventually (Ioo_mem_nhds α0' α1')
  have e3 : ∀ᶠ t in 𝓝 s, NB t / D t ∈ Ioo (0 : ℝ) 1 := tB.eventually (Ioo_mem_nhds β0' β1')
  have e4 : ∀ᶠ t in 𝓝[>] s, t ∈ Ioo s 1 := Ioo_mem_nhdsGT hs
  obtain ⟨t, ⟨⟨⟨h1, h2⟩, h3⟩, h4⟩⟩ := (((e1.and e2).and e3).filter_mono nhdsWithin_le_nhds |>.and e4).exists
  have : t ≤ s := by
    apply hmax
    refine ⟨(t, NA t / D t, NB t / D t), ⟨⟨⟨by linarith [h4.1], h4.2.le⟩, ⟨h2.1.le, h2.2.le⟩, ⟨h3.1.le, h3.2.le⟩⟩, ?_⟩, rfl⟩
    dsimp only
    have eA : NA t / D t * D t = NA t := div_mul_cancel₀ _ h1
    have eB : NB t / D t * D t = NB t := div_mul_cancel₀ _ h1
    generalize NA t / D t = A at eA
    generalize NB t / D t = B at eB
    unfold NA D dt at eA
    unfold NB D dt at eB
    have hD1 : dt (mv u o1 t) (mv v o2 t) (mv u' o3 t) (mv v' o4 t) ≠ 0 := h1
    unfold dt at hD1
    unfold lin
    generalize mv u o1 t = p at *; generalize mv v o2 t = q at *; generalize mv u' o3 t = p' at *; generalize mv v' o4 t = q' at *
    apply Prod.ext
    · dsimp only
      apply mul_left_cancel₀ hD1
      linear_combination (q.1 - p.1) * eA - (q'.1 - p'.1) * eB
    · dsimp only
      apply mul_left_cancel₀ hD1
      linear_combination (q.2 - p.2) * eA - (q'.2 - p'.2) * eB
  linarith [h4.1]

end Verif.Deform
