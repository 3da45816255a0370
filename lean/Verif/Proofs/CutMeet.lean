import Verif.Proofs.CutExact
/-! The intersection test and the grid test. -/
namespace Verif.Cut
open Verif Verif.Arb Verif.Contains Verif.PolySet Verif.Spec Verif.Spec.Arb

theorem y_lt {a : HE} (ha : Directed a) {p : Pt} (hp : OnEdge a (cq p)) (h1 : p ≠ a.1) (h2 : p ≠ a.2) :
    (min a.1.2 a.2.2 < p.2 ∧ p.2 < max a.1.2 a.2.2) ∨ (a.1.2 = p.2 ∧ a.2.2 = p.2) := by
  obtain ⟨k1, k2⟩ := (on_iff ha p).1 hp
  rw [inBox_iff] at k1
  have hx := x_lt ha hp h1 h2
  have n1 : ¬ (p.1 = a.1.1 ∧ p.2 = a.1.2) := fun h => h1 (Prod.ext h.1 h.2)
  have n2 : ¬ (p.1 = a.2.1 ∧ p.2 = a.2.2) := fun h => h2 (Prod.ext h.1 h.2)
  by_cases c : a.1.2 = a.2.2
  · right; omega
  · left
    rcases hx with hx | hx
    · unfold det at k2
      have e1 : p.2 ≠ a.1.2 := by
        intro g
        rw [g] at k2
        have : (a.2.2 - a.1.2) * (p.1 - a.1.1) = 0 := by linarith
        rcases mul_eq_zero.1 this with k | k <;> omega
      have e2 : p.2 ≠ a.2.2 := by
        intro g
        rw [g] at k2
        have : (a.2.2 - a.1.2) * (p.1 - a.2.1) = 0 := by linarith
        rcases mul_eq_zero.1 this with k | k <;> omega
      omega
    · omega

theorem on_unique {a b : HE} (ha : Directed a) (hb : Directed b) (hc : cr a b ≠ 0) {p r : Pt} (pa : OnEdge a (cq p)) (pb : OnEdge b (cq p))
    (ra : det r a.1 a.2 = 0) (rb : det r b.1 b.2 = 0) : p = r := by
  apply cq_inj
  exact line_unique hc ((onEdge_lex ha _).1 pa).1 ((onEdge_lex hb _).1 pb).1 (by rw [dq_cq, ra]; rfl) (by rw [dq_cq, rb]; rfl)

theorem det_fst (a b : Pt) : det a a b = 0 := by unfold det; ring
theorem det_snd (a b : Pt) : det b a b = 0 := by unfold det; ring

theorem sign_opp {x y : Int} (hx : x ≠ 0) (hy : y ≠ 0) (h : (x < 0 ∧ 0 < y) ∨ (0 < x ∧ y < 0)) : x.sign ≠ y.sign := by
  rcases h with ⟨h1, h2⟩ | ⟨h1, h2⟩
  · rw [Int.sign_eq_neg_one_of_neg h1, Int.sign_eq_one_of_pos h2]; decide
  · rw [Int.sign_eq_one_of_pos h1, Int.sign_eq_neg_one_of_neg h2]; decide

/-- The ends of a segment are on different sides of a line through an inner point. -/
theorem opp_sides {a b : HE} (ha : Directed a) (hb : Directed b) (hc : cr a b ≠ 0) {p : Pt} (pa : OnEdge a (cq p)) (pb : OnEdge b (cq p))
    (a1 : p ≠ a.1) (a2 : p ≠ a.2) : oab a.1 b ≠ 0 ∧ oab a.2 b ≠ 0 ∧ oab a.1 b ≠ oab a.2 b := by
  rw [oab_eq _ hb, oab_eq _ hb]
  have n1 : det a.1 b.1 b.2 ≠ 0 := fun h => a1 (on_unique ha hb hc pa pb (det_fst _ _) h)
  have n2 : det a.2 b.1 b.2 ≠ 0 := fun h => a2 (on_unique ha hb hc pa pb (det_snd _ _) h)
  refine ⟨by rwa [ne_eq, Int.sign_eq_zero_iff_zero], by rwa [ne_eq, Int.sign_eq_zero_iff_zero], ?_⟩
  apply sign_opp n1 n2
  obtain ⟨t, t0, t1, tx, ty⟩ := pa
  have hb0 := ((onEdge_lex hb _).1 pb).1
  have e1 : dq (cq a.1) b = det a.1 b.1 b.2 := dq_cq _ _
  have e2 : dq (cq a.2) b = det a.2 b.1 b.2 := dq_cq _ _
  have key : (1 - t) * (det a.1 b.1 b.2 : ℚ) + t * (det a.2 b.1 b.2 : ℚ) = 0 := by
    rw [← e1, ← e2, ← hb0]
    unfold dq cq at *
    dsimp only at *
    rw [tx, ty]; ring
  have nt0 : t ≠ 0 := by
    rintro rfl
    have : (det a.1 b.1 b.2 : ℚ) = 0 := by linarith
    exact n1 (by exact_mod_cast this)
  have nt1 : t ≠ 1 := by
    rintro rfl
    have : (det a.2 b.1 b.2 : ℚ) = 0 := by linarith
    exact n2 (by exact_mod_cast this)
  have t0 : 0 < t := lt_of_le_of_ne t0 (Ne.symm nt0)
  have t1 : t < 1 := lt_of_le_of_ne t1 nt1
  rcases lt_or_gt_of_ne n1 with g | g
  · left; refine ⟨g, ?_⟩
    have gq : (det a.1 b.1 b.2 : ℚ) < 0 := by exact_mod_cast g
    have : (0 : ℚ) < det a.2 b.1 b.2 := by
      by_contra hcon
      push Not at hcon
      nlinarith
    exact_mod_cast this
  · right; refine ⟨g, ?_⟩
    have gq : (0 : ℚ) < det a.1 b.1 b.2 := by exact_mod_cast g
    have : (det a.2 b.1 b.2 : ℚ) < 0 := by
      by_contra hcon
      push Not at hcon
      nlinarith
    exact_mod_cast this

theorem overlap_iff (e f : HE) : (hOverlap e f && vOverlap e f) = true ↔ min e.1.1 e.2.1 < max f.1.1 f.2.1 ∧ min f.1.1 f.2.1 < max e.1.1 e.2.1 ∧
    min e.1.2 e.2.2 < max f.1.2 f.2.2 ∧ min f.1.2 f.2.2 < max e.1.2 e.2.2 := by
  simp [hOverlap, vOverlap, and_assoc]

/-- Segments that cross at an inner point of both are seen to intersect. -/
theorem intersects_cross {a b : HE} (ha : Directed a) (hb : Directed b) (hc : cr a b ≠ 0) {p : Pt} (pa : OnEdge a (cq p)) (pb : OnEdge b (cq p))
    (a1 : p ≠ a.1) (a2 : p ≠ a.2) (b1 : p ≠ b.1) (b2 : p ≠ b.2) : intersects a b = true := by
  have xa := x_lt ha pa a1 a2
  have xb := x_lt hb pb b1 b2
  have ya := y_lt ha pa a1 a2
  have yb := y_lt hb pb b1 b2
  have nv : ¬ (a.1.1 = a.2.1 ∧ b.1.1 = b.2.1) := by
    rintro ⟨h1, h2⟩; apply hc; unfold cr; rw [h1, h2]; ring
  have nh : ¬ (a.1.2 = a.2.2 ∧ b.1.2 = b.2.2) := by
    rintro ⟨h1, h2⟩; apply hc; unfold cr; rw [h1, h2]; ring
  obtain ⟨s1, s2, s3⟩ := opp_sides ha hb hc pa pb a1 a2
  obtain ⟨r1, r2, r3⟩ := opp_sides hb ha (by rw [cr_symm]; omega) pb pa b1 b2
  have hO : (hOverlap a b && vOverlap a b) = true := by
    rw [overlap_iff]
    clear s1 s2 s3 r1 r2 r3 hc pa pb a1 a2 b1 b2 ha hb
    refine ⟨?_, ?_, ?_, ?_⟩
    · clear ya yb nh; omega
    · clear ya yb nh; omega
    · clear xa xb nv; omega
    · clear xa xb nv; omega
  unfold intersects
  rw [if_pos hO]
  rw [if_neg (fun h => a1 (on_unique ha hb hc pa pb (det_fst _ _) (by rw [h]; exact det_fst _ _))),
    if_neg (fun h => a1 (on_unique ha hb hc pa pb (det_fst _ _) (by rw [h]; exact det_snd _ _))),
    if_neg (fun h => a2 (on_unique ha hb hc pa pb (det_snd _ _) (by rw [h]; exact det_fst _ _))),
    if_neg (fun h => a2 (on_unique ha hb hc pa pb (det_snd _ _) (by rw [h]; exact det_snd _ _)))]
  rw [if_neg (by simp [s1]), if_neg (by simp [s2]), if_neg (by simp [s3]), if_neg (by simp [r1]), if_neg (by simp [r2]), if_neg (by simpa using r3)]

theorem between_on {e : HE} (h : Directed e) {p : Pt} (h1 : oab p e = 0) (h2 : between p e.1 e.2 = true) : OnEdge e (cq p) := by
  rw [oab_eq _ h, Int.sign_eq_zero_iff_zero] at h1
  rw [between_iff h] at h2
  exact (onEdge_lex h _).2 ⟨by rw [dq_cq, h1]; rfl, plt_lle h2.1, plt_lle h2.2⟩

/-- Where the line of the one meets the other. -/
theorem split_point {a b : HE} {x y : Int} (hx : x = det a.1 b.1 b.2) (hy : y = det a.2 b.1 b.2) (hne : x ≠ y) (h : x.sign ≠ y.sign ∨ x = 0) :
    ∃ q, OnEdge a q ∧ dq q b = 0 := by
  have hd : (x : ℚ) - y ≠ 0 := by
    intro hc; apply hne; exact_mod_cast sub_eq_zero.1 hc
  have hxy : x * y ≤ 0 := by
    rcases h with h | h
    · by_contra hc
      push Not at hc
      rcases pos_and_pos_or_neg_and_neg_of_mul_pos hc with ⟨g1, g2⟩ | ⟨g1, g2⟩
      · rw [Int.sign_eq_one_of_pos g1, Int.sign_eq_one_of_pos g2] at h; exact h rfl
      · rw [Int.sign_eq_neg_one_of_neg g1, Int.sign_eq_neg_one_of_neg g2] at h; exact h rfl
    · rw [h]; simp
  have hxyq : (x : ℚ) * y ≤ 0 := by exact_mod_cast hxy
  refine ⟨(a.1.1 + (x / (x - y)) * (a.2.1 - a.1.1), a.1.2 + (x / (x - y)) * (a.2.2 - a.1.2)), ⟨x / (x - y), ?_, ?_, rfl, rfl⟩, ?_⟩
  · rcases lt_or_gt_of_ne hd with g | g
    · apply div_nonneg_of_nonpos _ g.le
      by_contra hc; push Not at hc; nlinarith
    · apply div_nonneg _ g.le
      by_contra hc; push Not at hc; nlinarith
  · rcases lt_or_gt_of_ne hd with g | g
    · rw [div_le_one_of_neg g]
      by_contra hc; push Not at hc; nlinarith
    · rw [div_le_one g]
      by_contra hc; push Not at hc; nlinarith
  · have e1 : dq (cq a.1) b = x := by rw [hx]; exact dq_cq _ _
    have e2 : dq (cq a.2) b = y := by rw [hy]; exact dq_cq _ _
    unfold dq cq at *
    dsimp only at *
    field_simp
    linear_combination (-(y : ℚ)) * e1 + (x : ℚ) * e2

theorem det_diff (a b : HE) : det a.1 b.1 b.2 - det a.2 b.1 b.2 = cr a b := by unfold det cr; ring

theorem cross_common {a b : HE} (ha : Directed a) (hb : Directed b) (hc : cr a b ≠ 0) (h1 : ¬ (oab a.1 b = oab a.2 b ∧ oab a.1 b ≠ 0))
    (h2 : oab b.1 a ≠ oab b.2 a) : ∃ q, OnEdge a q ∧ OnEdge b q := by
  rw [oab_eq _ hb, oab_eq _ hb] at h1
  rw [oab_eq _ ha, oab_eq _ ha] at h2
  have d1 := det_diff a b
  have d2 := det_diff b a
  rw [cr_symm] at d2
  obtain ⟨q, q1, q2⟩ := split_point (a := a) (b := b) rfl rfl (by omega) (by
    by_cases c : (det a.1 b.1 b.2).sign = (det a.2 b.1 b.2).sign
    · right
      rw [← Int.sign_eq_zero_iff_zero]
      by_contra hcon; exact h1 ⟨c, hcon⟩
    · exact Or.inl c)
  obtain ⟨r, r1, r2⟩ := split_point (a := b) (b := a) rfl rfl (by omega) (Or.inl h2)
  have : q = r := line_unique hc ((onEdge_lex ha _).1 q1).1 q2 r2 ((onEdge_lex hb _).1 r1).1
  exact ⟨q, q1, this ▸ r1⟩

/-- Segments that are seen to intersect have a common point. -/
theorem intersects_common {a b : HE} (ha : Directed a) (hb : Directed b) (h : intersects a b = true) : ∃ q, OnEdge a q ∧ OnEdge b q := by
  unfold intersects at h
  by_cases c : (hOverlap a b && vOverlap a b) = true
  · rw [if_pos c] at h
    by_cases c1 : a.1 = b.1
    · exact ⟨cq a.1, onEdge_fst a, by rw [c1]; exact onEdge_fst b⟩
    rw [if_neg c1] at h
    by_cases c2 : a.1 = b.2
    · exact ⟨cq a.1, onEdge_fst a, by rw [c2]; exact onEdge_snd b⟩
    rw [if_neg c2] at h
    by_cases c3 : a.2 = b.1
    · exact ⟨cq a.2, onEdge_snd a, by rw [c3]; exact onEdge_fst b⟩
    rw [if_neg c3] at h
    by_cases c4 : a.2 = b.2
    · exact ⟨cq a.2, onEdge_snd a, by rw [c4]; exact onEdge_snd b⟩
    rw [if_neg c4] at h
    by_cases c5 : (oab a.1 b == 0 && between a.1 b.1 b.2) = true
    · rw [Bool.and_eq_true, beq_iff_eq] at c5
      exact ⟨cq a.1, onEdge_fst a, between_on hb c5.1 c5.2⟩
    rw [if_neg c5] at h
    by_cases c6 : (oab a.2 b == 0 && between a.2 b.1 b.2) = true
    · rw [Bool.and_eq_true, beq_iff_eq] at c6
      exact ⟨cq a.2, onEdge_snd a, between_on hb c6.1 c6.2⟩
    rw [if_neg c6] at h
    by_cases c7 : (oab a.1 b == oab a.2 b && oab a.1 b != 0) = true
    · rw [if_pos c7] at h; simp at h
    rw [if_neg c7] at h
    by_cases c8 : (oab b.1 a == 0 && between b.1 a.1 a.2) = true
    · rw [Bool.and_eq_true, beq_iff_eq] at c8
      exact ⟨cq b.1, between_on ha c8.1 c8.2, onEdge_fst b⟩
    rw [if_neg c8] at h
    by_cases c9 : (oab b.2 a == 0 && between b.2 a.1 a.2) = true
    · rw [Bool.and_eq_true, beq_iff_eq] at c9
      exact ⟨cq b.2, between_on ha c9.1 c9.2, onEdge_snd b⟩
    rw [if_neg c9] at h
    by_cases c10 : (oab b.1 a == oab b.2 a) = true
    · rw [if_pos c10] at h; simp at h
    have c7 : ¬ (oab a.1 b = oab a.2 b ∧ oab a.1 b ≠ 0) := by simpa using c7
    have c10 : oab b.1 a ≠ oab b.2 a := by simpa using c10
    by_cases hc : cr a b = 0
    · exfalso
      rw [oab_eq _ hb, oab_eq _ hb] at c7
      rw [oab_eq _ ha, oab_eq _ ha] at c10
      have d1 := det_diff b a
      rw [cr_symm, hc] at d1
      apply c10
      rw [show det b.1 a.1 a.2 = det b.2 a.1 a.2 by omega]
    · exact cross_common ha hb hc c7 c10
  · rw [if_neg c] at h
    by_cases cv : (isVertical a && isVertical b && a.1.1 == b.1.1) = true
    · rw [if_pos cv] at h
      simp only [isVertical, Bool.and_eq_true, beq_iff_eq] at cv
      rw [Bool.and_eq_true] at h
      have h := h.1
      simp only [vOverlap, Bool.and_eq_true, decide_eq_true_iff] at h
      unfold Spec.Arb.Directed at ha hb
      by_cases g : a.1.2 ≤ b.1.2
      · refine ⟨cq b.1, ?_, onEdge_fst b⟩
        rw [on_iff (by unfold Spec.Arb.Directed; exact ha), inBox_iff]
        refine ⟨by omega, ?_⟩
        unfold det; rw [← cv.2, cv.1.1]; ring
      · refine ⟨cq a.1, onEdge_fst a, ?_⟩
        rw [on_iff (by unfold Spec.Arb.Directed; exact hb), inBox_iff]
        refine ⟨by omega, ?_⟩
        unfold det; rw [cv.2, cv.1.2]; ring
    · rw [if_neg cv] at h
      by_cases ch : (isHorizontal a && isHorizontal b && a.1.2 == b.1.2) = true
      · rw [if_pos ch] at h
        simp only [isHorizontal, Bool.and_eq_true, beq_iff_eq] at ch
        rw [Bool.and_eq_true] at h
        have h := h.1
        simp only [hOverlap, Bool.and_eq_true, decide_eq_true_iff] at h
        unfold Spec.Arb.Directed at ha hb
        by_cases g : a.1.1 ≤ b.1.1
        · refine ⟨cq b.1, ?_, onEdge_fst b⟩
          rw [on_iff (by unfold Spec.Arb.Directed; exact ha), inBox_iff]
          refine ⟨by omega, ?_⟩
          unfold det; rw [← ch.2, ← ch.1.1]; ring
        · refine ⟨cq a.1, onEdge_fst a, ?_⟩
          rw [on_iff (by unfold Spec.Arb.Directed; exact hb), inBox_iff]
          refine ⟨by omega, ?_⟩
          unfold det; rw [ch.2, ← ch.1.2]; ring
      · rw [if_neg ch] at h; simp at h

end Verif.Cut
