import Verif.Proofs.CutMeet
import Verif.Spec.Cut
/-! Inputs on which cutting is exact: Manhattan edges, and edges that meet in lattice points. -/
namespace Verif.Cut
open Verif Verif.Arb Verif.Contains Verif.PolySet Verif.Spec Verif.Spec.Arb

theorem compute_none {fp : FP} {a b : HE} (h1 : candidate fp.yL fp.ptL a b = none) (h2 : candidate fp.yE fp.ptE a b = none) :
    computeIntersection fp a b = none := by
  unfold computeIntersection
  split
  · rfl
  · rw [h1]; exact h2

theorem compute_some {fp : FP} {a b : HE} {p : Pt} (hi : intersects a b = true) (h1 : candidate fp.yL fp.ptL a b = some p)
    (g1 : grid p a = true) (g2 : grid p b = true) : computeIntersection fp a b = some p := by
  unfold computeIntersection
  rw [if_neg (by simp [hi]), h1]
  dsimp only
  rw [if_pos (by simp [g1, g2])]

theorem compute_cases {fp : FP} {a b : HE} {p : Pt} (h : computeIntersection fp a b = some p) : intersects a b = true ∧
    (candidate fp.yL fp.ptL a b = some p ∨ candidate fp.yE fp.ptE a b = some p) := by
  unfold computeIntersection at h
  by_cases c : intersects a b = true
  · refine ⟨c, ?_⟩
    rw [if_neg (by simp [c])] at h
    split at h
    · rename_i q hq
      split at h
      · left; rw [hq, h]
      · exact Or.inr h
    · exact Or.inr h
  · rw [if_pos (by simp [c])] at h; simp at h

/-- What is common to both kinds of input. -/
theorem exact_of {fp : FP} {umin : Int} {E : List HE} (hd : ∀ a ∈ E, Directed a) (hl : ∀ a ∈ E, umin ≤ min a.1.2 a.2.2)
    (hc : ∀ a ∈ E, ∀ b ∈ E, ∀ p, computeIntersection fp a b = some p → OnEdge a (cq p) ∧ OnEdge b (cq p) ∧ cr a b ≠ 0)
    (hcand : ∀ a ∈ E, ∀ b ∈ E, cr a b ≠ 0 → ∀ p, OnEdge a (cq p) → OnEdge b (cq p) → candidate fp.yL fp.ptL a b = some p)
    (hm : ∀ a ∈ E, ∀ b ∈ E, cr a b ≠ 0 → ∀ q, OnEdge a q → OnEdge b q → ∃ p, q = cq p)
    (hp : ∀ p, Node fp E p → ∀ a ∈ E, grid p a = true → OnEdge a (cq p)) : Exact fp umin E := by
  have key : ∀ a ∈ E, ∀ b ∈ E, cr a b ≠ 0 → ∀ p, OnEdge a (cq p) → OnEdge b (cq p) →
      p = a.1 ∨ p = a.2 ∨ p = b.1 ∨ p = b.2 ∨ computeIntersection fp a b = some p := by
    intro a ha b hb hcr p pa pb
    by_contra hcon
    simp only [not_or] at hcon
    obtain ⟨n1, n2, n3, n4, n5⟩ := hcon
    exact n5 (compute_some (intersects_cross (hd a ha) (hd b hb) hcr pa pb n1 n2 n3 n4) (hcand a ha b hb hcr p pa pb)
      (grid_on (hd a ha) pa) (grid_on (hd b hb) pb))
  refine ⟨hd, hl, ?_, hp, ?_⟩
  · intro a ha b hb p h
    obtain ⟨h1, h2, h3⟩ := hc a ha b hb p h
    refine ⟨h1, h2, h3, ?_⟩
    have := key b hb a ha (by rw [cr_symm]; omega) p h2 h1
    tauto
  · intro a ha b hb hcr q qa qb
    obtain ⟨p, rfl⟩ := hm a ha b hb hcr q qa qb
    refine ⟨p, ?_, rfl⟩
    rcases key a ha b hb hcr p qa qb with h | h | h | h | h
    · exact Or.inl ⟨a, ha, Or.inl h⟩
    · exact Or.inl ⟨a, ha, Or.inr h⟩
    · exact Or.inl ⟨b, hb, Or.inl h⟩
    · exact Or.inl ⟨b, hb, Or.inr h⟩
    · exact Or.inr ⟨a, ha, b, hb, h⟩

/-! ### Manhattan edges -/

theorem hv_on {a : HE} (hd : Directed a) (hv : a.1.1 = a.2.1 ∨ a.1.2 = a.2.2) {p : Pt} (h : inBox a p = true) : OnEdge a (cq p) := by
  rw [on_iff hd]
  refine ⟨h, ?_⟩
  rw [inBox_iff] at h
  unfold det
  rcases hv with g | g
  · have : p.1 = a.1.1 := by omega
    rw [this, g]; ring
  · have : p.2 = a.1.2 := by omega
    rw [this, g]; ring

theorem hv_candidate {ev : Int → Pt → Pt → Int} {ptf : HE → HE → Option Pt} {a b : HE} (hda : Directed a) (hdb : Directed b)
    (ha : a.1.1 = a.2.1 ∨ a.1.2 = a.2.2) (hb : b.1.1 = b.2.1 ∨ b.1.2 = b.2.2) (p : Pt) :
    candidate ev ptf a b = some p ↔ cr a b ≠ 0 ∧ inBox a p = true ∧ inBox b p = true := by
  unfold Spec.Arb.Directed at hda hdb
  unfold candidate
  rw [inBox_iff, inBox_iff]
  by_cases c0 : boxTouch a b = true
  · rw [if_neg (by simp [c0])]
    rw [boxTouch_iff] at c0
    by_cases c1 : a.1.1 = a.2.1
    · rw [if_pos (by simpa [isVertical] using c1)]
      by_cases c2 : b.1.1 = b.2.1
      · rw [if_pos (by simpa [isVertical] using c2)]
        have : cr a b = 0 := by unfold cr; rw [c1, c2]; ring
        simp [this]
      · have h2 : b.1.2 = b.2.2 := by omega
        rw [if_neg (by simpa [isVertical] using c2)]
        have hcr : cr a b ≠ 0 := by
          unfold cr; rw [c1, h2]
          have : (b.2.1 - b.1.1) * (a.2.2 - a.1.2) ≠ 0 := mul_ne_zero (by omega) (by omega)
          intro h; apply this; linarith
        have hy : evalAt ev a.1.1 b.1 b.2 = b.1.2 := by unfold evalAt; rw [if_pos h2]
        rw [hy, if_pos (by omega)]
        rw [Option.some_inj]
        constructor
        · rintro rfl; dsimp only; exact ⟨hcr, by omega, by omega⟩
        · rintro ⟨_, h3, h4⟩; exact Prod.ext (by dsimp only; omega) (by dsimp only; omega)
    · have h1 : a.1.2 = a.2.2 := by omega
      rw [if_neg (by simpa [isVertical] using c1)]
      by_cases c2 : b.1.1 = b.2.1
      · rw [if_pos (by simpa [isVertical] using c2)]
        have hcr : cr a b ≠ 0 := by
          unfold cr; rw [c2, h1]
          have : (a.2.1 - a.1.1) * (b.2.2 - b.1.2) ≠ 0 := mul_ne_zero (by omega) (by omega)
          intro h; apply this; linarith
        have hy : evalAt ev b.1.1 a.1 a.2 = a.1.2 := by unfold evalAt; rw [if_pos h1]
        rw [hy, if_pos (by omega)]
        rw [Option.some_inj]
        constructor
        · rintro rfl; dsimp only; exact ⟨hcr, by omega, by omega⟩
        · rintro ⟨_, h3, h4⟩; exact Prod.ext (by dsimp only; omega) (by dsimp only; omega)
      · have h2 : b.1.2 = b.2.2 := by omega
        rw [if_neg (by simpa [isVertical] using c2), if_pos (by simp [isHorizontal, h1, h2])]
        have : cr a b = 0 := by unfold cr; rw [h1, h2]; ring
        simp [this]
  · rw [if_pos (by simp [c0])]
    rw [boxTouch_iff] at c0
    constructor
    · intro h; simp at h
    · rintro ⟨_, h1, h2⟩; exact absurd (by omega) c0

theorem manhattan_exact (fp : FP) {umin : Int} {E : List HE} (hM : Manhattan E) (hd : ∀ a ∈ E, Directed a) (hl : ∀ a ∈ E, umin ≤ min a.1.2 a.2.2) :
    Exact fp umin E := by
  refine exact_of hd hl ?_ ?_ ?_ ?_
  · intro a ha b hb p h
    obtain ⟨_, h1⟩ := compute_cases h
    have : cr a b ≠ 0 ∧ inBox a p = true ∧ inBox b p = true := by
      rcases h1 with h1 | h1
      · exact (hv_candidate (hd a ha) (hd b hb) (hM a ha) (hM b hb) p).1 h1
      · exact (hv_candidate (hd a ha) (hd b hb) (hM a ha) (hM b hb) p).1 h1
    exact ⟨hv_on (hd a ha) (hM a ha) this.2.1, hv_on (hd b hb) (hM b hb) this.2.2, this.1⟩
  · intro a ha b hb hcr p pa pb
    exact (hv_candidate (hd a ha) (hd b hb) (hM a ha) (hM b hb) p).2 ⟨hcr, ((on_iff (hd a ha) p).1 pa).1, ((on_iff (hd b hb) p).1 pb).1⟩
  · intro a ha b hb hcr q qa qb
    have da := hd a ha
    have db := hd b hb
    have q1 := qa
    have q2 := qb
    obtain ⟨s, _, _, sx, sy⟩ := qa
    obtain ⟨t, _, _, tx, ty⟩ := qb
    by_cases c1 : a.1.1 = a.2.1
    · have c2 : ¬ b.1.1 = b.2.1 := by
        intro c2; apply hcr; unfold cr; rw [c1, c2]; ring
      have c3 := (hM b hb).resolve_left c2
      have c1q : (a.2.1 : ℚ) = a.1.1 := by exact_mod_cast c1.symm
      have c3q : (b.2.2 : ℚ) = b.1.2 := by exact_mod_cast c3.symm
      refine ⟨(a.1.1, b.1.2), Prod.ext ?_ ?_⟩
      · show q.1 = a.1.1; rw [sx, c1q]; ring
      · show q.2 = b.1.2; rw [ty, c3q]; ring
    · have c3 := (hM a ha).resolve_left c1
      have c2 : b.1.1 = b.2.1 := by
        by_contra c2
        have c4 := (hM b hb).resolve_left c2
        apply hcr; unfold cr; rw [c3, c4]; ring
      have c2q : (b.2.1 : ℚ) = b.1.1 := by exact_mod_cast c2.symm
      have c3q : (a.2.2 : ℚ) = a.1.2 := by exact_mod_cast c3.symm
      refine ⟨(b.1.1, a.1.2), Prod.ext ?_ ?_⟩
      · show q.1 = b.1.1; rw [tx, c2q]; ring
      · show q.2 = a.1.2; rw [sy, c3q]; ring
  · intro p _ a ha hg
    exact hv_on (hd a ha) (hM a ha) (grid_inBox hg)

/-! ### The grid test -/

/-- The grid test only accepts points whose unit square the segment meets. -/
theorem grid_hits {e : HE} (hd : Directed e) {p : Pt} (h : grid p e = true) : HitsSquare e p := by
  have on_hits : OnEdge e (cq p) → HitsSquare e p := by
    intro ho
    refine ⟨cq p, ho, ?_⟩
    unfold cq; dsimp only
    exact ⟨le_refl _, by linarith, le_refl _, by linarith⟩
  have hbox := grid_inBox h
  unfold grid at h
  by_cases c1 : p = e.2
  · apply on_hits; rw [c1]; exact onEdge_snd e
  rw [if_neg c1] at h
  by_cases c2 : p = e.1
  · apply on_hits; rw [c2]; exact onEdge_fst e
  rw [if_neg c2, if_neg (by simp [hbox])] at h
  by_cases c3 : (isVertical e || isHorizontal e) = true
  · apply on_hits
    simp only [isVertical, isHorizontal, Bool.or_eq_true, beq_iff_eq] at c3
    exact hv_on hd c3 hbox
  rw [if_neg c3] at h
  by_cases c4 : (Arb.equalSlope p e.1 e.2 && between p e.1 e.2) = true
  · apply on_hits
    rw [Bool.and_eq_true, equalSlope_iff] at c4
    exact (on_iff hd p).2 ⟨hbox, c4.1⟩
  rw [if_neg c4] at h
  dsimp only at h
  by_cases c5 : (intersects (p, (p.1 + 1, p.2 + 1)) e && oab (p.1 + 1, p.2 + 1) e != 0) = true
  · rw [Bool.and_eq_true, bne_iff_ne] at c5
    obtain ⟨q, q1, q2⟩ := intersects_common (a := (p, (p.1 + 1, p.2 + 1))) (Or.inl (by dsimp only; omega)) hd c5.1
    obtain ⟨t, t0, t1, tx, ty⟩ := q1
    dsimp only at tx ty
    push_cast at tx ty
    have tx : q.1 = p.1 + t := by rw [tx]; ring
    have ty : q.2 = p.2 + t := by rw [ty]; ring
    have tl : t < 1 := by
      refine lt_of_le_of_ne t1 ?_
      rintro rfl
      apply c5.2
      rw [oab_eq _ hd, Int.sign_eq_zero_iff_zero]
      have : q = cq (p.1 + 1, p.2 + 1) := by
        unfold cq; apply Prod.ext
        · rw [tx]; push_cast; rfl
        · rw [ty]; push_cast; rfl
      rw [this] at q2
      exact ((on_iff hd _).1 q2).2
    exact ⟨q, q2, by linarith, by linarith, by linarith, by linarith⟩
  rw [if_neg c5] at h
  by_cases c6 : (intersects ((p.1, p.2 + 1), (p.1 + 1, p.2)) e && oab (p.1, p.2 + 1) e != 0 && oab (p.1 + 1, p.2) e != 0) = true
  · rw [Bool.and_eq_true, Bool.and_eq_true, bne_iff_ne, bne_iff_ne] at c6
    obtain ⟨q, q1, q2⟩ := intersects_common (a := ((p.1, p.2 + 1), (p.1 + 1, p.2))) (Or.inl (by dsimp only; omega)) hd c6.1.1
    obtain ⟨t, t0, t1, tx, ty⟩ := q1
    dsimp only at tx ty
    push_cast at tx ty
    have tx : q.1 = p.1 + t := by rw [tx]; ring
    have ty : q.2 = p.2 + 1 - t := by rw [ty]; ring
    have tl : t < 1 := by
      refine lt_of_le_of_ne t1 ?_
      rintro rfl
      apply c6.2
      rw [oab_eq _ hd, Int.sign_eq_zero_iff_zero]
      have : q = cq (p.1 + 1, p.2) := by
        unfold cq; apply Prod.ext
        · rw [tx]; push_cast; rfl
        · rw [ty]; dsimp only; ring
      rw [this] at q2
      exact ((on_iff hd _).1 q2).2
    have tg : 0 < t := by
      refine lt_of_le_of_ne t0 ?_
      rintro rfl
      apply c6.1.2
      rw [oab_eq _ hd, Int.sign_eq_zero_iff_zero]
      have : q = cq (p.1, p.2 + 1) := by
        unfold cq; apply Prod.ext
        · rw [tx]; dsimp only; ring
        · rw [ty]; push_cast; ring
      rw [this] at q2
      exact ((on_iff hd _).1 q2).2
    exact ⟨q, q2, by linarith, by linarith, by linarith, by linarith⟩
  rw [if_neg c6] at h; simp at h

/-! ### Edges that meet in lattice points -/

theorem acc_candidate {ev : Int → Pt → Pt → Int} {ptf : HE → HE → Option Pt}
    (hev : ∀ x y p q, p.1 ≠ q.1 → (y - p.2) * (q.1 - p.1) = (q.2 - p.2) * (x - p.1) → ev x p q = y)
    (hpt : ∀ (e f : HE) (p : Pt), (e.2.1 - e.1.1) * (f.2.2 - f.1.2) ≠ (f.2.1 - f.1.1) * (e.2.2 - e.1.2) →
      (p.2 - e.1.2) * (e.2.1 - e.1.1) = (e.2.2 - e.1.2) * (p.1 - e.1.1) →
      (p.2 - f.1.2) * (f.2.1 - f.1.1) = (f.2.2 - f.1.2) * (p.1 - f.1.1) → ptf e f = some p)
    {a b : HE} (hda : Directed a) (hdb : Directed b) (hcr : cr a b ≠ 0) {p : Pt} (pa : OnEdge a (cq p)) (pb : OnEdge b (cq p)) :
    candidate ev ptf a b = some p := by
  obtain ⟨ba, da⟩ := (on_iff hda p).1 pa
  obtain ⟨bb, db⟩ := (on_iff hdb p).1 pb
  have ba' := ba
  have bb' := bb
  rw [inBox_iff] at ba bb
  have hEval : ∀ e : HE, Directed e → ¬ e.1.1 = e.2.1 → det p e.1 e.2 = 0 → evalAt ev p.1 e.1 e.2 = p.2 := by
    intro e he hv hdet
    unfold det at hdet
    unfold evalAt
    by_cases g1 : e.1.2 = e.2.2
    · rw [if_pos g1]
      rw [g1] at hdet
      have : (p.2 - e.2.2) * (e.2.1 - e.1.1) = 0 := by linarith
      rcases mul_eq_zero.1 this with k | k <;> omega
    · rw [if_neg g1]
      by_cases g2 : p.1 = e.1.1
      · rw [if_pos g2]
        rw [g2] at hdet
        have : (p.2 - e.1.2) * (e.2.1 - e.1.1) = 0 := by linarith
        rcases mul_eq_zero.1 this with k | k <;> omega
      · rw [if_neg g2]
        exact hev _ _ _ _ hv (by linarith)
  unfold candidate
  rw [if_neg (by
    have : boxTouch a b = true := by
      rw [boxTouch_iff]; exact ⟨by omega, by omega, by omega, by omega⟩
    simp [this])]
  by_cases c1 : a.1.1 = a.2.1
  · rw [if_pos (by simpa [isVertical] using c1)]
    have c2 : ¬ b.1.1 = b.2.1 := by
      intro c2; apply hcr; unfold cr; rw [c1, c2]; ring
    rw [if_neg (by simpa [isVertical] using c2)]
    have hp1 : a.1.1 = p.1 := by omega
    dsimp only
    rw [hp1, hEval b hdb c2 db, if_pos (by omega)]
  · rw [if_neg (by simpa [isVertical] using c1)]
    by_cases c2 : b.1.1 = b.2.1
    · rw [if_pos (by simpa [isVertical] using c2)]
      have hp1 : b.1.1 = p.1 := by omega
      dsimp only
      rw [hp1, hEval a hda c1 da, if_pos (by omega)]
    · rw [if_neg (by simpa [isVertical] using c2)]
      have c3 : ¬ (isHorizontal a && isHorizontal b) = true := by
        simp only [isHorizontal, Bool.and_eq_true, beq_iff_eq]
        rintro ⟨h1, h2⟩; apply hcr; unfold cr; rw [h1, h2]; ring
      rw [if_neg c3]
      have : ptf a b = some p := hpt a b p (by unfold cr at hcr; intro h; apply hcr; linarith) (by unfold det at da; linarith) (by unfold det at db; linarith)
      rw [this]
      dsimp only
      have hy : (if isHorizontal b = true then b.1.2 else if isHorizontal a = true then a.1.2 else p.2) = p.2 := by
        split_ifs with g1 g2
        · simp only [isHorizontal, beq_iff_eq] at g1; omega
        · simp only [isHorizontal, beq_iff_eq] at g2; omega
        · rfl
      rw [hy, if_pos (by rw [Bool.and_eq_true]; exact ⟨ba', bb'⟩)]

theorem par_candidate {ev : Int → Pt → Pt → Int} {ptf : HE → HE → Option Pt} {a b : HE} (hda : Directed a) (hdb : Directed b) (hcr : cr a b = 0)
    (hpt : ptf a b = none) : candidate ev ptf a b = none := by
  unfold Spec.Arb.Directed at hda hdb
  unfold cr at hcr
  unfold candidate
  by_cases c0 : (!boxTouch a b) = true
  · rw [if_pos c0]
  rw [if_neg c0]
  by_cases c1 : a.1.1 = a.2.1
  · rw [if_pos (by simpa [isVertical] using c1)]
    by_cases c2 : b.1.1 = b.2.1
    · rw [if_pos (by simpa [isVertical] using c2)]
    · exfalso
      rw [c1] at hcr
      have : (b.2.1 - b.1.1) * (a.2.2 - a.1.2) = 0 := by linarith
      rcases mul_eq_zero.1 this with k | k <;> omega
  rw [if_neg (by simpa [isVertical] using c1)]
  by_cases c2 : b.1.1 = b.2.1
  · exfalso
    rw [c2] at hcr
    have : (a.2.1 - a.1.1) * (b.2.2 - b.1.2) = 0 := by linarith
    rcases mul_eq_zero.1 this with k | k <;> omega
  rw [if_neg (by simpa [isVertical] using c2)]
  by_cases c3 : (isHorizontal a && isHorizontal b) = true
  · rw [if_pos c3]
  · rw [if_neg c3, hpt]

theorem parallel_iff (a b : HE) : Parallel a b ↔ cr a b = 0 := by
  unfold Parallel cr; constructor <;> intro h <;> linarith

theorem pt_eq (p : Pt) : Spec.Arb.pt p = cq p := rfl

theorem lattice_exact {fp : FP} (hfp : fp.Accurate) {umin : Int} {E : List HE} (hE : OnLattice E) (hd : ∀ a ∈ E, Directed a)
    (hl : ∀ a ∈ E, umin ≤ min a.1.2 a.2.2) : Exact fp umin E := by
  have hc : ∀ a ∈ E, ∀ b ∈ E, ∀ p, computeIntersection fp a b = some p → OnEdge a (cq p) ∧ OnEdge b (cq p) ∧ cr a b ≠ 0 := by
    intro a ha b hb p h
    obtain ⟨hi, h1⟩ := compute_cases h
    have hcr : cr a b ≠ 0 := by
      intro hcr
      have k1 := par_candidate (ev := fp.yL) (hd a ha) (hd b hb) hcr (hfp.parL a b (by unfold cr at hcr; linarith))
      have k2 := par_candidate (ev := fp.yE) (hd a ha) (hd b hb) hcr (hfp.parE a b (by unfold cr at hcr; linarith))
      rw [k1, k2] at h1; simp at h1
    obtain ⟨q, qa, qb⟩ := intersects_common (hd a ha) (hd b hb) hi
    obtain ⟨r, rfl⟩ := hE.1 a ha b hb (by rw [parallel_iff]; exact hcr) q qa qb
    rw [pt_eq] at qa qb
    have k1 := acc_candidate hfp.yL hfp.ptL (hd a ha) (hd b hb) hcr qa qb
    have k2 := acc_candidate hfp.yE hfp.ptE (hd a ha) (hd b hb) hcr qa qb
    have : r = p := by
      rcases h1 with h1 | h1
      · rw [k1] at h1; exact Option.some_inj.1 h1
      · rw [k2] at h1; exact Option.some_inj.1 h1
    subst this
    exact ⟨qa, qb, hcr⟩
  refine exact_of hd hl hc ?_ ?_ ?_
  · intro a ha b hb hcr p pa pb
    exact acc_candidate hfp.yL hfp.ptL (hd a ha) (hd b hb) hcr pa pb
  · intro a ha b hb hcr q qa qb
    exact hE.1 a ha b hb (by rw [parallel_iff]; exact hcr) q qa qb
  · intro p hN a ha hg
    refine hE.2 p ?_ a ha (grid_hits (hd a ha) hg)
    rcases hN with h | ⟨a, ha, b, hb, h⟩
    · exact Or.inl h
    · obtain ⟨h1, h2, h3⟩ := hc a ha b hb p h
      exact Or.inr ⟨a, ha, b, hb, by rw [parallel_iff]; exact h3, h1, h2⟩

end Verif.Cut
