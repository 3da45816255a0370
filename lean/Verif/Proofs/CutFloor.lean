import Verif.Proofs.CutManhattan
import Mathlib.Tactic.FieldSimp
import Mathlib.Tactic.Positivity
/-! Cutting with exact arithmetic, rounded down: which points are found on which segment. -/
namespace Verif.Cut
open Verif Verif.Arb Verif.Contains Verif.PolySet Verif.Spec Verif.Spec.Arb

/-- The lattice point below and to the left. -/
def fl (q : ℚ × ℚ) : Pt := (⌊q.1⌋, ⌊q.2⌋)

theorem fl_cq (p : Pt) : fl (cq p) = p := by unfold fl cq; simp

theorem fl_iff (q : ℚ × ℚ) (p : Pt) : fl q = p ↔ (p.1 : ℚ) ≤ q.1 ∧ q.1 < p.1 + 1 ∧ (p.2 : ℚ) ≤ q.2 ∧ q.2 < p.2 + 1 := by
  unfold fl
  rw [Prod.ext_iff]
  dsimp only
  rw [Int.floor_eq_iff, Int.floor_eq_iff, and_assoc]

theorem hits_iff (e : HE) (p : Pt) : HitsSquare e p ↔ ∃ q, OnEdge e q ∧ fl q = p := by
  unfold HitsSquare
  simp only [fl_iff]

theorem on_box {e : HE} {q : ℚ × ℚ} (h : OnEdge e q) : ((min e.1.1 e.2.1 : Int) : ℚ) ≤ q.1 ∧ q.1 ≤ ((max e.1.1 e.2.1 : Int) : ℚ) ∧
    ((min e.1.2 e.2.2 : Int) : ℚ) ≤ q.2 ∧ q.2 ≤ ((max e.1.2 e.2.2 : Int) : ℚ) := by
  obtain ⟨t, t0, t1, hx, hy⟩ := h
  have key : ∀ a b : Int, ((min a b : Int) : ℚ) ≤ a + t * (b - a) ∧ (a : ℚ) + t * (b - a) ≤ ((max a b : Int) : ℚ) := by
    intro a b
    rcases le_total a b with g | g
    · have gq : (a : ℚ) ≤ b := by exact_mod_cast g
      rw [min_eq_left g, max_eq_right g]
      constructor <;> nlinarith
    · have gq : (b : ℚ) ≤ a := by exact_mod_cast g
      rw [min_eq_right g, max_eq_left g]
      constructor <;> nlinarith
  rw [hx, hy]
  exact ⟨(key _ _).1, (key _ _).2, (key _ _).1, (key _ _).2⟩

theorem fl_box {e : HE} {q : ℚ × ℚ} (h : OnEdge e q) : inBox e (fl q) = true := by
  obtain ⟨h1, h2, h3, h4⟩ := on_box h
  rw [inBox_iff]
  unfold fl
  dsimp only
  have a1 := Int.le_floor.2 h1
  have a2 := Int.floor_le_iff.2 (lt_of_le_of_lt h2 (lt_add_one _))
  have a3 := Int.le_floor.2 h3
  have a4 := Int.floor_le_iff.2 (lt_of_le_of_lt h4 (lt_add_one _))
  exact ⟨a1, a2, a3, a4⟩

theorem hits_box {e : HE} {p : Pt} (h : HitsSquare e p) : inBox e p = true := by
  obtain ⟨q, h1, rfl⟩ := (hits_iff e p).1 h
  exact fl_box h1

/-- The point is on the segment and is not one of its ends. -/
def InnerOn (e : HE) (q : ℚ × ℚ) : Prop :=
  ∃ t : ℚ, 0 < t ∧ t < 1 ∧ q.1 = e.1.1 + t * (e.2.1 - e.1.1) ∧ q.2 = e.1.2 + t * (e.2.2 - e.1.2)

theorem InnerOn.on {e : HE} {q : ℚ × ℚ} (h : InnerOn e q) : OnEdge e q := by
  obtain ⟨t, h1, h2, h3⟩ := h; exact ⟨t, h1.le, h2.le, h3⟩

theorem onEdge_cases {e : HE} {q : ℚ × ℚ} (h : OnEdge e q) : q = cq e.1 ∨ q = cq e.2 ∨ InnerOn e q := by
  obtain ⟨t, h1, h2, h3, h4⟩ := h
  rcases h1.lt_or_eq with g1 | g1
  · rcases h2.lt_or_eq with g2 | g2
    · exact Or.inr (Or.inr ⟨t, g1, g2, h3, h4⟩)
    · right; left; unfold cq; subst g2; apply Prod.ext
      · rw [h3]; ring
      · rw [h4]; ring
  · left; unfold cq; subst g1; apply Prod.ext
    · rw [h3]; ring
    · rw [h4]; ring

theorem inner_strict {e : HE} {q : ℚ × ℚ} (h : InnerOn e q) :
    (e.1.1 ≠ e.2.1 → ((min e.1.1 e.2.1 : Int) : ℚ) < q.1 ∧ q.1 < ((max e.1.1 e.2.1 : Int) : ℚ)) ∧
    (e.1.2 ≠ e.2.2 → ((min e.1.2 e.2.2 : Int) : ℚ) < q.2 ∧ q.2 < ((max e.1.2 e.2.2 : Int) : ℚ)) := by
  obtain ⟨t, t0, t1, hx, hy⟩ := h
  have key : ∀ a b : Int, a ≠ b → ((min a b : Int) : ℚ) < a + t * (b - a) ∧ (a : ℚ) + t * (b - a) < ((max a b : Int) : ℚ) := by
    intro a b hab
    rcases lt_or_gt_of_ne hab with g | g
    · have gq : (a : ℚ) < b := by exact_mod_cast g
      rw [min_eq_left g.le, max_eq_right g.le]
      constructor <;> nlinarith
    · have gq : (b : ℚ) < a := by exact_mod_cast g
      rw [min_eq_right g.le, max_eq_left g.le]
      constructor <;> nlinarith
  rw [hx, hy]
  exact ⟨fun h => key _ _ h, fun h => key _ _ h⟩

theorem inner_det {a b : HE} {q : ℚ × ℚ} (hq : InnerOn a q) (hb : dq q b = 0) (hc : cr a b ≠ 0) :
    det a.1 b.1 b.2 ≠ 0 ∧ det a.2 b.1 b.2 ≠ 0 ∧ (det a.1 b.1 b.2).sign ≠ (det a.2 b.1 b.2).sign := by
  obtain ⟨t, t0, t1, hx, hy⟩ := hq
  have e1 : ((det a.1 b.1 b.2 : Int) : ℚ) = t * ((cr a b : Int) : ℚ) := by
    unfold dq at hb; rw [hx, hy] at hb
    unfold det cr; push_cast
    linear_combination hb
  have e2 : ((det a.2 b.1 b.2 : Int) : ℚ) = -(1 - t) * ((cr a b : Int) : ℚ) := by
    unfold dq at hb; rw [hx, hy] at hb
    unfold det cr; push_cast
    linear_combination hb
  generalize det a.1 b.1 b.2 = x at *
  generalize det a.2 b.1 b.2 = y at *
  rcases lt_or_gt_of_ne hc with g | g
  · have gq : ((cr a b : Int) : ℚ) < 0 := by exact_mod_cast g
    have h1 : (x : ℚ) < 0 := by rw [e1]; exact mul_neg_of_pos_of_neg t0 gq
    have h2 : (0 : ℚ) < y := by rw [e2]; exact mul_pos_of_neg_of_neg (by linarith) gq
    have h1 : x < 0 := by exact_mod_cast h1
    have h2 : 0 < y := by exact_mod_cast h2
    exact ⟨by omega, by omega, sign_opp (by omega) (by omega) (Or.inl ⟨h1, h2⟩)⟩
  · have gq : (0 : ℚ) < ((cr a b : Int) : ℚ) := by exact_mod_cast g
    have h1 : (0 : ℚ) < x := by rw [e1]; exact mul_pos t0 gq
    have h2 : (y : ℚ) < 0 := by rw [e2]; exact mul_neg_of_neg_of_pos (by linarith) gq
    have h1 : 0 < x := by exact_mod_cast h1
    have h2 : y < 0 := by exact_mod_cast h2
    exact ⟨by omega, by omega, sign_opp (by omega) (by omega) (Or.inr ⟨h1, h2⟩)⟩

theorem ends_ne {a b : HE} {q : ℚ × ℚ} (ha : InnerOn a q) (hb : InnerOn b q) (hda : Directed a) (hdb : Directed b) (hc : cr a b ≠ 0) :
    a.1 ≠ b.1 ∧ a.1 ≠ b.2 ∧ a.2 ≠ b.1 ∧ a.2 ≠ b.2 := by
  obtain ⟨n1, n2, _⟩ := inner_det ha ((onEdge_lex hdb _).1 hb.on).1 hc
  refine ⟨fun h => n1 ?_, fun h => n1 ?_, fun h => n2 ?_, fun h => n2 ?_⟩ <;> rw [h]
  · exact det_fst _ _
  · exact det_snd _ _
  · exact det_fst _ _
  · exact det_snd _ _

theorem inner_overlap {a b : HE} {q : ℚ × ℚ} (ha : InnerOn a q) (hb : InnerOn b q) (hc : cr a b ≠ 0) :
    min a.1.1 a.2.1 < max b.1.1 b.2.1 ∧ min b.1.1 b.2.1 < max a.1.1 a.2.1 ∧
    min a.1.2 a.2.2 < max b.1.2 b.2.2 ∧ min b.1.2 b.2.2 < max a.1.2 a.2.2 := by
  obtain ⟨ax, ay⟩ := inner_strict ha
  obtain ⟨bx, b_y⟩ := inner_strict hb
  obtain ⟨a1, a2, a3, a4⟩ := on_box ha.on
  obtain ⟨b1, b2, b3, b4⟩ := on_box hb.on
  have nv : a.1.1 ≠ a.2.1 ∨ b.1.1 ≠ b.2.1 := by
    by_contra h; push Not at h; apply hc; unfold cr; rw [h.1, h.2]; ring
  have nh : a.1.2 ≠ a.2.2 ∨ b.1.2 ≠ b.2.2 := by
    by_contra h; push Not at h; apply hc; unfold cr; rw [h.1, h.2]; ring
  refine ⟨?_, ?_, ?_, ?_⟩
  · have : ((min a.1.1 a.2.1 : Int) : ℚ) < ((max b.1.1 b.2.1 : Int) : ℚ) := by
      rcases nv with h | h
      · exact lt_of_lt_of_le (ax h).1 b2
      · exact lt_of_le_of_lt a1 (bx h).2
    exact_mod_cast this
  · have : ((min b.1.1 b.2.1 : Int) : ℚ) < ((max a.1.1 a.2.1 : Int) : ℚ) := by
      rcases nv with h | h
      · exact lt_of_le_of_lt b1 (ax h).2
      · exact lt_of_lt_of_le (bx h).1 a2
    exact_mod_cast this
  · have : ((min a.1.2 a.2.2 : Int) : ℚ) < ((max b.1.2 b.2.2 : Int) : ℚ) := by
      rcases nh with h | h
      · exact lt_of_lt_of_le (ay h).1 b4
      · exact lt_of_le_of_lt a3 (b_y h).2
    exact_mod_cast this
  · have : ((min b.1.2 b.2.2 : Int) : ℚ) < ((max a.1.2 a.2.2 : Int) : ℚ) := by
      rcases nh with h | h
      · exact lt_of_le_of_lt b3 (ay h).2
      · exact lt_of_lt_of_le (b_y h).1 a4
    exact_mod_cast this

/-- Segments that cross at an inner point of both are seen to intersect. -/
theorem intersects_inner {a b : HE} {q : ℚ × ℚ} (hda : Directed a) (hdb : Directed b) (hc : cr a b ≠ 0) (ha : InnerOn a q) (hb : InnerOn b q) :
    intersects a b = true := by
  obtain ⟨s1, s2, s3⟩ := inner_det ha ((onEdge_lex hdb _).1 hb.on).1 hc
  obtain ⟨r1, r2, r3⟩ := inner_det hb ((onEdge_lex hda _).1 ha.on).1 (by rw [cr_symm]; omega)
  obtain ⟨n1, n2, n3, n4⟩ := ends_ne ha hb hda hdb hc
  have hs0 : ∀ x : Int, x ≠ 0 → x.sign ≠ 0 := fun x hx h => hx (Int.sign_eq_zero_iff_zero.1 h)
  have o1 := oab_eq a.1 hdb; have o2 := oab_eq a.2 hdb; have o3 := oab_eq b.1 hda; have o4 := oab_eq b.2 hda
  unfold intersects
  rw [if_pos ((overlap_iff a b).2 (inner_overlap ha hb hc)), if_neg n1, if_neg n2, if_neg n3, if_neg n4]
  rw [o1, o2, o3, o4]
  rw [if_neg (by simp [s1]), if_neg (by simp [s2]), if_neg (by simp [s3]), if_neg (by simp [r1]), if_neg (by simp [r2]), if_neg (by simpa using r3)]

theorem compared_inner {a b : HE} {q : ℚ × ℚ} (hda : Directed a) (hdb : Directed b) (hc : cr a b ≠ 0) (ha : InnerOn a q) (hb : InnerOn b q) {k : Int}
    (hk : above k a = true ∨ above k b = true) : Compared k a b := by
  obtain ⟨n1, n2, n3, n4⟩ := ends_ne ha hb hda hdb hc
  exact ⟨hk, fun h => n1 (by rw [h]), (inner_overlap ha hb hc).2.1, n1, n4⟩

/-! ### The grid test is complete -/

theorem grid_complete {e : HE} (hd : Directed e) {p : Pt} (h : HitsSquare e p) : grid p e = true := by
  have hbox := hits_box h
  unfold grid
  by_cases c1 : p = e.2
  · rw [if_pos c1]
  rw [if_neg c1]
  by_cases c2 : p = e.1
  · rw [if_pos c2]
  rw [if_neg c2, if_neg (by simp [hbox])]
  by_cases c3 : (isVertical e || isHorizontal e) = true
  · rw [if_pos c3]
  rw [if_neg c3]
  by_cases c4 : (Arb.equalSlope p e.1 e.2 && between p e.1 e.2) = true
  · rw [if_pos c4]
  rw [if_neg c4]
  simp only [isVertical, isHorizontal, Bool.or_eq_true, beq_iff_eq, not_or] at c3
  have hdx : e.1.1 < e.2.1 := by unfold Spec.Arb.Directed at hd; omega
  have hL : det p e.1 e.2 ≠ 0 := by
    intro hL
    have hon := (on_iff hd p).2 ⟨hbox, hL⟩
    obtain ⟨_, l1, l2⟩ := (onEdge_lex hd _).1 hon
    apply c4
    rw [Bool.and_eq_true, equalSlope_iff, between_iff hd]
    exact ⟨hL, (lle_plt l1).resolve_left (fun h => c2 h.symm), (lle_plt l2).resolve_left c1⟩
  obtain ⟨q, hq, x1, x2, y1, y2⟩ := h
  have hqd := ((onEdge_lex hd _).1 hq).1
  have hbox' := hbox
  rw [inBox_iff] at hbox
  have hlt : p.1 + 1 ≤ e.2.1 := by
    by_contra hn
    have hp : p.1 = e.2.1 := by omega
    have hq1 : q.1 ≤ e.2.1 := by have := (on_box hq).2.1; rwa [max_eq_right hdx.le] at this
    have hqe : q.1 = e.2.1 := le_antisymm hq1 (by rw [← hp]; exact x1)
    have hq2 : q.2 = e.2.2 := by
      unfold dq at hqd; rw [hqe] at hqd
      have hdxq : (e.2.1 : ℚ) - e.1.1 ≠ 0 := by
        have : (e.1.1 : ℚ) < e.2.1 := by exact_mod_cast hdx
        linarith
      have : (q.2 - e.2.2) * ((e.2.1 : ℚ) - e.1.1) = 0 := by linarith
      have := (mul_eq_zero.1 this).resolve_right hdxq
      linarith
    apply c1
    have : fl q = e.2 := by
      have : q = cq e.2 := Prod.ext hqe hq2
      rw [this, fl_cq]
    rw [← this]; exact ((fl_iff q p).2 ⟨x1, x2, y1, y2⟩).symm
  have hge : e.1.1 ≤ p.1 := by omega
  -- points of the open column of the square on the line are inner points of the segment
  have inner_of : ∀ z : ℚ × ℚ, dq z e = 0 → (p.1 : ℚ) < z.1 → z.1 < p.1 + 1 → InnerOn e z := by
    intro z hz z1 z2
    have hdxq : (0 : ℚ) < (e.2.1 : ℚ) - e.1.1 := by
      have : (e.1.1 : ℚ) < e.2.1 := by exact_mod_cast hdx
      linarith
    have g1 : (e.1.1 : ℚ) ≤ p.1 := by exact_mod_cast hge
    have g2 : (p.1 : ℚ) + 1 ≤ e.2.1 := by exact_mod_cast hlt
    refine ⟨(z.1 - e.1.1) / (e.2.1 - e.1.1), div_pos (by linarith) hdxq, by rw [div_lt_one hdxq]; linarith, ?_, ?_⟩
    · field_simp; ring
    · unfold dq at hz
      field_simp
      linarith
  have hLq : ((det p e.1 e.2 : Int) : ℚ) + (q.2 - p.2) * (e.2.1 - e.1.1) - (q.1 - p.1) * (e.2.2 - e.1.2) = 0 := by
    unfold dq at hqd; unfold det; push_cast; linarith
  have dxq : (0 : ℚ) < (e.2.1 : ℚ) - e.1.1 := by
    have : (e.1.1 : ℚ) < e.2.1 := by exact_mod_cast hdx
    linarith
  dsimp only
  rcases lt_or_gt_of_ne c3.2 with hdy | hdy
  · -- rising
    have dyq : (0 : ℚ) < (e.2.2 : ℚ) - e.1.2 := by
      have : (e.1.2 : ℚ) < e.2.2 := by exact_mod_cast hdy
      linarith
    have hUL : 0 < det (p.1, p.2 + 1) e.1 e.2 := by
      have : (0 : ℚ) < ((det (p.1, p.2 + 1) e.1 e.2 : Int) : ℚ) := by
        have e1 : ((det (p.1, p.2 + 1) e.1 e.2 : Int) : ℚ) = ((det p e.1 e.2 : Int) : ℚ) + ((e.2.1 : ℚ) - e.1.1) := by
          unfold det; push_cast; ring
        rw [e1]; nlinarith
      exact_mod_cast this
    have hLR : det (p.1 + 1, p.2) e.1 e.2 < 0 := by
      have : ((det (p.1 + 1, p.2) e.1 e.2 : Int) : ℚ) < 0 := by
        have e1 : ((det (p.1 + 1, p.2) e.1 e.2 : Int) : ℚ) = ((det p e.1 e.2 : Int) : ℚ) - ((e.2.2 : ℚ) - e.1.2) := by
          unfold det; push_cast; ring
        rw [e1]; nlinarith
      exact_mod_cast this
    have hcr : cr ((p.1, p.2 + 1), (p.1 + 1, p.2)) e ≠ 0 := by
      have : cr ((p.1, p.2 + 1), (p.1 + 1, p.2)) e = det (p.1, p.2 + 1) e.1 e.2 - det (p.1 + 1, p.2) e.1 e.2 := (det_diff _ _).symm
      rw [this]; omega
    have hint : intersects ((p.1, p.2 + 1), (p.1 + 1, p.2)) e = true := by
      have u : (0 : ℚ) < ((det (p.1, p.2 + 1) e.1 e.2 : Int) : ℚ) := by exact_mod_cast hUL
      have v : ((det (p.1 + 1, p.2) e.1 e.2 : Int) : ℚ) < 0 := by exact_mod_cast hLR
      have eqU : ((det (p.1, p.2 + 1) e.1 e.2 : Int) : ℚ) = (p.2 + 1 - e.1.2) * ((e.2.1 : ℚ) - e.1.1) - ((e.2.2 : ℚ) - e.1.2) * (p.1 - e.1.1) := by
        unfold det; push_cast; ring
      have eqV : ((det (p.1 + 1, p.2) e.1 e.2 : Int) : ℚ) = (p.2 - e.1.2) * ((e.2.1 : ℚ) - e.1.1) - ((e.2.2 : ℚ) - e.1.2) * (p.1 + 1 - e.1.1) := by
        unfold det; push_cast; ring
      generalize hU : ((det (p.1, p.2 + 1) e.1 e.2 : Int) : ℚ) = U at *
      generalize hV : ((det (p.1 + 1, p.2) e.1 e.2 : Int) : ℚ) = V at *
      have hUV : 0 < U - V := by linarith
      have t0 : 0 < U / (U - V) := div_pos u hUV
      have t1 : U / (U - V) < 1 := by rw [div_lt_one hUV]; linarith
      have ht : U / (U - V) * (U - V) = U := div_mul_cancel₀ _ (ne_of_gt hUV)
      generalize U / (U - V) = t at *
      refine intersects_inner (q := ((p.1 : ℚ) + t, (p.2 : ℚ) + 1 - t)) (Or.inl (by dsimp only; omega)) hd hcr ?_ ?_
      · exact ⟨t, t0, t1, by dsimp only; push_cast; ring, by dsimp only; push_cast; ring⟩
      · refine inner_of _ ?_ (by dsimp only; linarith) (by dsimp only; linarith)
        unfold dq; dsimp only
        have : U - t * (U - V) = 0 := by linarith
        rw [eqU, eqV] at this
        linear_combination this
    have o1 : oab (p.1, p.2 + 1) e ≠ 0 := by
      rw [oab_eq _ hd]; intro h; rw [Int.sign_eq_zero_iff_zero] at h; omega
    have o2 : oab (p.1 + 1, p.2) e ≠ 0 := by
      rw [oab_eq _ hd]; intro h; rw [Int.sign_eq_zero_iff_zero] at h; omega
    by_cases c5 : (intersects (p, (p.1 + 1, p.2 + 1)) e && oab (p.1 + 1, p.2 + 1) e != 0) = true
    · rw [if_pos c5]
    · rw [if_neg c5, if_pos (by simp [hint, o1, o2])]
  · -- falling
    have dyq : (e.2.2 : ℚ) - e.1.2 < 0 := by
      have : (e.2.2 : ℚ) < e.1.2 := by exact_mod_cast hdy
      linarith
    have hLL : det p e.1 e.2 < 0 := by
      have : ((det p e.1 e.2 : Int) : ℚ) ≤ 0 := by nlinarith
      have : det p e.1 e.2 ≤ 0 := by exact_mod_cast this
      omega
    have hUR : 0 < det (p.1 + 1, p.2 + 1) e.1 e.2 := by
      have : (0 : ℚ) < ((det (p.1 + 1, p.2 + 1) e.1 e.2 : Int) : ℚ) := by
        have e1 : ((det (p.1 + 1, p.2 + 1) e.1 e.2 : Int) : ℚ) = ((det p e.1 e.2 : Int) : ℚ) + ((e.2.1 : ℚ) - e.1.1) - ((e.2.2 : ℚ) - e.1.2) := by
          unfold det; push_cast; ring
        rw [e1]; nlinarith
      exact_mod_cast this
    have hcr : cr (p, (p.1 + 1, p.2 + 1)) e ≠ 0 := by
      have : cr (p, (p.1 + 1, p.2 + 1)) e = det p e.1 e.2 - det (p.1 + 1, p.2 + 1) e.1 e.2 := (det_diff _ _).symm
      rw [this]; omega
    have hint : intersects (p, (p.1 + 1, p.2 + 1)) e = true := by
      have u : ((det p e.1 e.2 : Int) : ℚ) < 0 := by exact_mod_cast hLL
      have v : (0 : ℚ) < ((det (p.1 + 1, p.2 + 1) e.1 e.2 : Int) : ℚ) := by exact_mod_cast hUR
      have eqU : ((det p e.1 e.2 : Int) : ℚ) = (p.2 - e.1.2) * ((e.2.1 : ℚ) - e.1.1) - ((e.2.2 : ℚ) - e.1.2) * (p.1 - e.1.1) := by
        unfold det; push_cast; ring
      have eqV : ((det (p.1 + 1, p.2 + 1) e.1 e.2 : Int) : ℚ) = (p.2 + 1 - e.1.2) * ((e.2.1 : ℚ) - e.1.1) - ((e.2.2 : ℚ) - e.1.2) * (p.1 + 1 - e.1.1) := by
        unfold det; push_cast; ring
      generalize hU : ((det p e.1 e.2 : Int) : ℚ) = U at *
      generalize hV : ((det (p.1 + 1, p.2 + 1) e.1 e.2 : Int) : ℚ) = V at *
      have hUV : U - V < 0 := by linarith
      have t0 : 0 < U / (U - V) := div_pos_of_neg_of_neg u hUV
      have t1 : U / (U - V) < 1 := by rw [div_lt_one_of_neg hUV]; linarith
      have ht : U / (U - V) * (U - V) = U := div_mul_cancel₀ _ (ne_of_lt hUV)
      generalize U / (U - V) = t at *
      refine intersects_inner (q := ((p.1 : ℚ) + t, (p.2 : ℚ) + t)) (Or.inl (by dsimp only; omega)) hd hcr ?_ ?_
      · exact ⟨t, t0, t1, by dsimp only; push_cast; ring, by dsimp only; push_cast; ring⟩
      · refine inner_of _ ?_ (by dsimp only; linarith) (by dsimp only; linarith)
        unfold dq; dsimp only
        have : U - t * (U - V) = 0 := by linarith
        rw [eqU, eqV] at this
        linear_combination this
    have o1 : oab (p.1 + 1, p.2 + 1) e ≠ 0 := by
      rw [oab_eq _ hd]; intro h; rw [Int.sign_eq_zero_iff_zero] at h; omega
    rw [if_pos (by simp [hint, o1])]

theorem grid_iff {e : HE} (hd : Directed e) (p : Pt) : grid p e = true ↔ HitsSquare e p := ⟨grid_hits hd, grid_complete hd⟩

end Verif.Cut
