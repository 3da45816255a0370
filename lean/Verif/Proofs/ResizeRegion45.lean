import Verif.Proofs.Resize45
import Mathlib.Tactic
/-! The bands along the edges and the pieces of whole polygons. -/
namespace Verif.Resize45
open Verif.Spec.Resize45

/-- The points a piece covers; the vertices of a polygon may run either way. -/
def covers : Piece → Pt → Prop
  | .rect a b, z => min a.1 b.1 ≤ z.1 ∧ z.1 ≤ max a.1 b.1 ∧ min a.2 b.2 ≤ z.2 ∧ z.2 ≤ max a.2 b.2
  | .poly l, z => InConvex l z ∨ InConvex l.reverse z

instance (P : Piece) (z : Pt) : Decidable (covers P z) := by
  cases P with
  | rect a b => exact inferInstanceAs (Decidable (_ ∧ _))
  | poly l => exact inferInstanceAs (Decidable (_ ∨ _))

theorem core {A B C D z : Pt} {n s t u : Int} (h1 : cross A B A z = 2 * u * s) (h2 : cross B C B z = n * (t + 2 * u))
    (h3 : cross C D C z = 2 * u * (2 * n - s)) (h4 : cross D A D z = n * (2 * u - t)) (hn : 0 < n) (hu : 0 < u) :
    (InConvex [A, B, C, D] z ∨ InConvex [A, B, C, D].reverse z) ↔ (0 ≤ s ∧ s ≤ 2 * n ∧ -(2 * u) ≤ t ∧ t ≤ 2 * u) := by
  have hu2 : 0 < 2 * u := by omega
  have r1 : cross B A B z = 2 * u * (-s) := by rw [show cross B A B z = -cross A B A z by simp only [cross]; ring, h1]; ring
  have r2 : cross C B C z = n * (-t - 2 * u) := by rw [show cross C B C z = -cross B C B z by simp only [cross]; ring, h2]; ring
  have r3 : cross D C D z = 2 * u * (s - 2 * n) := by rw [show cross D C D z = -cross C D C z by simp only [cross]; ring, h3]; ring
  have r4 : cross A D A z = n * (t - 2 * u) := by rw [show cross A D A z = -cross D A D z by simp only [cross]; ring, h4]; ring
  simp only [InConvex, List.reverse_cons, List.reverse_nil, List.nil_append, List.cons_append, List.drop_one, List.tail_cons, List.take_succ_cons, List.take_zero, List.cons_append, List.nil_append, List.zip_cons_cons,
    List.zip_nil_left, List.forall_mem_cons, List.not_mem_nil, false_imp_iff, implies_true, and_true, h1, h2, h3, h4, r1, r2, r3, r4, mul_nonneg_iff_of_pos_left hu2,
    mul_nonneg_iff_of_pos_left hn]
  omega

theorem flip {n s t u : Int} : (0 ≤ 2 * n - s ∧ 2 * n - s ≤ 2 * n ∧ -(2 * u) ≤ t ∧ t ≤ 2 * u) ↔ (0 ≤ s ∧ s ≤ 2 * n ∧ -(2 * u) ≤ t ∧ t ≤ 2 * u) := by omega

theorem rhs {n s t u d dd c w : Int} (hn : 0 < n) (hd : d = n * s) (hdd : dd = n * (2 * n)) (hc : c = n * t ∨ c = n * -t) (hw : w = n + n) :
    (0 ≤ s ∧ s ≤ 2 * n ∧ -(2 * u) ≤ t ∧ t ≤ 2 * u) ↔ (0 ≤ d ∧ d ≤ dd ∧ |c| ≤ u * w) := by
  have hc' : |c| = n * |t| := by
    rcases hc with rfl | rfl
    · rw [abs_mul, abs_of_pos hn]
    · rw [abs_mul, abs_of_pos hn, abs_neg]
  rw [hd, hdd, hc', hw, mul_nonneg_iff_of_pos_left hn, mul_le_mul_iff_right₀ hn, show u * (n + n) = n * (2 * u) by ring, mul_le_mul_iff_right₀ hn, abs_le]

set_option maxHeartbeats 800000 in
theorem band (fd) {p q : Pt} (h : Is45 p q) {r : Int} {rounding} (hro : rounding ≠ .sqrt1over2) (corner)
    (hu : 0 < diagDist fd rounding |r|) (z : Pt) :
    covers (edgePiece fd p q r rounding corner) z ↔ InBand p q |r| (diagDist fd rounding |r|) z := by
  obtain ⟨a, b⟩ := p
  obtain ⟨c, d⟩ := q
  obtain ⟨x, y⟩ := z
  obtain ⟨hne, h⟩ := h
  simp only [ne_eq, Prod.mk.injEq, not_and] at hne h
  unfold edgePiece InBand
  simp only
  generalize diagDist fd rounding |r| = u at *
  by_cases hx : a = c
  · subst hx
    rw [if_pos rfl, if_pos (Or.inl rfl)]
    simp only [covers, cross, dot, sub_self, zero_mul, zero_add, zero_sub, abs_zero]
    have hk : 0 < |d - b| := abs_pos.2 (by omega)
    have e1 : |-((d - b) * (x - a))| ≤ |r| * |d - b| ↔ |x - a| ≤ |r| := by
      rw [abs_neg, abs_mul, mul_comm]
      exact mul_le_mul_iff_left₀ hk
    rw [e1]
    have e2 : (0 ≤ (y - b) * (d - b) ∧ (y - b) * (d - b) ≤ (d - b) * (d - b)) ↔ (min b d ≤ y ∧ y ≤ max b d) := by
      rcases lt_or_gt_of_ne (show b ≠ d by omega) with hl | hl
      · rw [min_eq_left hl.le, max_eq_right hl.le]
        constructor
        · rintro ⟨s1, s2⟩; constructor <;> by_contra hc <;> nlinarith
        · rintro ⟨s1, s2⟩; constructor <;> nlinarith
      · rw [min_eq_right hl.le, max_eq_left hl.le]
        constructor
        · rintro ⟨s1, s2⟩; constructor <;> by_contra hc <;> nlinarith
        · rintro ⟨s1, s2⟩; constructor <;> nlinarith
    have e3 : |x - a| ≤ |r| ↔ (min (a - r) (a + r) ≤ x ∧ x ≤ max (a - r) (a + r)) := by
      rw [abs_le]
      rcases abs_cases r with ⟨g, _⟩ | ⟨g, _⟩ <;> rw [g] <;> omega
    rw [e3, ← e2]
    simp only [mul_zero, zero_add]
    exact ⟨fun g => ⟨g.2.2.1, g.2.2.2, g.1, g.2.1⟩, fun g => ⟨g.2.2.1, g.2.2.2, g.1, g.2.1⟩⟩
  · rw [if_neg hx]
    by_cases hy : b = d
    · subst hy
      rw [if_pos rfl, if_pos (Or.inr rfl)]
      simp only [covers, cross, dot, sub_self, zero_mul, add_zero, sub_zero, abs_zero, mul_zero]
      have hk : 0 < |c - a| := abs_pos.2 (by omega)
      have e1 : |(c - a) * (y - b)| ≤ |r| * |c - a| ↔ |y - b| ≤ |r| := by
        rw [abs_mul, mul_comm]
        exact mul_le_mul_iff_left₀ hk
      rw [e1]
      have e2 : (0 ≤ (x - a) * (c - a) ∧ (x - a) * (c - a) ≤ (c - a) * (c - a)) ↔ (min a c ≤ x ∧ x ≤ max a c) := by
        rcases lt_or_gt_of_ne hx with hl | hl
        · rw [min_eq_left hl.le, max_eq_right hl.le]
          constructor
          · rintro ⟨s1, s2⟩; constructor <;> by_contra hc <;> nlinarith
          · rintro ⟨s1, s2⟩; constructor <;> nlinarith
        · rw [min_eq_right hl.le, max_eq_left hl.le]
          constructor
          · rintro ⟨s1, s2⟩; constructor <;> by_contra hc <;> nlinarith
          · rintro ⟨s1, s2⟩; constructor <;> nlinarith
      have e3 : |y - b| ≤ |r| ↔ (min (b - r) (b + r) ≤ y ∧ y ≤ max (b - r) (b + r)) := by
        rw [abs_le]
        rcases abs_cases r with ⟨g, _⟩ | ⟨g, _⟩ <;> rw [g] <;> omega
      rw [e3]
      exact ⟨fun g => ⟨(e2.2 ⟨g.1, g.2.1⟩).1, (e2.2 ⟨g.1, g.2.1⟩).2, g.2.2⟩, fun g => ⟨(e2.1 ⟨g.1, g.2.1⟩).1, (e2.1 ⟨g.1, g.2.1⟩).2, g.2.2⟩⟩
    · have hxy : ¬ (a = c ∨ b = d) := by rintro (g | g); exacts [hx g, hy g]
      simp only [if_neg hy, if_neg hro, if_neg hxy]
      have hcase : (∃ n, 0 < n ∧ c = a + n ∧ d = b + n) ∨ (∃ n, 0 < n ∧ c = a + n ∧ d = b - n) ∨ (∃ n, 0 < n ∧ c = a - n ∧ d = b + n) ∨
          (∃ n, 0 < n ∧ c = a - n ∧ d = b - n) := by
        rcases lt_or_gt_of_ne hx with h1 | h1 <;> rcases lt_or_gt_of_ne hy with h2 | h2
        · exact Or.inl ⟨c - a, by omega, by omega, by omega⟩
        · exact Or.inr (Or.inl ⟨c - a, by omega, by omega, by omega⟩)
        · exact Or.inr (Or.inr (Or.inl ⟨a - c, by omega, by omega, by omega⟩))
        · exact Or.inr (Or.inr (Or.inr ⟨a - c, by omega, by omega, by omega⟩))
      rcases hcase with ⟨n, hn, rfl, rfl⟩ | ⟨n, hn, rfl, rfl⟩ | ⟨n, hn, rfl, rfl⟩ | ⟨n, hn, rfl, rfl⟩
      · simp only [if_neg (by omega : ¬ a + n < a), if_pos (by omega : b < b + n)]
        simp only [covers, bloatVertex]
        rw [core (s := x - a + (y - b)) (t := y - b - (x - a)) (n := n) (u := u) (by norm_num [cross]; try ring) (by norm_num [cross]; try ring) (by norm_num [cross]; try ring) (by norm_num [cross]; try ring)
          hn hu]
        exact rhs hn (by simp only [dot]; ring) (by simp only [dot]; ring) (by first | (left; simp only [cross]; ring1) | (right; simp only [cross]; ring1))
          (by simp only [add_sub_cancel_left, abs_of_pos hn])
      · simp only [if_neg (by omega : ¬ a + n < a), if_neg (by omega : ¬ b < b - n)]
        simp only [covers, bloatVertex]
        rw [core (s := x - a - (y - b)) (t := y - b + (x - a)) (n := n) (u := u) (by norm_num [cross]; try ring) (by norm_num [cross]; try ring) (by norm_num [cross]; try ring) (by norm_num [cross]; try ring)
          hn hu]
        exact rhs hn (by simp only [dot]; ring) (by simp only [dot]; ring) (by first | (left; simp only [cross]; ring1) | (right; simp only [cross]; ring1))
          (by simp only [add_sub_cancel_left, sub_sub_cancel_left, abs_neg, abs_of_pos hn])
      · simp only [if_pos (by omega : a - n < a), if_neg (by omega : ¬ b + n < b)]
        simp only [covers, bloatVertex]
        rw [core (s := 2 * n - (a - x + (y - b))) (t := y - b + (x - a)) (n := n) (u := u) (by norm_num [cross]; try ring) (by norm_num [cross]; try ring) (by norm_num [cross]; try ring) (by norm_num [cross]; try ring)
          hn hu, flip]
        exact rhs hn (by simp only [dot]; ring) (by simp only [dot]; ring) (by first | (left; simp only [cross]; ring1) | (right; simp only [cross]; ring1))
          (by simp only [add_sub_cancel_left, sub_sub_cancel_left, abs_neg, abs_of_pos hn])
      · simp only [if_pos (by omega : a - n < a), if_pos (by omega : b - n < b)]
        simp only [covers, bloatVertex]
        rw [core (s := 2 * n - (a - x + (b - y))) (t := y - b - (x - a)) (n := n) (u := u) (by norm_num [cross]; try ring) (by norm_num [cross]; try ring) (by norm_num [cross]; try ring) (by norm_num [cross]; try ring)
          hn hu, flip]
        exact rhs hn (by simp only [dot]; ring) (by simp only [dot]; ring) (by first | (left; simp only [cross]; ring1) | (right; simp only [cross]; ring1))
          (by simp only [sub_sub_cancel_left, abs_neg, abs_of_pos hn])

theorem gather_some {f : Pt × Pt × Pt → Option (List Piece)} : ∀ {cs}, (∀ c ∈ cs, ∃ l, f c = some l) →
    ∃ L, gather f cs = some L ∧ ∀ P, P ∈ L ↔ ∃ c ∈ cs, ∃ l, f c = some l ∧ P ∈ l
  | [], _ => ⟨[], rfl, by simp⟩
  | c :: r, h => by
    obtain ⟨l, hl⟩ := h c (by simp)
    obtain ⟨L, hL, hm⟩ := gather_some (cs := r) (fun d hd => h d (by simp [hd]))
    refine ⟨l ++ L, by simp [gather, hl, hL], ?_⟩
    intro P
    rw [List.mem_append, hm]
    constructor
    · rintro (h | ⟨d, hd, h⟩)
      · exact ⟨c, by simp, l, hl, h⟩
      · exact ⟨d, by simp [hd], h⟩
    · rintro ⟨d, hd, l', h1, h2⟩
      rcases List.mem_cons.1 hd with rfl | hd
      · rw [hl] at h1; cases h1; exact Or.inl h2
      · exact Or.inr ⟨d, hd, l', h1, h2⟩

theorem rot_get (l : List Pt) (k : Nat) (hk : k ≤ l.length) {i : Nat} (hi : i < l.length) :
    (l.drop k ++ l.take k)[i]? = some (at' l (i + k)) := by
  unfold at'
  by_cases h : i + k < l.length
  · rw [List.getElem?_append_left (by simp; omega), List.getElem?_drop, Nat.mod_eq_of_lt h, List.getD_eq_getElem?_getD, Nat.add_comm k i,
      List.getElem?_eq_getElem h]
    rfl
  · rw [List.getElem?_append_right (by simp; omega), List.length_drop, List.getElem?_take_of_lt (by omega), Nat.mod_eq_sub_mod (by omega),
      Nat.mod_eq_of_lt (by omega), List.getD_eq_getElem?_getD, show i - (l.length - k) = i + k - l.length by omega, List.getElem?_eq_getElem (by omega)]
    rfl

theorem mem_corners {pts : List Pt} (h3 : 3 ≤ pts.length) (hne : at' pts (pts.length - 1) ≠ at' pts 0) {t : Pt × Pt × Pt} :
    t ∈ corners pts ↔ ∃ i < pts.length, t = (at' pts i, at' pts (i + 1), at' pts (i + 2)) := by
  have hl : ¬ pts.getLast? = pts.head? := by
    intro h
    apply hne
    rw [List.getLast?_eq_getElem?, List.head?_eq_getElem?] at h
    unfold at'
    rw [Nat.mod_eq_of_lt (by omega), Nat.zero_mod, List.getD_eq_getElem?_getD, List.getD_eq_getElem?_getD, h]
  unfold corners
  simp only [if_neg hl]
  rw [List.mem_iff_getElem?]
  constructor
  · rintro ⟨i, hi⟩
    have hlt : i < pts.length := by
      have := (List.getElem?_eq_some_iff.1 hi).1
      simp at this; omega
    refine ⟨i, hlt, ?_⟩
    rw [List.getElem?_zip_eq_some, List.getElem?_zip_eq_some, rot_get pts 1 (by omega) hlt, rot_get pts 2 (by omega) hlt] at hi
    obtain ⟨g1, g2, g3⟩ := hi
    have g0 := rot_get pts 0 (by omega) hlt
    simp only [List.drop_zero, List.take_zero, List.append_nil, Nat.add_zero] at g0
    rw [g0] at g1
    simp only [Option.some.injEq] at g1 g2 g3
    rw [g1, g2, g3]
  · rintro ⟨i, hlt, rfl⟩
    refine ⟨i, ?_⟩
    rw [List.getElem?_zip_eq_some, List.getElem?_zip_eq_some, rot_get pts 1 (by omega) hlt, rot_get pts 2 (by omega) hlt]
    have g0 := rot_get pts 0 (by omega) hlt
    simp only [List.drop_zero, List.take_zero, List.append_nil, Nat.add_zero] at g0
    exact ⟨g0, rfl, rfl⟩

theorem at_mod (pts : List Pt) (i : Nat) : at' pts (i % pts.length) = at' pts i := by
  unfold at'; rw [Nat.mod_mod]

theorem corners_ok {pts : List Pt} (h : Corners45 pts) (i : Nat) : Is45 (at' pts i) (at' pts (i + 1)) ∧
    cross (at' pts i) (at' pts (i + 1)) (at' pts (i + 1)) (at' pts (i + 2)) ≠ 0 := by
  have := h.2 (i % pts.length) (Nat.mod_lt _ (by have := h.1; omega))
  have e : ∀ k, at' pts (i % pts.length + k) = at' pts (i + k) := by
    intro k; unfold at'; rw [Nat.mod_add_mod]
  rw [e, e, at_mod] at this
  exact this

/-- The pieces of a whole polygon. -/
theorem sizing_spec (fd) {pts : List Pt} (h : Corners45 pts) (cw : Bool) (r : Int) (rounding) {corner} (hc : corner ≠ .unfilled) (hole : Bool) :
    ∃ L, sizing fd pts cw r rounding corner hole = some L ∧ ∀ P, P ∈ L ↔ ∃ i < pts.length,
      P = edgePiece fd (at' pts i) (at' pts (i + 1)) (if hole then -r else r) rounding corner ∨
      ∃ l, vertexPieces fd (at' pts i) (at' pts (i + 1)) (at' pts (i + 2)) (if hole then -r else r) rounding corner (if cw then -1 else 1) = some l ∧ P ∈ l := by
  have hne : at' pts (pts.length - 1) ≠ at' pts 0 := by
    have := (corners_ok h (pts.length - 1)).1.1
    rw [show pts.length - 1 + 1 = pts.length by have := h.1; omega] at this
    rw [show at' pts 0 = at' pts pts.length by unfold at'; simp]
    exact this
  have hv := fun i => vertex_some fd (corners_ok h i).1 (corners_ok h (i + 1)).1 (corners_ok h i).2 (if cw then -1 else 1) (if hole then -r else r) rounding corner
  unfold sizing
  simp only [if_neg hc, if_neg (show ¬ pts.length < 3 by have := h.1; omega), mul_neg, mul_one]
  obtain ⟨L, hL, hm⟩ := gather_some (f := fun c => match vertexPieces fd c.1 c.2.1 c.2.2 (if hole then -r else r) rounding corner (if cw then -1 else 1) with
      | none => none
      | some l => some (edgePiece fd c.1 c.2.1 (if hole then -r else r) rounding corner :: l)) (cs := corners pts) (by
    intro c hcm
    obtain ⟨i, hi, rfl⟩ := (mem_corners h.1 hne).1 hcm
    obtain ⟨l, hl⟩ := hv i
    simp only [hl]
    exact ⟨_, rfl⟩)
  refine ⟨L, hL, ?_⟩
  intro P
  rw [hm]
  constructor
  · rintro ⟨c, hcm, l', h1, h2⟩
    obtain ⟨i, hi, rfl⟩ := (mem_corners h.1 hne).1 hcm
    obtain ⟨l, hl⟩ := hv i
    simp only [hl, Option.some.injEq] at h1
    subst h1
    rcases List.mem_cons.1 h2 with h2 | h2
    · exact ⟨i, hi, Or.inl h2⟩
    · exact ⟨i, hi, Or.inr ⟨l, hl, h2⟩⟩
  · rintro ⟨i, hi, hP⟩
    obtain ⟨l, hl⟩ := hv i
    refine ⟨_, (mem_corners h.1 hne).2 ⟨i, hi, rfl⟩,
      edgePiece fd (at' pts i) (at' pts (i + 1)) (if hole then -r else r) rounding corner :: l, by simp only [hl], ?_⟩
    rcases hP with hP | ⟨l', h1, h2⟩
    · rw [hP]; exact List.mem_cons_self
    · rw [hl] at h1; cases h1; exact List.mem_cons_of_mem _ h2

/-- With exact arithmetic a diagonal edge moves by the distance divided by the square root of two. -/
theorem exact_bounds {b : Int} (hb : 1 ≤ b) {rounding} (hr : rounding ≠ .sqrt1over2) (h2 : rounding = .undersize → 2 ≤ b) :
    0 < diagDist exactDiag rounding b ∧ diagDist exactDiag rounding b ≤ b ∧ b ≤ 2 * diagDist exactDiag rounding b := by
  obtain ⟨n, rfl⟩ := Int.eq_ofNat_of_zero_le (show 0 ≤ b by omega)
  have hn : 1 ≤ n := by omega
  have s1 := Nat.sqrt_le' (n * n / 2)
  have s2 := Nat.lt_succ_sqrt' (n * n / 2)
  have t1 := Nat.sqrt_le' (2 * n * n)
  have t2 := Nat.lt_succ_sqrt' (2 * n * n)
  have hdiv : n * n / 2 * 2 ≤ n * n ∧ n * n < n * n / 2 * 2 + 2 := by omega
  unfold diagDist exactDiag
  cases rounding with
  | closest =>
    simp only [Int.toNat_natCast]
    generalize Nat.sqrt (2 * n * n) = s at *
    have h1 : s < 2 * n := by by_contra hh; push Not at hh; nlinarith
    have h3 : n ≤ s := by by_contra hh; push Not at hh; simp only [Nat.succ_eq_add_one] at t2; nlinarith
    simp only [reduceCtorEq, if_false]
    omega
  | oversize =>
    simp only [Int.toNat_natCast]
    generalize hm : n * n / 2 = m at *
    generalize Nat.sqrt m = s at *
    have h1 : s < n := by by_contra hh; push Not at hh; nlinarith
    have h3 : n ≤ 2 * (s + 1) := by
      by_contra hh; push Not at hh; simp only [Nat.succ_eq_add_one] at s2; nlinarith
    simp only [reduceCtorEq, if_false]
    omega
  | undersize =>
    simp only [Int.toNat_natCast]
    have h2' : 2 ≤ n := by have := h2 rfl; omega
    generalize hm : n * n / 2 = m at *
    generalize Nat.sqrt m = s at *
    have h1 : s < n := by by_contra hh; push Not at hh; nlinarith
    have h3 : n ≤ 2 * s := by
      by_contra hh; push Not at hh; simp only [Nat.succ_eq_add_one] at s2
      rcases Nat.lt_or_ge n 4 with h4 | h4
      · interval_cases n <;> interval_cases s <;> omega
      · nlinarith
    simp only [reduceCtorEq, if_false]
    omega
  | sqrt2 => simp only [if_true]; omega
  | sqrt1over2 => exact absurd rfl hr

end Verif.Resize45
