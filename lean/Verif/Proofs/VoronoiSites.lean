import Verif.Spec.VoronoiSites
import Verif.Proofs.Segment
import Mathlib.Tactic.IntervalCases
import Mathlib.Data.List.Induction
import Mathlib.Data.Prod.Lex
/-! # Helper lemmas for Voronoi sites -/
namespace Verif.Voronoi
open Verif.Machine Verif.Segment Verif.Spec

/-- The value computed from magnitudes below `2^32`: exact, except that a sum of two magnitudes wraps. -/
theorem robustCross_eq {a1 b1 a2 b2 : Int} (h1 : |a1| < 2 ^ 32) (h2 : |b1| < 2 ^ 32) (h3 : |a2| < 2 ^ 32)
    (h4 : |b2| < 2 ^ 32) :
    robustCross a1 b1 a2 b2 = some ((a1 * b2 - b1 * a2).sign * u64 |a1 * b2 - b1 * a2|) := by
  have lt (a : Int) (h : |a| < 2 ^ 32) : -2 ^ 63 < a ∧ a < 2 ^ 63 := by rw [abs_lt] at h; omega
  have mul (a b : Int) (ha : |a| < 2 ^ 32) (hb : |b| < 2 ^ 32) : u64 (u64 |a| * u64 |b|) = |a * b| := by
    have := abs_nonneg a; have := abs_nonneg b
    rw [u64_id (abs_nonneg a) (by omega), u64_id (abs_nonneg b) (by omega), abs_mul]
    exact u64_id (by positivity) (by nlinarith)
  have bd (a b : Int) (ha : |a| < 2 ^ 32) (hb : |b| < 2 ^ 32) : |a * b| < 2 ^ 64 := by
    have := abs_nonneg a; have := abs_nonneg b
    rw [abs_mul]; nlinarith
  unfold robustCross
  rw [absI64_eq (lt _ h1), absI64_eq (lt _ h2), absI64_eq (lt _ h3), absI64_eq (lt _ h4)]
  simp only [Option.bind_eq_bind, Option.bind_some, mul _ _ h1 h4, mul _ _ h2 h3, Option.pure_def,
    Option.some.injEq]
  have B1 := bd _ _ h1 h4
  have B2 := bd _ _ h2 h3
  -- the sign of each product
  have sgn (a b : Int) : (xor (decide (a < 0)) (decide (b < 0)) = true → a * b ≤ 0) ∧
      (xor (decide (a < 0)) (decide (b < 0)) = false → 0 ≤ a * b) := by
    rcases lt_or_ge a 0 with ha | ha <;> rcases lt_or_ge b 0 with hb | hb
    · exact ⟨by simp [ha, hb], fun _ => by nlinarith⟩
    · exact ⟨fun _ => by nlinarith, by simp [ha, not_lt.2 hb]⟩
    · exact ⟨fun _ => by nlinarith, by simp [hb, not_lt.2 ha]⟩
    · exact ⟨by simp [not_lt.2 ha, not_lt.2 hb], fun _ => by nlinarith⟩
  have s1 := sgn a1 b2
  have s2 := sgn a2 b1
  rw [mul_comm a2 b1] at s2
  generalize xor (decide (a1 < 0)) (decide (b2 < 0)) = x1 at *
  generalize xor (decide (a2 < 0)) (decide (b1 < 0)) = x2 at *
  generalize a1 * b2 = x at *
  generalize b1 * a2 = y at *
  have key (z : Int) : (z < 0 ∧ z.sign = -1 ∧ |z| = -z) ∨ (z = 0 ∧ z.sign = 0 ∧ |z| = 0) ∨ (0 < z ∧ z.sign = 1 ∧ |z| = z) := by
    rcases lt_trichotomy z 0 with h | h | h
    · exact Or.inl ⟨h, Int.sign_eq_neg_one_of_neg h, abs_of_neg h⟩
    · exact Or.inr (Or.inl ⟨h, by simp [h], by simp [h]⟩)
    · exact Or.inr (Or.inr ⟨h, Int.sign_eq_one_of_pos h, abs_of_pos h⟩)
  unfold u64
  cases x1 <;> cases x2
  · have := s1.2 rfl; have := s2.2 rfl
    rw [abs_of_nonneg ‹0 ≤ x›, abs_of_nonneg ‹0 ≤ y›] at *
    simp only [Bool.false_eq_true, if_false]
    rcases key (x - y) with ⟨hd, sd, ad⟩ | ⟨hd, sd, ad⟩ | ⟨hd, sd, ad⟩ <;> rw [sd, ad]
    · rw [if_pos (by omega)]; omega
    · rw [if_neg (by omega)]; omega
    · rw [if_neg (by omega)]; omega
  · have := s1.2 rfl; have := s2.1 rfl
    rw [abs_of_nonneg ‹0 ≤ x›, abs_of_nonpos ‹y ≤ 0›] at *
    simp only [Bool.false_eq_true, if_false, if_true]
    rcases key (x - y) with ⟨hd, sd, ad⟩ | ⟨hd, sd, ad⟩ | ⟨hd, sd, ad⟩ <;> rw [sd, ad] <;> omega
  · have := s1.1 rfl; have := s2.2 rfl
    rw [abs_of_nonpos ‹x ≤ 0›, abs_of_nonneg ‹0 ≤ y›] at *
    simp only [Bool.false_eq_true, if_false, if_true]
    rcases key (x - y) with ⟨hd, sd, ad⟩ | ⟨hd, sd, ad⟩ | ⟨hd, sd, ad⟩ <;> rw [sd, ad] <;> omega
  · have := s1.1 rfl; have := s2.1 rfl
    rw [abs_of_nonpos ‹x ≤ 0›, abs_of_nonpos ‹y ≤ 0›] at *
    simp only [if_true]
    rcases key (x - y) with ⟨hd, sd, ad⟩ | ⟨hd, sd, ad⟩ | ⟨hd, sd, ad⟩ <;> rw [sd, ad]
    · rw [if_pos (by omega)]; omega
    · rw [if_neg (by omega)]; omega
    · rw [if_neg (by omega)]; omega

theorem evalSign_eq (v : Int) : evalSign v = v.sign := by
  unfold evalSign
  rcases lt_trichotomy v 0 with h | h | h
  · rw [if_neg (by omega), if_pos h, Int.sign_eq_neg_one_of_neg h]
  · rw [if_pos h, h]; rfl
  · rw [if_neg (by omega), if_neg (by omega), Int.sign_eq_one_of_pos h]

/-- Twice the area of a triangle in a square of side `m` is at most `m²`. -/
theorem triangle_bound {m a b c d : Int} (ha : |a| ≤ m) (hb : |b| ≤ m) (hc : |c| ≤ m) (hd : |d| ≤ m)
    (hac : |a + c| ≤ m) (hbd : |b + d| ≤ m) : |a * d - b * c| ≤ m * m := by
  rw [abs_le] at *
  obtain ⟨a1, a2⟩ := ha
  obtain ⟨b1, b2⟩ := hb
  obtain ⟨c1, c2⟩ := hc
  obtain ⟨d1, d2⟩ := hd
  obtain ⟨e1, e2⟩ := hac
  obtain ⟨f1, f2⟩ := hbd
  rcases le_total 0 a with ha | ha <;> rcases le_total 0 c with hc | hc <;>
  rcases le_total 0 b with hb | hb <;> rcases le_total 0 d with hd | hd <;>
  constructor <;> nlinarith [mul_nonneg (abs_nonneg a) (abs_nonneg d)]

theorem and31 (w : Nat) : w &&& 0x1F = w % 32 := Nat.and_two_pow_sub_one_eq_mod w 5

theorem and1 (w : Nat) : w &&& 0x1 = w % 2 := Nat.and_two_pow_sub_one_eq_mod w 1

theorem and2 (w : Nat) : w &&& 0x2 = w % 4 - w % 2 := by
  have h : w &&& 0x2 = (w % 4) &&& 0x2 := by
    have := Nat.and_mod_two_pow (a := w) (b := 2) (n := 2)
    simp only [Nat.reducePow, Nat.reduceMod] at this
    rw [← this]
    refine (Nat.mod_eq_of_lt ?_).symm
    exact lt_of_le_of_lt Nat.and_le_right (by norm_num)
  rw [h]
  have h4 : w % 4 < 4 := Nat.mod_lt _ (by norm_num)
  have h2 : w % 2 = w % 4 % 2 := by omega
  rw [h2]
  generalize w % 4 = m at *
  interval_cases m <;> decide

theorem xor32_mod (w : Nat) : (w ^^^ 0x20) % 32 = w % 32 := by
  have := Nat.xor_mod_two_pow (a := w) (b := 0x20) (n := 5)
  simpa using this

theorem setColor_eq (w c : Nat) : setColor w c = w % 32 + 32 * (c % 2 ^ 59) := by
  have e : c <<< 5 % 2 ^ 64 = 2 ^ 5 * (c % 2 ^ 59) := by rw [Nat.shiftLeft_eq]; omega
  unfold setColor
  rw [and31, e, Nat.or_comm, ← Nat.two_pow_add_eq_or_of_lt (Nat.mod_lt _ (by norm_num))]
  omega

/-! ### the order of sites -/

open Classical in
/-- The order of sites as a lexicographic key. -/
noncomputable def key (s : Site) : ℤ ×ₗ ℤ ×ₗ ℤ ×ₗ ℚ :=
  toLex (s.p0.1, toLex (if OnVertical s then 0 else 1, toLex (s.p0.2,
    if OnVertical s then (if PointSite s then 0 else 1) else -slope s)))

theorem before_iff {s t : Site} : Before s t ↔ key s < key t := by
  unfold Before key
  simp only [Prod.Lex.toLex_lt_toLex]
  by_cases h1 : OnVertical s <;> by_cases h2 : OnVertical t <;> by_cases h3 : PointSite s <;>
    by_cases h4 : PointSite t <;> simp [h1, h2, h3, h4, show ¬ ((1 : ℚ) < 0) by norm_num]

theorem key_same {s t : Site} (h : SameSite s t) : key s = key t := by
  obtain ⟨h0, h1⟩ := h
  unfold key OnVertical PointSite slope
  rw [h0, h1]

theorem isSegment_iff (s : Site) : s.isSegment = true ↔ ¬ PointSite s := by
  unfold Site.isSegment PointSite
  rw [Prod.ext_iff]
  by_cases h1 : s.p0.1 = s.p1.1 <;> by_cases h2 : s.p0.2 = s.p1.2 <;> simp [h1, h2]

theorem isVertical_iff (s : Site) : s.isVertical = true ↔ OnVertical s := by
  unfold Site.isVertical OnVertical; simp

theorem point_vertical {s : Site} (h : PointSite s) : OnVertical s := by
  unfold OnVertical; rw [h]

theorem slope_lt {s t : Site} (hs : s.p0.1 < s.p1.1) (ht : t.p0.1 < t.p1.1) :
    slope t < slope s ↔ 0 < (t.p1.1 - t.p0.1) * (s.p1.2 - s.p0.2) - (t.p1.2 - t.p0.2) * (s.p1.1 - s.p0.1) := by
  unfold slope
  have h1 : (0 : ℚ) < s.p1.1 - s.p0.1 := by have : (s.p0.1 : ℚ) < s.p1.1 := by exact_mod_cast hs
                                            linarith
  have h2 : (0 : ℚ) < t.p1.1 - t.p0.1 := by have : (t.p0.1 : ℚ) < t.p1.1 := by exact_mod_cast ht
                                            linarith
  rw [div_lt_div_iff₀ h2 h1, ← sub_pos]
  rw [show ((s.p1.2 : ℚ) - s.p0.2) * (t.p1.1 - t.p0.1) - (t.p1.2 - t.p0.2) * (s.p1.1 - s.p0.1) =
    (((t.p1.1 - t.p0.1) * (s.p1.2 - s.p0.2) - (t.p1.2 - t.p0.2) * (s.p1.1 - s.p0.1) : ℤ) : ℚ) by push_cast; ring]
  exact_mod_cast Iff.rfl

theorem evalPts_eq {p q r : Int × Int} (hp : P32 p) (hq : P32 q) (hr : P32 r) :
    evalPts p q r = some (cross p q p r).sign := by
  simp only [P32, I32] at hp hq hr
  unfold evalPts
  rw [i64_some (by omega), i64_some (by omega), i64_some (by omega), i64_some (by omega)]
  simp only [Option.bind_eq_bind, Option.bind_some, evalDifs]
  rw [robustCross_eq (by rw [abs_lt]; omega) (by rw [abs_lt]; omega) (by rw [abs_lt]; omega) (by rw [abs_lt]; omega)]
  have e : (p.1 - q.1) * (q.2 - r.2) - (p.2 - q.2) * (q.1 - r.1) = cross p q p r := by unfold cross; ring
  have hb := triangle_bound (m := 2 ^ 32 - 1) (a := p.1 - q.1) (b := p.2 - q.2) (c := q.1 - r.1) (d := q.2 - r.2)
    (by rw [abs_le]; omega) (by rw [abs_le]; omega) (by rw [abs_le]; omega) (by rw [abs_le]; omega)
    (by rw [abs_le]; omega) (by rw [abs_le]; omega)
  rw [e] at hb ⊢
  rw [u64_id (abs_nonneg _) (by omega), Int.sign_mul_abs]
  simp [evalSign_eq]

theorem siteLess_before {s t : Site} (hs : ValidSite s) (ht : ValidSite t) :
    ∃ b, siteLess s t = some b ∧ (b = true ↔ Before s t) := by
  unfold siteLess Before
  by_cases hx : s.p0.1 = t.p0.1
  · rw [if_neg (not_not.2 hx)]
    simp only [hx, lt_irrefl, false_or, true_and]
    by_cases ps : PointSite s
    · have vs := point_vertical ps
      have e1 : s.isSegment = false := by rw [← Bool.not_eq_true, isSegment_iff]; simpa using ps
      rw [e1]
      by_cases pt : PointSite t
      · have vt := point_vertical pt
        have e2 : t.isSegment = false := by rw [← Bool.not_eq_true, isSegment_iff]; simpa using pt
        rw [e2]
        exact ⟨_, rfl, by simp [vs, vt, ps, pt]⟩
      · have e2 : t.isSegment = true := (isSegment_iff t).2 pt
        rw [e2]
        by_cases vt : OnVertical t
        · rw [(isVertical_iff t).2 vt]
          exact ⟨_, rfl, by simp [vs, vt, ps, pt, le_iff_lt_or_eq]⟩
        · have e3 : t.isVertical = false := by rw [← Bool.not_eq_true, isVertical_iff]; exact vt
          rw [e3]
          exact ⟨_, rfl, by simp [vs, vt]⟩
    · have e1 : s.isSegment = true := (isSegment_iff s).2 ps
      rw [e1]
      by_cases vt : OnVertical t
      · rw [(isVertical_iff t).2 vt]
        by_cases vs : OnVertical s
        · rw [(isVertical_iff s).2 vs]
          exact ⟨_, rfl, by simp [vs, vt, ps]⟩
        · have e3 : s.isVertical = false := by rw [← Bool.not_eq_true, isVertical_iff]; exact vs
          rw [e3]
          exact ⟨_, rfl, by simp [vs, vt]⟩
      · have e3 : t.isVertical = false := by rw [← Bool.not_eq_true, isVertical_iff]; exact vt
        rw [e3]
        by_cases vs : OnVertical s
        · rw [(isVertical_iff s).2 vs]
          exact ⟨_, rfl, by simp [vs, vt]⟩
        · have e4 : s.isVertical = false := by rw [← Bool.not_eq_true, isVertical_iff]; exact vs
          rw [e4]
          by_cases hy : s.p0.2 = t.p0.2
          · simp only [Bool.not_true, Bool.false_eq_true, if_false, hy, ne_eq, not_true_eq_false]
            rw [evalPts_eq hs.2.1 hs.1 ht.2.1]
            refine ⟨_, rfl, ?_⟩
            have p0 : s.p0 = t.p0 := Prod.ext hx hy
            have hs' : s.p0.1 < s.p1.1 := by have := hs.2.2; unfold OnVertical at vs; omega
            have ht' : t.p0.1 < t.p1.1 := by have := ht.2.2; unfold OnVertical at vt; omega
            simp only [vs, vt, lt_irrefl, false_or, not_false_eq_true, true_and, false_and, slope_lt hs' ht', beq_iff_eq]
            rw [LEFT, Int.sign_eq_one_iff_pos]
            unfold cross
            rw [p0]
            have e : (t.p0.1 - s.p1.1) * (t.p1.2 - s.p1.2) - (t.p0.2 - s.p1.2) * (t.p1.1 - s.p1.1) =
              (t.p1.1 - t.p0.1) * (s.p1.2 - t.p0.2) - (t.p1.2 - t.p0.2) * (s.p1.1 - t.p0.1) := by ring
            rw [e]
          · simp only [Bool.not_true, Bool.false_eq_true, if_false, hy, ne_eq, not_false_eq_true, if_true]
            exact ⟨_, rfl, by simp [vs, vt]⟩
  · rw [if_pos hx]
    exact ⟨_, rfl, by simp [hx]⟩

theorem equivalent {s t : Site} (hs : ValidSite s) (ht : ValidSite t) (h1 : ¬ Before s t) (h2 : ¬ Before t s) :
    SameSite s t ∨ Overlapping s t := by
  rw [before_iff] at h1 h2
  have e : key s = key t := le_antisymm (not_lt.1 h2) (not_lt.1 h1)
  unfold key at e
  simp only [EmbeddingLike.apply_eq_iff_eq, Prod.mk.injEq] at e
  obtain ⟨ex, ev, ey, el⟩ := e
  have e0 : s.p0 = t.p0 := Prod.ext ex ey
  by_cases e1 : s.p1 = t.p1
  · exact Or.inl ⟨e0, e1⟩
  · refine Or.inr ?_
    by_cases vs : OnVertical s
    · have vt : OnVertical t := by by_contra h; simp [vs, h] at ev
      simp only [vs, vt, if_true] at el
      have hp : PointSite s ↔ PointSite t := by
        by_cases a : PointSite s <;> by_cases b : PointSite t <;> simp [a, b] at el ⊢
      have ps : ¬ PointSite s := fun h => e1 (by
        have h' := hp.1 h
        unfold PointSite at h h'
        rw [← h, ← h', e0])
      refine ⟨ps, fun h => ps (hp.2 h), e0, e1, ?_⟩
      unfold OnVertical at vs vt
      rw [vs, vt]; ring
    · have vt : ¬ OnVertical t := by intro h; simp [vs, h] at ev
      simp only [vs, vt, if_false] at el
      have hs' : s.p0.1 < s.p1.1 := by have := hs.2.2; unfold OnVertical at vs; omega
      have ht' : t.p0.1 < t.p1.1 := by have := ht.2.2; unfold OnVertical at vt; omega
      refine ⟨fun h => vs (point_vertical h), fun h => vt (point_vertical h), e0, e1, ?_⟩
      have a := slope_lt hs' ht'
      have b := slope_lt ht' hs'
      have : slope s = slope t := neg_injective el
      rw [this] at a b
      simp only [lt_irrefl, false_iff] at a b
      rw [e0] at *
      nlinarith

/-! ### the queue -/

theorem eq_iff (s t : Site) : s.eq t = true ↔ SameSite s t := by
  simp [Site.eq, SameSite]

theorem uniqueGo_sub {l : Site} {L : List Site} {s : Site} (h : s ∈ uniqueGo l L) : s ∈ L := by
  induction L generalizing l with
  | nil => exact h
  | cons a r ih =>
    rw [uniqueGo] at h
    split_ifs at h
    · exact List.mem_cons_of_mem _ (ih h)
    · rcases List.mem_cons.1 h with h | h
      · exact h ▸ List.mem_cons_self
      · exact List.mem_cons_of_mem _ (ih h)

theorem unique_sub {L : List Site} {s : Site} (h : s ∈ unique L) : s ∈ L := by
  cases L with
  | nil => exact h
  | cons a r =>
    rcases List.mem_cons.1 h with h | h
    · exact h ▸ List.mem_cons_self
    · exact List.mem_cons_of_mem _ (uniqueGo_sub h)

theorem uniqueGo_covers {l : Site} {L : List Site} {s : Site} (h : s ∈ L) : ∃ t ∈ l :: uniqueGo l L, SameSite s t := by
  induction L generalizing l with
  | nil => simp at h
  | cons a r ih =>
    rw [uniqueGo]
    rcases List.mem_cons.1 h with rfl | h
    · split_ifs with e
      · refine ⟨l, List.mem_cons_self, ?_⟩
        rw [eq_iff] at e
        exact ⟨e.1.symm, e.2.symm⟩
      · exact ⟨s, by simp, rfl, rfl⟩
    · split_ifs with e
      · exact ih h
      · obtain ⟨t, ht, e'⟩ := ih (l := a) h
        exact ⟨t, List.mem_cons_of_mem _ ht, e'⟩

theorem unique_covers {L : List Site} {s : Site} (h : s ∈ L) : ∃ t ∈ unique L, SameSite s t := by
  cases L with
  | nil => simp at h
  | cons a r =>
    rcases List.mem_cons.1 h with rfl | h
    · exact ⟨s, List.mem_cons_self, rfl, rfl⟩
    · exact uniqueGo_covers h

theorem uniqueGo_strict {l : Site} {L : List Site} (hv : ∀ s ∈ l :: L, ValidSite s)
    (ho : ∀ s ∈ l :: L, ∀ t ∈ l :: L, ¬ Overlapping s t) (hs : (l :: L).Pairwise (fun a b => ¬ Before b a)) :
    (l :: uniqueGo l L).Pairwise Before := by
  induction L generalizing l with
  | nil => simp [uniqueGo]
  | cons a r ih =>
    rw [uniqueGo]
    obtain ⟨h1, h2⟩ := List.pairwise_cons.1 hs
    split_ifs with e
    · refine ih (fun s h => hv s ?_) (fun s h t h' => ho s ?_ t ?_) ?_
      · rcases List.mem_cons.1 h with h | h <;> simp [h]
      · rcases List.mem_cons.1 h with h | h <;> simp [h]
      · rcases List.mem_cons.1 h' with h | h <;> simp [h]
      · exact List.pairwise_cons.2 ⟨fun b hb => h1 b (List.mem_cons_of_mem _ hb), (List.pairwise_cons.1 h2).2⟩
    · have hr := ih (l := a) (fun s h => hv s (List.mem_cons_of_mem _ h))
        (fun s h t h' => ho s (List.mem_cons_of_mem _ h) t (List.mem_cons_of_mem _ h')) h2
      have hla : Before l a := by
        by_contra hn
        rcases equivalent (hv l List.mem_cons_self) (hv a (by simp)) hn (h1 a List.mem_cons_self) with h | h
        · exact e ((eq_iff l a).2 h)
        · exact ho l List.mem_cons_self a (by simp) h
      refine List.pairwise_cons.2 ⟨fun b hb => ?_, hr⟩
      rcases List.mem_cons.1 hb with rfl | hb
      · exact hla
      · have := (List.pairwise_cons.1 hr).1 b hb
        rw [before_iff] at *
        exact lt_trans hla this

theorem unique_strict {L : List Site} (hv : ∀ s ∈ L, ValidSite s)
    (ho : ∀ s ∈ L, ∀ t ∈ L, ¬ Overlapping s t) (hs : L.Pairwise (fun a b => ¬ Before b a)) :
    (unique L).Pairwise Before := by
  cases L with
  | nil => simp [unique]
  | cons a r => exact uniqueGo_strict hv ho hs

theorem indexFrom_mem (n : Nat) {L : List Site} {s : Site} (h : s ∈ L) : ∃ k, { s with sorted := k } ∈ indexFrom n L := by
  induction L generalizing n with
  | nil => simp at h
  | cons a r ih =>
    rcases List.mem_cons.1 h with rfl | h
    · exact ⟨n, by simp [indexFrom]⟩
    · obtain ⟨k, hk⟩ := ih (n + 1) h
      exact ⟨k, by rw [indexFrom]; exact List.mem_cons_of_mem _ hk⟩

theorem mem_indexFrom {n : Nat} {L : List Site} {t : Site} (h : t ∈ indexFrom n L) :
    ∃ s ∈ L, t = { s with sorted := t.sorted } := by
  induction L generalizing n with
  | nil => simp [indexFrom] at h
  | cons a r ih =>
    rw [indexFrom] at h
    rcases List.mem_cons.1 h with rfl | h
    · exact ⟨a, List.mem_cons_self, rfl⟩
    · obtain ⟨s, hs, e⟩ := ih h
      exact ⟨s, List.mem_cons_of_mem _ hs, e⟩

theorem indexFrom_pairwise {R : Site → Site → Prop} (n : Nat) {L : List Site}
    (hR : ∀ (s t : Site) (j k : Nat), R s t → R { s with sorted := j } { t with sorted := k }) (h : L.Pairwise R) :
    (indexFrom n L).Pairwise R := by
  induction L generalizing n with
  | nil => simp [indexFrom]
  | cons a r ih =>
    rw [indexFrom]
    obtain ⟨h1, h2⟩ := List.pairwise_cons.1 h
    refine List.pairwise_cons.2 ⟨fun b hb => ?_, ih _ h2⟩
    obtain ⟨s, hs, e⟩ := mem_indexFrom hb
    rw [e]
    exact hR _ _ _ _ (h1 s hs)

theorem indexFrom_get {n k : Nat} {L : List Site} {s : Site} (h : (indexFrom n L)[k]? = some s) : s.sorted = n + k := by
  induction L generalizing n k with
  | nil => simp [indexFrom] at h
  | cons a r ih =>
    rw [indexFrom] at h
    cases k with
    | zero => simp at h; rw [← h]; rfl
    | succ k => rw [List.getElem?_cons_succ] at h; rw [ih h]; omega

end Verif.Voronoi
