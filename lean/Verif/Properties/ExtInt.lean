import Verif.Proofs.ExtInt
/-!
# C35, C36: `extended_int` arithmetic and comparison

`EInt.value` is the integer a representation stands for, `EInt.WF N` the shape every object of
capacity `N` has, `EInt.Canonical` that the most significant chunk is not zero
(`Verif/Spec/ExtInt.lean`).
-/
namespace Verif.Properties.ExtInt
open Verif.ExtInt Verif.Spec

theorem pow_B (N : Nat) : (2 : Nat) ^ (32 * N) = B ^ N := by rw [pow_mul]; rfl

/-! ## C35: exact arithmetic -/

/-- Construction from an `int32` or an `int64` (not the least) gives that value. -/
theorem C35_of_int32 {N : Nat} (hN : 1 ≤ N) (z : Int) (h : -2 ^ 31 < z ∧ z < 2 ^ 31) :
    ∃ e, ofInt32 z = some e ∧ EInt.WF N e ∧ EInt.Canonical e ∧ EInt.value e = z := ofInt32_spec hN h.1 h.2

theorem C35_of_int64 {N : Nat} (hN : 2 ≤ N) (z : Int) (h : -2 ^ 63 < z ∧ z < 2 ^ 63) :
    ∃ e, ofInt64 z = some e ∧ EInt.WF N e ∧ EInt.Canonical e ∧ EInt.value e = z := ofInt64_spec hN h.1 h.2

example : ofInt64 (-(2 ^ 40 + 7)) = some ⟨-2, [7, 256]⟩ := by decide +kernel

/-- Negation is exact. -/
theorem C35_neg {N : Nat} (e : EInt) (h : EInt.WF N e) :
    EInt.WF N e.neg ∧ EInt.value e.neg = -EInt.value e ∧ (EInt.Canonical e → EInt.Canonical e.neg) :=
  ⟨wf_neg h, value_neg e, can_neg⟩

/-- **C35** (addition). For operands without a leading zero chunk, `+` returns the exact sum
whenever it fits the capacity. -/
theorem C35_add_partial {N : Nat} (a b : EInt) (ha : EInt.WF N a) (hb : EInt.WF N b) (ka : EInt.Canonical a) (kb : EInt.Canonical b)
    (hfit : (EInt.value a + EInt.value b).natAbs < 2 ^ (32 * N)) :
    EInt.WF N (EInt.add N a b) ∧ EInt.value (EInt.add N a b) = EInt.value a + EInt.value b :=
  have h := add_spec ha hb ka kb (by rwa [pow_B] at hfit)
  ⟨h.1, h.2.1⟩

/-- **C35** (subtraction), likewise. -/
theorem C35_sub_partial {N : Nat} (a b : EInt) (ha : EInt.WF N a) (hb : EInt.WF N b) (ka : EInt.Canonical a) (kb : EInt.Canonical b)
    (hfit : (EInt.value a - EInt.value b).natAbs < 2 ^ (32 * N)) :
    EInt.WF N (EInt.sub N a b) ∧ EInt.value (EInt.sub N a b) = EInt.value a - EInt.value b :=
  have h := sub_spec ha hb ka kb (by rwa [pow_B] at hfit)
  ⟨h.1, h.2.1⟩

/-- **C35** (multiplication). `*` returns the exact product whenever it fits the capacity, for
every operand, canonical or not. -/
theorem C35_mul {N : Nat} (a b : EInt) (ha : EInt.WF N a) (hb : EInt.WF N b) (hN : N < 2 ^ 31)
    (hfit : (EInt.value a * EInt.value b).natAbs < 2 ^ (32 * N)) :
    EInt.WF N (EInt.mul N a b) ∧ EInt.value (EInt.mul N a b) = EInt.value a * EInt.value b ∧
      (EInt.Canonical a → EInt.Canonical b → EInt.Canonical (EInt.mul N a b)) :=
  mul_spec ha hb hN (by rwa [pow_B] at hfit)

theorem shallow_cond {N : Nat} {a b : EInt} (ha : EInt.WF N a) (hb : EInt.WF N b) (ka : EInt.Canonical a) (kb : EInt.Canonical b)
    (hs : ShallowSum (EInt.value a) (EInt.value b)) :
    EInt.value a + EInt.value b = 0 ∨ B ^ (max a.chunks.length b.chunks.length - 1) ≤ B * (EInt.value a + EInt.value b).natAbs := by
  rcases hs with hs | h
  · exact .inl hs
  have h := h (max a.chunks.length b.chunks.length - 1)
  rw [pow_B, natAbs_value ha, natAbs_value hb] at h
  by_cases h0 : a.chunks = [] ∧ b.chunks = []
  · have e : EInt.value a + EInt.value b = 0 := by
      rw [value_zero ((count_zero_iff ha).mpr h0.1), value_zero ((count_zero_iff hb).mpr h0.2), add_zero]
    exact .inl e
  · refine .inr (h ?_)
    rcases le_total a.chunks.length b.chunks.length with hl | hl
    · rw [max_eq_right hl]
      have hn : b.chunks ≠ [] := fun h' => h0 ⟨List.length_eq_zero_iff.mp (by rw [h'] at hl; simpa using hl), h'⟩
      exact le_trans (cv_ge kb hn) (le_max_right _ _)
    · rw [max_eq_left hl]
      have hn : a.chunks ≠ [] := fun h' => h0 ⟨h', List.length_eq_zero_iff.mp (by rw [h'] at hl; simpa using hl)⟩
      exact le_trans (cv_ge ka hn) (le_max_left _ _)

/-- The sum has no leading zero chunk if it is zero or at most one chunk shorter than the longer
operand. -/
theorem C35_add_canonical {N : Nat} (a b : EInt) (ha : EInt.WF N a) (hb : EInt.WF N b) (ka : EInt.Canonical a) (kb : EInt.Canonical b)
    (hfit : (EInt.value a + EInt.value b).natAbs < 2 ^ (32 * N)) (hs : ShallowSum (EInt.value a) (EInt.value b)) :
    EInt.Canonical (EInt.add N a b) :=
  (add_spec ha hb ka kb (by rwa [pow_B] at hfit)).2.2 (shallow_cond ha hb ka kb hs)

theorem shallow_same_sign {x y : Int} (h : 0 ≤ x ∧ 0 ≤ y ∨ x ≤ 0 ∧ y ≤ 0) : ShallowSum x y :=
  .inr fun k hk => le_trans hk (by omega)

theorem shallow_64 {x y : Int} (hx : x.natAbs < 2 ^ 64) (hy : y.natAbs < 2 ^ 64) : ShallowSum x y := by
  by_cases h0 : x + y = 0
  · exact .inl h0
  refine .inr fun k hk => ?_
  have : k ≤ 1 := by
    by_contra h
    have : (2 : Nat) ^ 64 ≤ 2 ^ (32 * k) := Nat.pow_le_pow_right (by norm_num) (by omega)
    omega
  have : (2 : Nat) ^ (32 * k) ≤ 2 ^ 32 := Nat.pow_le_pow_right (by norm_num) (by omega)
  omega

/-- Operands below `2^64` never lose canonicity, and neither do operands of one sign. -/
theorem C35_two_chunks {N : Nat} (a b : EInt) (ha : EInt.WF N a) (hb : EInt.WF N b) (ka : EInt.Canonical a) (kb : EInt.Canonical b)
    (hfit : (EInt.value a + EInt.value b).natAbs < 2 ^ (32 * N))
    (h : ((EInt.value a).natAbs < 2 ^ 64 ∧ (EInt.value b).natAbs < 2 ^ 64) ∨ (0 ≤ EInt.value a ∧ 0 ≤ EInt.value b)) :
    EInt.Canonical (EInt.add N a b) :=
  C35_add_canonical a b ha hb ka kb hfit (h.elim (fun h => shallow_64 h.1 h.2) (fun h => shallow_same_sign (.inl h)))

example : let a : EInt := ⟨3, [0, 0, 1]⟩; let b : EInt := ⟨-2, [5, 6]⟩
    EInt.WF 4 a ∧ EInt.WF 4 b ∧ EInt.Canonical a ∧ EInt.Canonical b ∧ EInt.add 4 a b = ⟨2, [4294967291, 4294967289]⟩ ∧
      EInt.mul 4 a b = ⟨-4, [0, 0, 5, 6]⟩ := by
  refine ⟨?_, ?_, ?_, ?_, by decide +kernel, by decide +kernel⟩
  · simp [EInt.WF]
  · simp [EInt.WF]
  · simp [EInt.Canonical]
  · simp [EInt.Canonical]

/-- **C35** for expressions: whatever is computed from machine integers with `-`, `+`, `-` and
`*` is exact, as long as every intermediate result fits and no sum is more than one chunk shorter
than its operands (or it is zero). Without the last condition the claim is false:
`C35_cancellation_violated`. -/
theorem C35_expression_partial {N : Nat} (h2 : 2 ≤ N) (hN : N < 2 ^ 31) (x : IntExpr) (hf : x.Fits N) (hs : x.Shallow) :
    ∃ e, x.run N = some e ∧ EInt.WF N e ∧ EInt.Canonical e ∧ EInt.value e = x.denote := by
  induction x with
  | lit z => exact ofInt64_spec h2 hf.1 hf.2
  | neg x ih =>
    obtain ⟨e, r, w, c, v⟩ := ih hf hs
    exact ⟨e.neg, by simp [IntExpr.run, r], wf_neg w, can_neg c, by rw [value_neg, v]; rfl⟩
  | add x y ihx ihy =>
    obtain ⟨f1, f2, f3⟩ := hf
    obtain ⟨s1, s2, s3⟩ := hs
    obtain ⟨a, ra, wa, ca, va⟩ := ihx f1 s1
    obtain ⟨b, rb, wb, cb, vb⟩ := ihy f2 s2
    rw [← va, ← vb] at f3 s3
    have := add_spec wa wb ca cb (by rwa [pow_B] at f3)
    exact ⟨EInt.add N a b, by simp [IntExpr.run, ra, rb], this.1, this.2.2 (shallow_cond wa wb ca cb s3), by rw [this.2.1, va, vb]; rfl⟩
  | sub x y ihx ihy =>
    obtain ⟨f1, f2, f3⟩ := hf
    obtain ⟨s1, s2, s3⟩ := hs
    obtain ⟨a, ra, wa, ca, va⟩ := ihx f1 s1
    obtain ⟨b, rb, wb, cb, vb⟩ := ihy f2 s2
    rw [← va, ← vb] at f3 s3
    rw [← value_neg] at s3
    have h := shallow_cond wa (wf_neg wb) ca (can_neg cb) s3
    rw [value_neg, ← sub_eq_add_neg] at h
    have := sub_spec wa wb ca cb (by rwa [pow_B] at f3)
    exact ⟨EInt.sub N a b, by simp [IntExpr.run, ra, rb], this.1, this.2.2 h, by rw [this.2.1, va, vb]; rfl⟩
  | mul x y ihx ihy =>
    obtain ⟨f1, f2, f3⟩ := hf
    obtain ⟨s1, s2⟩ := hs
    obtain ⟨a, ra, wa, ca, va⟩ := ihx f1 s1
    obtain ⟨b, rb, wb, cb, vb⟩ := ihy f2 s2
    rw [← va, ← vb] at f3
    have := mul_spec wa wb hN (by rwa [pow_B] at f3)
    exact ⟨EInt.mul N a b, by simp [IntExpr.run, ra, rb], this.1, this.2.2 ca cb, by rw [this.2.1, va, vb]; rfl⟩

/-- The expression of the example and the witness: `2^64 - (2^64 - 1)`. -/
def deep : IntExpr := .sub (.mul (.lit (2 ^ 32)) (.lit (2 ^ 32))) (.sub (.mul (.lit (2 ^ 32)) (.lit (2 ^ 32))) (.lit 1))

example : let x : IntExpr := .sub (.mul (.lit (2 ^ 62)) (.lit (-7))) (.add (.lit 5) (.lit (-4)))
    x.Fits 4 ∧ x.Shallow ∧ x.denote = -7 * 2 ^ 62 - 1 ∧ x.run 4 = some ⟨-3, [1, 3221225472, 1]⟩ := by
  refine ⟨?_, ?_, by decide, by decide +kernel⟩
  · simp only [IntExpr.Fits, IntExpr.denote]; norm_num
  · refine ⟨⟨trivial, trivial⟩, ⟨trivial, trivial, shallow_64 (by norm_num [IntExpr.denote]) (by norm_num [IntExpr.denote])⟩, ?_⟩
    exact shallow_same_sign (.inr ⟨by norm_num [IntExpr.denote], by norm_num [IntExpr.denote]⟩)

/-- **C35 is violated** when a difference cancels two or more leading chunks: `dif` removes only
one leading zero chunk, and the value it leaves is then misread by the next subtraction. With any
capacity of at least three chunks, `(2^64 - (2^64 - 1)) - 5` is evaluated to `2^64 - 4`. -/
theorem C35_cancellation_violated :
    (IntExpr.sub deep (.lit 5)).Fits 3 ∧ (IntExpr.sub deep (.lit 5)).denote = -4 ∧
    ∃ e, (IntExpr.sub deep (.lit 5)).run 3 = some e ∧ EInt.value e = 2 ^ 64 - 4 := by
  refine ⟨?_, by decide, ⟨2, [4294967292, 4294967295]⟩, by decide +kernel, by decide +kernel⟩
  simp only [deep, IntExpr.Fits, IntExpr.denote]; norm_num

/-! ## C36: comparison and sign -/

/-- **C36** for values without a leading zero chunk: `==`, `<`, `is_zero`, `is_pos` and `is_neg` are
those of the value. -/
theorem C36_compare_partial {N : Nat} (a b : EInt) (ha : EInt.WF N a) (hb : EInt.WF N b) (ka : EInt.Canonical a) (kb : EInt.Canonical b) :
    (EInt.eq a b = true ↔ EInt.value a = EInt.value b) ∧ (EInt.lt a b = true ↔ EInt.value a < EInt.value b) :=
  ⟨⟨fun h => by rw [(eq_iff ha hb).mp h], fun h => (eq_iff ha hb).mpr (value_inj ha hb ka kb h)⟩, lt_spec ha hb ka kb⟩

theorem C36_sign_partial {N : Nat} (a : EInt) (ha : EInt.WF N a) (ka : EInt.Canonical a) :
    (a.isZero = true ↔ EInt.value a = 0) ∧ (a.isPos = true ↔ 0 < EInt.value a) ∧ (a.isNeg = true ↔ EInt.value a < 0) := by
  unfold EInt.isZero EInt.isPos EInt.isNeg
  have pos : a.count ≠ 0 → 0 < cv a.chunks := fun h => cv_pos ka (fun h' => h ((count_zero_iff ha).mpr h'))
  rcases lt_trichotomy a.count 0 with h | h | h
  · have := pos (by omega)
    rw [value_negc ha h]
    simp only [beq_iff_eq, decide_eq_true_eq]
    omega
  · rw [value_zero h, h]
    simp
  · have := pos (by omega)
    rw [value_pos ha h]
    simp only [beq_iff_eq, decide_eq_true_eq]
    omega

/-- **C36** for computed values: what two expressions without deep cancellation compute compares as
the integers they stand for. -/
theorem C36_expression_partial {N : Nat} (h2 : 2 ≤ N) (hN : N < 2 ^ 31) (x y : IntExpr) (fx : x.Fits N) (fy : y.Fits N)
    (sx : x.Shallow) (sy : y.Shallow) :
    ∃ a b, x.run N = some a ∧ y.run N = some b ∧ (EInt.eq a b = true ↔ x.denote = y.denote) ∧ (EInt.lt a b = true ↔ x.denote < y.denote) ∧
      (a.isZero = true ↔ x.denote = 0) ∧ (a.isPos = true ↔ 0 < x.denote) ∧ (a.isNeg = true ↔ x.denote < 0) := by
  obtain ⟨a, ra, wa, ca, va⟩ := C35_expression_partial h2 hN x fx sx
  obtain ⟨b, rb, wb, cb, vb⟩ := C35_expression_partial h2 hN y fy sy
  have h := C36_compare_partial a b wa wb ca cb
  have g := C36_sign_partial a wa ca
  rw [va, vb] at h
  rw [va] at g
  exact ⟨a, b, ra, rb, h.1, h.2, g⟩

example : EInt.lt ⟨-2, [5, 1]⟩ ⟨-2, [4, 1]⟩ = true ∧ EInt.lt ⟨1, [5]⟩ ⟨2, [0, 1]⟩ = true ∧ EInt.eq ⟨2, [5, 1]⟩ ⟨2, [5, 1]⟩ = true := by
  decide +kernel

/-- **C36 is violated** by computed values: `2^64 - (2^64 - 1)` has the value 1 but is not equal to
1 and is greater than 2; subtracting 1 from it leaves a value 0 that `is_zero` denies and `is_pos`
affirms. -/
theorem C36_cancellation_violated : ∃ e one two z, deep.Fits 3 ∧ deep.run 3 = some e ∧ ofInt64 1 = some one ∧ ofInt64 2 = some two ∧
    EInt.value e = 1 ∧ EInt.eq e one = false ∧ EInt.lt two e = true ∧
    z = EInt.sub 3 e one ∧ EInt.value z = 0 ∧ z.isZero = false ∧ z.isPos = true := by
  refine ⟨⟨2, [1, 0]⟩, ⟨1, [1]⟩, ⟨1, [2]⟩, ⟨1, [0]⟩, ?_, by decide +kernel, by decide +kernel, by decide +kernel, by decide +kernel,
    by decide +kernel, by decide +kernel, by decide +kernel, by decide +kernel, by decide +kernel, by decide +kernel⟩
  simp only [deep, IntExpr.Fits, IntExpr.denote]; norm_num

end Verif.Properties.ExtInt
