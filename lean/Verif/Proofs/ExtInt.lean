import Verif.Spec.ExtInt
import Mathlib.Tactic.Ring
import Mathlib.Algebra.BigOperators.Ring.Finset
import Mathlib.Algebra.BigOperators.Group.Finset.Basic
import Mathlib.Data.List.GetD
import Mathlib.Tactic.Linarith
/-! Helper lemmas for C35, C36. -/
namespace Verif.ExtInt
open Verif.Spec

/-- The chunks are below the base. -/
def Ok (c : List Nat) : Prop := ∀ x ∈ c, x < B
/-- The value of the chunks. -/
def cv (c : List Nat) : Nat := Nat.ofDigits B c
/-- No leading zero chunk. -/
def Can (c : List Nat) : Prop := ∀ h : c ≠ [], c.getLast h ≠ 0

theorem B_pos : 0 < B := by decide
theorem B_gt : 1 < B := by decide

theorem cv_nil : cv [] = 0 := rfl
theorem cv_cons (a : Nat) (c : List Nat) : cv (a :: c) = a + B * cv c := Nat.ofDigits_cons
theorem cv_append (c d : List Nat) : cv (c ++ d) = cv c + B ^ c.length * cv d := Nat.ofDigits_append
theorem cv_lt {c : List Nat} (h : Ok c) : cv c < B ^ c.length := Nat.ofDigits_lt_base_pow_length B_gt h

theorem Ok.tail {a : Nat} {c : List Nat} (h : Ok (a :: c)) : Ok c := fun x hx => h x (List.mem_cons_of_mem _ hx)
theorem Ok.head {a : Nat} {c : List Nat} (h : Ok (a :: c)) : a < B := h a List.mem_cons_self
theorem Ok.cons {a : Nat} {c : List Nat} (h : a < B) (h' : Ok c) : Ok (a :: c) := fun x hx => by
  rcases List.mem_cons.mp hx with rfl | hx
  · exact h
  · exact h' x hx
theorem Ok.append {c d : List Nat} (h : Ok c) (h' : Ok d) : Ok (c ++ d) := fun x hx => by
  rcases List.mem_append.mp hx with hx | hx
  · exact h x hx
  · exact h' x hx
theorem Ok.take {c : List Nat} (h : Ok c) (n : Nat) : Ok (c.take n) := fun x hx => h x (List.mem_of_mem_take hx)
theorem Ok.getD {c : List Nat} (h : Ok c) (i : Nat) : c.getD i 0 < B := by
  rw [List.getD_eq_getElem?_getD]
  cases hc : c[i]? with
  | none => exact B_pos
  | some x => exact h x (List.mem_of_getElem? hc)

theorem cv_ge {c : List Nat} (h : Can c) (hn : c ≠ []) : B ^ (c.length - 1) ≤ cv c := by
  have e := List.dropLast_append_getLast hn
  have h1 : cv c = cv c.dropLast + B ^ (c.length - 1) * c.getLast hn := by
    conv_lhs => rw [← e]
    rw [cv_append, List.length_dropLast, cv_cons, cv_nil, mul_zero, add_zero]
  have h2 : 1 ≤ c.getLast hn := Nat.one_le_iff_ne_zero.mpr (h hn)
  rw [h1]
  have := Nat.mul_le_mul_left (B ^ (c.length - 1)) h2
  omega

/-- A list whose value needs all its chunks is canonical. -/
theorem can_of_ge {c : List Nat} (h : Ok c) (hv : ∀ _ : c ≠ [], B ^ (c.length - 1) ≤ cv c) : Can c := by
  intro hn hz
  have e := List.dropLast_append_getLast hn
  have h1 : cv c = cv c.dropLast := by
    conv_lhs => rw [← e]
    rw [cv_append, cv_cons, cv_nil, hz]; simp
  have h2 : Ok c.dropLast := fun x hx => h x (List.mem_of_mem_dropLast hx)
  have := cv_lt h2
  rw [List.length_dropLast] at this
  have := hv hn
  omega

theorem cv_lt_of_length {c d : List Nat} (hc : Ok c) (hd : Can d) (h : c.length < d.length) : cv c < cv d := by
  have hn : d ≠ [] := fun h' => by simp [h'] at h
  calc cv c < B ^ c.length := cv_lt hc
    _ ≤ B ^ (d.length - 1) := Nat.pow_le_pow_right B_pos (by omega)
    _ ≤ cv d := cv_ge hd hn

/-! ### addition -/

theorem addGo_spec (c1 : List Nat) : ∀ (c2 : List Nat) (t : Nat), Ok c1 → Ok c2 → c2.length ≤ c1.length → t ≤ 1 →
    cv (addGo c1 c2 t).1 + B ^ c1.length * (addGo c1 c2 t).2 = cv c1 + cv c2 + t ∧
      (addGo c1 c2 t).1.length = c1.length ∧ Ok (addGo c1 c2 t).1 ∧ (addGo c1 c2 t).2 ≤ 1 := by
  induction c1 with
  | nil =>
    intro c2 t _ _ hl ht
    have : c2 = [] := List.length_eq_zero_iff.mp (by simpa using hl)
    subst this
    simp [addGo, cv_nil, ht, Ok]
  | cons a c1 ih =>
    intro c2 t h1 h2 hl ht
    have ha : a < B := h1.head
    have hB : B = 2 ^ 32 := rfl
    cases c2 with
    | nil =>
      have e : w64 (t + a) = t + a := Nat.mod_eq_of_lt (by omega)
      have hd : (t + a) / B ≤ 1 := by rw [Nat.div_le_iff_le_mul_add_pred B_pos]; omega
      obtain ⟨i1, i2, i3, i4⟩ := ih [] ((t + a) / B) h1.tail (by simp [Ok]) (by simp) hd
      simp only [addGo, e]
      refine ⟨?_, by simp [i2], Ok.cons (Nat.mod_lt _ B_pos) i3, i4⟩
      rw [cv_cons, cv_cons, List.length_cons, pow_succ, cv_nil]
      have := Nat.mod_add_div (t + a) B
      rw [cv_nil] at i1
      calc _ = (t + a) % B + B * (cv (addGo c1 [] ((t + a) / B)).1 + B ^ c1.length * (addGo c1 [] ((t + a) / B)).2) := by ring
        _ = (t + a) % B + B * ((t + a) / B) + B * cv c1 := by rw [i1]; ring
        _ = _ := by rw [this]; ring
    | cons b c2 =>
      have hb : b < B := h2.head
      have e1 : w64 (a + b) = a + b := Nat.mod_eq_of_lt (by omega)
      have e : w64 (t + w64 (a + b)) = t + (a + b) := by rw [e1]; exact Nat.mod_eq_of_lt (by omega)
      have hd : (t + (a + b)) / B ≤ 1 := by rw [Nat.div_le_iff_le_mul_add_pred B_pos]; omega
      obtain ⟨i1, i2, i3, i4⟩ := ih c2 ((t + (a + b)) / B) h1.tail h2.tail (by simpa using hl) hd
      simp only [addGo, e]
      refine ⟨?_, by simp [i2], Ok.cons (Nat.mod_lt _ B_pos) i3, i4⟩
      rw [cv_cons, cv_cons, cv_cons, List.length_cons, pow_succ]
      have := Nat.mod_add_div (t + (a + b)) B
      calc _ = (t + (a + b)) % B + B * (cv (addGo c1 c2 ((t + (a + b)) / B)).1 + B ^ c1.length * (addGo c1 c2 ((t + (a + b)) / B)).2) := by ring
        _ = (t + (a + b)) % B + B * ((t + (a + b)) / B) + B * (cv c1 + cv c2) := by rw [i1]; ring
        _ = _ := by rw [this]; ring

/-- What the unsigned operations return: a non-negative count equal to the number of chunks. -/
structure UOk (N : Nat) (r : EInt) : Prop where
  len : (r.chunks.length : Int) = r.count
  cap : r.chunks.length ≤ N
  ok : Ok r.chunks

theorem addU_spec {N : Nat} {c1 c2 : List Nat} (h1 : Ok c1) (h2 : Ok c2) (l1 : c1.length ≤ N) (l2 : c2.length ≤ N)
    (hfit : cv c1 + cv c2 < B ^ N) :
    UOk N (addU N c1 c2) ∧ cv (addU N c1 c2).chunks = cv c1 + cv c2 ∧ (Can c1 → Can c2 → Can (addU N c1 c2).chunks) := by
  have main : ∀ c1 c2 : List Nat, Ok c1 → Ok c2 → c1.length ≤ N → c2.length ≤ c1.length → cv c1 + cv c2 < B ^ N →
      let r := addGo c1 c2 0
      let e : EInt := if r.2 ≠ 0 ∧ c1.length ≠ N then ⟨(c1.length : Int) + 1, r.1 ++ [r.2 % B]⟩ else ⟨c1.length, r.1⟩
      UOk N e ∧ cv e.chunks = cv c1 + cv c2 ∧ (Can c1 → Can e.chunks) := by
    intro c1 c2 h1 h2 l1 hl hfit
    obtain ⟨i1, i2, i3, i4⟩ := addGo_spec c1 c2 0 h1 h2 hl (by omega)
    dsimp only
    generalize hr : addGo c1 c2 0 = r at *
    by_cases hz : r.2 ≠ 0 ∧ c1.length ≠ N
    · rw [if_pos hz]
      have h1' : r.2 = 1 := by omega
      have hm : r.2 % B = 1 := by rw [h1']; exact Nat.mod_eq_of_lt B_gt
      refine ⟨⟨by simp [i2], by simp [i2]; omega, Ok.append i3 (by rw [hm]; intro x hx; simp at hx; rw [hx]; exact B_gt)⟩, ?_, ?_⟩
      · simp only [cv_append, cv_cons, cv_nil, hm, i2]
        rw [h1'] at i1
        omega
      · intro _ hn
        simp [hm]
    · rw [if_neg hz]
      have hz' : r.2 = 0 := by
        by_contra hc
        have hN : c1.length = N := by by_contra hN; exact hz ⟨hc, hN⟩
        have h1' : r.2 = 1 := by omega
        rw [h1', hN] at i1
        omega
      rw [hz', mul_zero, add_zero, add_zero] at i1
      refine ⟨⟨by simp [i2], by simp [i2]; omega, i3⟩, i1, ?_⟩
      intro hc
      refine can_of_ge i3 (fun hn => ?_)
      dsimp only
      rw [i2, i1]
      have hn' : c1 ≠ [] := by
        intro h; rw [h] at i2; exact hn (List.length_eq_zero_iff.mp i2)
      have := cv_ge hc hn'
      omega
  unfold addU
  by_cases hl : c1.length < c2.length
  · simp only [hl, if_true]
    obtain ⟨m1, m2, m3⟩ := main c2 c1 h2 h1 l2 (by omega) (by omega)
    exact ⟨m1, by rw [m2]; omega, fun _ h => m3 h⟩
  · simp only [hl, if_false]
    obtain ⟨m1, m2, m3⟩ := main c1 c2 h1 h2 l1 (by omega) hfit
    exact ⟨m1, m2, fun h _ => m3 h⟩

/-! ### subtraction -/

theorem w32_lt (z : Int) : w32 z < B := by unfold w32 B; omega

theorem difGo_spec (c1 : List Nat) : ∀ (c2 : List Nat) (f : Bool), Ok c1 → Ok c2 → c2.length ≤ c1.length →
    (∃ g : Nat, cv (difGo c1 c2 f) + cv c2 + f.toNat = cv c1 + B ^ c1.length * g) ∧ (difGo c1 c2 f).length = c1.length ∧ Ok (difGo c1 c2 f) := by
  induction c1 with
  | nil =>
    intro c2 f _ _ hl
    have : c2 = [] := List.length_eq_zero_iff.mp (by simpa using hl)
    subst this
    refine ⟨⟨f.toNat, by simp [difGo, cv_nil]⟩, by simp [difGo], by simp [difGo, Ok]⟩
  | cons a c1 ih =>
    intro c2 f h1 h2 hl
    have ha : a < B := h1.head
    have hB : B = 2 ^ 32 := rfl
    have hf : f.toNat ≤ 1 := Bool.toNat_le f
    have hf' : (if f then (1 : Int) else 0) = f.toNat := by cases f <;> rfl
    cases c2 with
    | nil =>
      obtain ⟨⟨g, i1⟩, i2, i3⟩ := ih [] (decide (a = 0) && f) h1.tail (by simp [Ok]) (by simp)
      simp only [difGo]
      refine ⟨⟨g, ?_⟩, by simp [i2], Ok.cons (w32_lt _) i3⟩
      rw [cv_cons, cv_cons, List.length_cons, pow_succ, cv_nil, hf']
      rw [cv_nil] at i1
      have key : w32 ((a : Int) - f.toNat) + f.toNat = a + B * (decide (a = 0) && f).toNat := by
        unfold w32
        cases f
        · simp; omega
        · by_cases h0 : a = 0
          · subst h0; simp; omega
          · simp [h0]; omega
      calc _ = (w32 ((a : Int) - f.toNat) + f.toNat) + B * cv (difGo c1 [] (decide (a = 0) && f)) := by ring
        _ = a + B * (cv (difGo c1 [] (decide (a = 0) && f)) + 0 + (decide (a = 0) && f).toNat) := by rw [key]; ring
        _ = _ := by rw [i1]; ring
    | cons b c2 =>
      have hb : b < B := h2.head
      obtain ⟨⟨g, i1⟩, i2, i3⟩ := ih c2 (decide (a < b) || (decide (a = b) && f)) h1.tail h2.tail (by simpa using hl)
      simp only [difGo]
      refine ⟨⟨g, ?_⟩, by simp [i2], Ok.cons (w32_lt _) i3⟩
      rw [cv_cons, cv_cons, cv_cons, List.length_cons, pow_succ, hf']
      have key : w32 ((a : Int) - b - f.toNat) + b + f.toNat = a + B * (decide (a < b) || (decide (a = b) && f)).toNat := by
        unfold w32
        rcases lt_trichotomy a b with h | h | h
        · simp [h]; omega
        · subst h
          cases f <;> simp <;> omega
        · have n1 : ¬ a < b := by omega
          have n2 : ¬ a = b := by omega
          simp [n1, n2]; omega
      calc _ = (w32 ((a : Int) - b - f.toNat) + b + f.toNat) + B * (cv (difGo c1 c2 (decide (a < b) || (decide (a = b) && f))) + cv c2) := by ring
        _ = a + B * (cv (difGo c1 c2 (decide (a < b) || (decide (a = b) && f))) + cv c2 + (decide (a < b) || (decide (a = b) && f)).toNat) := by rw [key]; ring
        _ = _ := by rw [i1]; ring

theorem difCore_spec {N : Nat} {c1 c2 : List Nat} (h1 : Ok c1) (h2 : Ok c2) (l1 : c1.length ≤ N) (hl : c2.length ≤ c1.length)
    (hle : cv c2 ≤ cv c1) (hn : c1 ≠ []) :
    UOk N (difCore c1 c2) ∧ cv (difCore c1 c2).chunks = cv c1 - cv c2 ∧
      (B ^ (c1.length - 1) ≤ B * (cv c1 - cv c2) → Can (difCore c1 c2).chunks) := by
  obtain ⟨⟨g, i1⟩, i2, i3⟩ := difGo_spec c1 c2 false h1 h2 hl
  have hlen : 1 ≤ c1.length := List.length_pos_iff.mpr hn
  have hg : g = 0 := by
    by_contra hc
    have h3 := cv_lt i3
    rw [i2] at h3
    have : B ^ c1.length * 1 ≤ B ^ c1.length * g := Nat.mul_le_mul_left _ (by omega)
    simp at i1
    omega
  subst hg
  simp at i1
  have hv : cv (difGo c1 c2 false) = cv c1 - cv c2 := by omega
  unfold difCore
  dsimp only
  generalize difGo c1 c2 false = r at *
  by_cases hz : r.getD (c1.length - 1) 0 ≠ 0
  · rw [if_pos hz]
    refine ⟨⟨by simp [i2]; omega, by simp [i2]; omega, i3⟩, hv, fun _ hn' => ?_⟩
    dsimp only at hn' ⊢
    rw [List.getLast_eq_getElem]
    rw [List.getD_eq_getElem _ _ (by omega)] at hz
    simpa [i2] using hz
  · rw [if_neg hz]
    push Not at hz
    have hrn : r ≠ [] := fun h => by rw [h] at i2; simp at i2; omega
    have hlast : r.getLast hrn = 0 := by
      rw [List.getLast_eq_getElem]
      rw [List.getD_eq_getElem _ _ (by omega)] at hz
      simpa [i2] using hz
    have htake : r.take (c1.length - 1) = r.dropLast := by rw [List.dropLast_eq_take, i2]
    have hcv : cv r.dropLast = cv r := by
      conv_rhs => rw [← List.dropLast_append_getLast hrn]
      rw [cv_append, cv_cons, hlast, cv_nil]; simp
    have ok' : Ok r.dropLast := fun x hx => i3 x (List.mem_of_mem_dropLast hx)
    rw [htake]
    refine ⟨⟨by simp [i2], by simp [i2]; omega, ok'⟩, by rw [hcv, hv], fun hbig => ?_⟩
    refine can_of_ge ok' (fun hne => ?_)
    dsimp only
    have hl2 : 2 ≤ c1.length := by
      have := List.length_pos_iff.mpr hne
      rw [List.length_dropLast, i2] at this; omega
    rw [hcv, hv, List.length_dropLast, i2]
    have e : B ^ (c1.length - 1) = B * B ^ (c1.length - 1 - 1) := by
      rw [← pow_succ']; congr 1; omega
    rw [e] at hbig
    exact Nat.le_of_mul_le_mul_left hbig B_pos

theorem getD_split {c : List Nat} {i : Nat} (h : i < c.length) : c.take (i + 1) = c.take i ++ [c.getD i 0] := by
  rw [List.getD_eq_getElem _ _ h, List.take_succ_eq_append_getElem h]

theorem scanTop_spec (c1 c2 : List Nat) (hlen : c1.length = c2.length) : ∀ n, n ≤ c1.length →
    (scanTop c1 c2 n = none → c1.take n = c2.take n) ∧
    (∀ b sz, scanTop c1 c2 n = some (b, sz) → 1 ≤ sz ∧ sz ≤ n ∧ (c1.take n).drop sz = (c2.take n).drop sz ∧
      (if b then c1.getD (sz - 1) 0 < c2.getD (sz - 1) 0 else c2.getD (sz - 1) 0 < c1.getD (sz - 1) 0)) := by
  intro n
  induction n with
  | zero => intro _; exact ⟨fun _ => by simp, fun b sz h => by simp [scanTop] at h⟩
  | succ i ih =>
    intro hi
    obtain ⟨j1, j2⟩ := ih (by omega)
    have s1 := getD_split (c := c1) (i := i) (by omega)
    have s2 := getD_split (c := c2) (i := i) (by omega)
    have full : ∀ c : List Nat, (c.take (i + 1)).drop (i + 1) = [] := fun c => by
      rw [List.drop_eq_nil_iff, List.length_take]; omega
    rw [scanTop]
    by_cases q1 : c1.getD i 0 < c2.getD i 0
    · rw [if_pos q1]
      refine ⟨fun h => by simp at h, fun b sz h => ?_⟩
      simp only [Option.some.injEq, Prod.mk.injEq] at h
      obtain ⟨rfl, rfl⟩ := h
      exact ⟨by omega, le_refl _, by rw [full, full], by simpa using q1⟩
    · rw [if_neg q1]
      by_cases q2 : c1.getD i 0 > c2.getD i 0
      · rw [if_pos q2]
        refine ⟨fun h => by simp at h, fun b sz h => ?_⟩
        simp only [Option.some.injEq, Prod.mk.injEq] at h
        obtain ⟨rfl, rfl⟩ := h
        exact ⟨by omega, le_refl _, by rw [full, full], by simpa using q2⟩
      · rw [if_neg q2]
        have q : c1.getD i 0 = c2.getD i 0 := by omega
        refine ⟨fun h => by rw [s1, s2, j1 h, q], fun b sz h => ?_⟩
        obtain ⟨k1, k2, k3, k4⟩ := j2 b sz h
        refine ⟨k1, by omega, ?_, k4⟩
        rw [s1, s2, List.drop_append_of_le_length (by rw [List.length_take]; omega),
          List.drop_append_of_le_length (by rw [List.length_take]; omega), k3, q]

/-- The order of two lists of equal length is decided by the top chunk if it differs. -/
theorem cv_lt_top {c1 c2 : List Nat} {sz : Nat} (h1 : Ok c1) (l1 : sz ≤ c1.length) (l2 : sz ≤ c2.length) (hs : 1 ≤ sz)
    (h : c1.getD (sz - 1) 0 < c2.getD (sz - 1) 0) : cv (c1.take sz) < cv (c2.take sz) := by
  obtain ⟨i, rfl⟩ : ∃ i, sz = i + 1 := ⟨sz - 1, by omega⟩
  simp only [Nat.add_sub_cancel] at h
  rw [getD_split (by omega), getD_split (by omega), cv_append, cv_append, cv_cons, cv_cons, cv_nil, List.length_take, List.length_take,
    min_eq_left (by omega), min_eq_left (by omega)]
  have := cv_lt (h1.take i)
  rw [List.length_take, min_eq_left (by omega)] at this
  have h2 : B ^ i * (c1.getD i 0 + 1) ≤ B ^ i * c2.getD i 0 := Nat.mul_le_mul_left _ h
  simp only [mul_zero, add_zero]
  rw [mul_add, mul_one] at h2
  omega

theorem sign_len {r : EInt} (h : (r.chunks.length : Int) = r.count) : EInt.value r = cv r.chunks := by
  unfold EInt.value
  change r.count.sign * (cv r.chunks : Int) = _
  rw [← h]
  by_cases hz : r.chunks = []
  · rw [hz]; simp [cv_nil]
  · rw [Int.sign_eq_one_of_pos (by have := List.length_pos_iff.mpr hz; omega), one_mul]

theorem value_neg (r : EInt) : EInt.value r.neg = -EInt.value r := by
  unfold EInt.value EInt.neg; simp

theorem wf_neg {N : Nat} {r : EInt} (h : EInt.WF N r) : EInt.WF N r.neg := by
  unfold EInt.WF EInt.neg at *; simpa using h

theorem UOk.wf {N : Nat} {r : EInt} (h : UOk N r) : EInt.WF N r := ⟨by have := h.len; omega, h.cap, h.ok⟩

theorem difU_spec {N : Nat} {c1 c2 : List Nat} (h1 : Ok c1) (h2 : Ok c2) (k1 : Can c1) (k2 : Can c2)
    (l1 : c1.length ≤ N) (l2 : c2.length ≤ N) :
    EInt.WF N (difU c1 c2) ∧ EInt.value (difU c1 c2) = (cv c1 : Int) - cv c2 ∧
      (B ^ (max c1.length c2.length - 1) ≤ B * ((cv c1 : Int) - cv c2).natAbs → Can (difU c1 c2).chunks) := by
  -- one-sided facts
  have core : ∀ a b : List Nat, Ok a → Ok b → a.length ≤ N → b.length ≤ a.length → cv b ≤ cv a → a ≠ [] →
      EInt.WF N (difCore a b) ∧ EInt.value (difCore a b) = (cv a : Int) - cv b ∧
        (B ^ (a.length - 1) ≤ B * (cv a - cv b) → Can (difCore a b).chunks) := by
    intro a b ha hb la hl hle hn
    obtain ⟨u, v, w⟩ := difCore_spec ha hb la hl hle hn
    exact ⟨u.wf, by rw [sign_len u.len, v]; omega, w⟩
  have coreN : ∀ a b : List Nat, Ok a → Ok b → a.length ≤ N → b.length ≤ a.length → cv b ≤ cv a → a ≠ [] →
      EInt.WF N (difCore a b).neg ∧ EInt.value (difCore a b).neg = (cv b : Int) - cv a ∧
        (B ^ (a.length - 1) ≤ B * (cv a - cv b) → Can (difCore a b).neg.chunks) := by
    intro a b ha hb la hl hle hn
    obtain ⟨u, v, w⟩ := core a b ha hb la hl hle hn
    exact ⟨wf_neg u, by rw [value_neg, v]; omega, w⟩
  unfold difU
  by_cases hl : c1.length < c2.length
  · rw [if_pos hl]
    have hn : c2 ≠ [] := fun h => by rw [h] at hl; simp at hl
    have hlt := cv_lt_of_length h1 k2 hl
    obtain ⟨u, v, w⟩ := coreN c2 c1 h2 h1 l2 hl.le hlt.le hn
    refine ⟨u, v, fun hb => w ?_⟩
    have := cv_ge k2 hn
    rw [max_eq_right hl.le, show ((cv c1 : Int) - cv c2).natAbs = cv c2 - cv c1 by omega] at hb
    omega
  · rw [if_neg hl]
    by_cases he : c1.length = c2.length
    · rw [if_pos he]
      obtain ⟨s1, s2⟩ := scanTop_spec c1 c2 he c1.length le_rfl
      rw [List.take_length, he, List.take_length, ← he] at s1 s2
      cases hs : scanTop c1 c2 c1.length with
      | none =>
        rw [s1 hs]
        exact ⟨⟨rfl, Nat.zero_le _, by simp⟩, by simp [EInt.value], fun _ h => absurd rfl h⟩
      | some p =>
        obtain ⟨b, sz⟩ := p
        obtain ⟨q1, q2, q3, q4⟩ := s2 b sz hs
        have len1 : (c1.take sz).length = sz := by rw [List.length_take]; omega
        have len2 : (c2.take sz).length = sz := by rw [List.length_take]; omega
        have e1 : cv c1 = cv (c1.take sz) + B ^ sz * cv (c1.drop sz) := by
          conv_lhs => rw [← List.take_append_drop sz c1]
          rw [cv_append, len1]
        have e2 : cv c2 = cv (c2.take sz) + B ^ sz * cv (c1.drop sz) := by
          conv_lhs => rw [← List.take_append_drop sz c2]
          rw [cv_append, len2, q3]
        have nz : ∀ c : List Nat, (c.take sz).length = sz → c.take sz ≠ [] := fun c h h' => by rw [h'] at h; simp at h; omega
        have pw : B ^ (sz - 1) ≤ B ^ (c1.length - 1) := Nat.pow_le_pow_right B_pos (by omega)
        have hc1 : c1 ≠ [] := fun h => by rw [h] at q2; simp at q2; omega
        have hc2 : c2 ≠ [] := fun h => by rw [h] at he; simp at he; exact hc1 he
        have g1 := cv_ge k1 hc1
        have g2 := cv_ge k2 hc2
        rw [← he] at g2
        cases b with
        | true =>
          simp only [if_true] at q4
          have hlt := cv_lt_top h1 (by omega) (by omega) q1 q4
          obtain ⟨u, v, w⟩ := coreN (c2.take sz) (c1.take sz) (h2.take _) (h1.take _) (by omega) (by omega) hlt.le (nz _ len2)
          refine ⟨u, by rw [v, e1, e2]; push_cast; ring, fun hb => w ?_⟩
          rw [len2]
          have : ((cv c1 : Int) - cv c2).natAbs = cv (c2.take sz) - cv (c1.take sz) := by omega
          rw [this, ← he, max_self] at hb
          omega
        | false =>
          simp only [Bool.false_eq_true, if_false] at q4
          have hlt := cv_lt_top h2 (by omega) (by omega) q1 q4
          obtain ⟨u, v, w⟩ := core (c1.take sz) (c2.take sz) (h1.take _) (h2.take _) (by omega) (by omega) hlt.le (nz _ len1)
          refine ⟨u, by rw [v, e1, e2]; push_cast; ring, fun hb => w ?_⟩
          rw [len1]
          have : ((cv c1 : Int) - cv c2).natAbs = cv (c1.take sz) - cv (c2.take sz) := by omega
          rw [this, ← he, max_self] at hb
          omega
    · rw [if_neg he]
      have hn : c1 ≠ [] := fun h => by have := congrArg List.length h; simp only [List.length_nil] at this; omega
      have hlt := cv_lt_of_length h2 k1 (by omega)
      obtain ⟨u, v, w⟩ := core c1 c2 h1 h2 l1 (by omega) hlt.le hn
      refine ⟨u, v, fun hb => w ?_⟩
      have := cv_ge k1 hn
      rw [max_eq_left (by omega), show ((cv c1 : Int) - cv c2).natAbs = cv c1 - cv c2 by omega] at hb
      omega

/-! ### multiplication -/

/-- The column sums of the schoolbook product. -/
def conv (c1 c2 : List Nat) (s : Nat) : Nat := ∑ i ∈ Finset.range (s + 1), c1.getD i 0 * c2.getD (s - i) 0

theorem sum_getD (c : List Nat) : ∀ K, c.length ≤ K → ∑ s ∈ Finset.range K, B ^ s * c.getD s 0 = cv c := by
  induction c with
  | nil => intro K _; simp [cv_nil]
  | cons a c ih =>
    intro K hK
    obtain ⟨K, rfl⟩ : ∃ k, K = k + 1 := ⟨K - 1, by simp at hK; omega⟩
    rw [Finset.sum_range_succ', cv_cons, ← ih K (by simpa using hK), Finset.mul_sum]
    simp only [List.getD_cons_succ, List.getD_cons_zero, pow_zero, one_mul]
    rw [add_comm]
    congr 1
    exact Finset.sum_congr rfl (fun i _ => by rw [pow_succ]; ring)

theorem conv_cons_succ (a : Nat) (c1 c2 : List Nat) (s : Nat) : conv (a :: c1) c2 (s + 1) = a * c2.getD (s + 1) 0 + conv c1 c2 s := by
  unfold conv
  rw [Finset.sum_range_succ']
  simp only [List.getD_cons_succ, List.getD_cons_zero, Nat.sub_zero]
  rw [add_comm]
  congr 1
  exact Finset.sum_congr rfl (fun i _ => by rw [Nat.add_sub_add_right])

theorem conv_total (c1 c2 : List Nat) (h2 : 1 ≤ c2.length) : ∀ K, c1.length + c2.length - 1 ≤ K →
    ∑ s ∈ Finset.range K, B ^ s * conv c1 c2 s = cv c1 * cv c2 := by
  induction c1 with
  | nil => intro K _; simp [conv, cv_nil]
  | cons a c1 ih =>
    intro K hK
    obtain ⟨K, rfl⟩ : ∃ k, K = k + 1 := ⟨K - 1, by simp at hK; omega⟩
    rw [Finset.sum_range_succ']
    simp only [conv_cons_succ, mul_add]
    rw [Finset.sum_add_distrib, cv_cons, add_mul, mul_assoc, ← ih K (by simp at hK; omega), ← sum_getD c2 (K + 1) (by simp at hK; omega),
      Finset.sum_range_succ', mul_add, Finset.mul_sum, Finset.mul_sum]
    have e0 : conv (a :: c1) c2 0 = a * c2.getD 0 0 := by simp [conv]
    have e1 : ∑ x ∈ Finset.range K, B ^ (x + 1) * (a * c2.getD (x + 1) 0) = ∑ x ∈ Finset.range K, a * (B ^ (x + 1) * c2.getD (x + 1) 0) :=
      Finset.sum_congr rfl (fun i _ => by ring)
    have e2 : ∑ x ∈ Finset.range K, B ^ (x + 1) * conv c1 c2 x = ∑ x ∈ Finset.range K, B * (B ^ x * conv c1 c2 x) :=
      Finset.sum_congr rfl (fun i _ => by rw [pow_succ]; ring)
    rw [e0, e1, e2]
    ring

theorem mulInner_spec {c1 c2 : List Nat} (h1 : Ok c1) (h2 : Ok c2) (hL : c1.length < 2 ^ 31) (shift cur : Nat)
    (hc : cur ≤ c1.length * (B - 1) + B) :
    (mulInner c1 c2 shift cur).1 + B * (mulInner c1 c2 shift cur).2 = cur + conv c1 c2 shift ∧
      (mulInner c1 c2 shift cur).1 < 2 ^ 64 ∧ (mulInner c1 c2 shift cur).2 ≤ c1.length * (B - 1) := by
  have hB : B = 2 ^ 32 := rfl
  have key : ∀ k, k ≤ shift + 1 →
      let s := (List.range k).foldl (fun (s : Nat × Nat) first =>
        if first ≥ c1.length then s
        else if shift - first ≥ c2.length then s
        else
          let tmp := w64 (c1.getD first 0 * c2.getD (shift - first) 0)
          (w64 (s.1 + tmp % B), w64 (s.2 + tmp / B))) (cur, 0)
      s.1 + B * s.2 = cur + ∑ i ∈ Finset.range k, c1.getD i 0 * c2.getD (shift - i) 0 ∧
        s.1 ≤ cur + min k c1.length * (B - 1) ∧ s.2 ≤ min k c1.length * (B - 1) := by
    intro k
    induction k with
    | zero => intro _; simp
    | succ k ih =>
      intro hk
      obtain ⟨i1, i2, i3⟩ := ih (by omega)
      rw [List.range_succ, List.foldl_append]
      simp only [List.foldl_cons, List.foldl_nil]
      generalize (List.range k).foldl _ (cur, 0) = s at i1 i2 i3 ⊢
      rw [Finset.sum_range_succ]
      by_cases g1 : k ≥ c1.length
      · rw [if_pos g1]
        have : c1.getD k 0 = 0 := List.getD_eq_default _ _ g1
        rw [this, zero_mul, add_zero, min_eq_right (by omega)]
        rw [min_eq_right g1] at i2 i3
        exact ⟨i1, i2, i3⟩
      · rw [if_neg g1]
        have m1 : min k c1.length = k := by omega
        have m2 : min (k + 1) c1.length = k + 1 := by omega
        rw [m1] at i2 i3
        rw [m2, add_mul, one_mul]
        by_cases g2 : shift - k ≥ c2.length
        · rw [if_pos g2]
          have : c2.getD (shift - k) 0 = 0 := List.getD_eq_default _ _ g2
          rw [this, mul_zero, add_zero]
          exact ⟨i1, by omega, by omega⟩
        · rw [if_neg g2]
          have b1 := h1.getD k
          have b2 := h2.getD (shift - k)
          have hk' : k * (B - 1) ≤ (c1.length - 1) * (B - 1) := Nat.mul_le_mul_right _ (by omega)
          have hL' : (c1.length - 1) * (B - 1) ≤ (2 ^ 31 - 2) * (B - 1) := Nat.mul_le_mul_right _ (by omega)
          have hL2 : c1.length * (B - 1) ≤ (2 ^ 31 - 1) * (B - 1) := Nat.mul_le_mul_right _ (by omega)
          generalize c1.getD k 0 = a at *
          generalize c2.getD (shift - k) 0 = b at *
          have hab : a * b ≤ (B - 1) * (B - 1) := Nat.mul_le_mul (by omega) (by omega)
          have e0 : w64 (a * b) = a * b := Nat.mod_eq_of_lt (lt_of_le_of_lt hab (by rw [hB]; norm_num))
          simp only [e0]
          have hq : a * b / B ≤ B - 1 := by
            rw [Nat.div_le_iff_le_mul_add_pred B_pos]
            calc a * b ≤ (B - 1) * (B - 1) := hab
              _ ≤ B * (B - 1) + (B - 1) := by rw [hB]; norm_num
          have hr : a * b % B ≤ B - 1 := by have := Nat.mod_lt (a * b) B_pos; omega
          have hd := Nat.mod_add_div (a * b) B
          have n1 : s.1 + a * b % B < 2 ^ 64 := by
            clear i1 hd
            generalize a * b % B = r at *
            generalize k * (B - 1) = kb at *
            generalize (c1.length - 1) * (B - 1) = l1 at *
            generalize c1.length * (B - 1) = l2 at *
            have hB' : B = 4294967296 := rfl
            rw [hB'] at *
            omega
          have n2 : s.2 + a * b / B < 2 ^ 64 := by
            clear i1 hd
            generalize a * b / B = r at *
            generalize k * (B - 1) = kb at *
            generalize (c1.length - 1) * (B - 1) = l1 at *
            generalize c1.length * (B - 1) = l2 at *
            have hB' : B = 4294967296 := rfl
            rw [hB'] at *
            omega
          have s1 : w64 (s.1 + a * b % B) = s.1 + a * b % B := Nat.mod_eq_of_lt n1
          have s2 : w64 (s.2 + a * b / B) = s.2 + a * b / B := Nat.mod_eq_of_lt n2
          rw [s1, s2]
          refine ⟨?_, by omega, by omega⟩
          rw [mul_add]
          omega
  obtain ⟨k1, k2, k3⟩ := key (shift + 1) le_rfl
  have hm : min (shift + 1) c1.length * (B - 1) ≤ c1.length * (B - 1) := Nat.mul_le_mul_right _ (by omega)
  have hL2 : c1.length * (B - 1) ≤ (2 ^ 31 - 1) * (B - 1) := Nat.mul_le_mul_right _ (by omega)
  refine ⟨k1, lt_of_le_of_lt k2 ?_, le_trans k3 hm⟩
  clear k1 k2 k3 key
  generalize min (shift + 1) c1.length * (B - 1) = l1 at *
  generalize c1.length * (B - 1) = l2 at *
  have hB' : B = 4294967296 := rfl
  rw [hB'] at *
  omega

theorem mulGo_spec {c1 c2 : List Nat} (h1 : Ok c1) (h2 : Ok c2) (hL : c1.length < 2 ^ 31) : ∀ n shift cur,
    cur ≤ c1.length * (B - 1) + B →
    cv (mulGo c1 c2 n shift cur).1 + B ^ n * (mulGo c1 c2 n shift cur).2 = cur + ∑ j ∈ Finset.range n, B ^ j * conv c1 c2 (shift + j) ∧
      (mulGo c1 c2 n shift cur).1.length = n ∧ Ok (mulGo c1 c2 n shift cur).1 := by
  intro n
  induction n with
  | zero => intro shift cur _; simp [mulGo, cv_nil, Ok]
  | succ n ih =>
    intro shift cur hc
    obtain ⟨m1, m2, m3⟩ := mulInner_spec h1 h2 hL shift cur hc
    have hB : B = 2 ^ 32 := rfl
    have hL2 : c1.length * (B - 1) ≤ (2 ^ 31 - 1) * (B - 1) := Nat.mul_le_mul_right _ (by omega)
    simp only [mulGo]
    generalize mulInner c1 c2 shift cur = s at *
    have hdiv : s.1 / B < B := by
      rw [Nat.div_lt_iff_lt_mul B_pos]; rw [hB]; omega
    have hw : w64 (s.2 + s.1 / B) = s.2 + s.1 / B := Nat.mod_eq_of_lt (by rw [hB] at *; omega)
    rw [hw]
    obtain ⟨i1, i2, i3⟩ := ih (shift + 1) (s.2 + s.1 / B) (by omega)
    generalize mulGo c1 c2 n (shift + 1) (s.2 + s.1 / B) = r at *
    refine ⟨?_, by simp [i2], Ok.cons (Nat.mod_lt _ B_pos) i3⟩
    rw [cv_cons, Finset.sum_range_succ']
    have e : ∑ k ∈ Finset.range n, B ^ (k + 1) * conv c1 c2 (shift + (k + 1)) = B * ∑ j ∈ Finset.range n, B ^ j * conv c1 c2 (shift + 1 + j) := by
      rw [Finset.mul_sum]
      exact Finset.sum_congr rfl (fun i _ => by rw [pow_succ, show shift + (i + 1) = shift + 1 + i by omega]; ring)
    rw [e]
    have hd := Nat.mod_add_div s.1 B
    calc s.1 % B + B * cv r.1 + B ^ (n + 1) * r.2 = s.1 % B + B * (cv r.1 + B ^ n * r.2) := by rw [pow_succ]; ring
      _ = (s.1 % B + B * (s.1 / B) + B * s.2) + B * ∑ j ∈ Finset.range n, B ^ j * conv c1 c2 (shift + 1 + j) := by rw [i1]; ring
      _ = _ := by rw [hd, m1]; simp; ring

theorem mulU_spec {N : Nat} {c1 c2 : List Nat} (h1 : Ok c1) (h2 : Ok c2) (n1 : c1 ≠ []) (n2 : c2 ≠ []) (l1 : c1.length ≤ N)
    (hN : N < 2 ^ 31) (hfit : cv c1 * cv c2 < B ^ N) :
    UOk N (mulU N c1 c2) ∧ cv (mulU N c1 c2).chunks = cv c1 * cv c2 ∧ (Can c1 → Can c2 → Can (mulU N c1 c2).chunks) := by
  have p1 := List.length_pos_iff.mpr n1
  have p2 := List.length_pos_iff.mpr n2
  set K := c1.length + c2.length - 1 with hK
  set n := min N K with hn
  obtain ⟨i1, i2, i3⟩ := mulGo_spec h1 h2 (by omega) n 0 0 (by omega)
  have tot := conv_total c1 c2 (by omega) K le_rfl
  have split : ∑ s ∈ Finset.range K, B ^ s * conv c1 c2 s =
      ∑ s ∈ Finset.range n, B ^ s * conv c1 c2 s + B ^ n * ∑ j ∈ Finset.range (K - n), B ^ j * conv c1 c2 (n + j) := by
    conv_lhs => rw [show K = n + (K - n) by omega]
    rw [Finset.sum_range_add, Finset.mul_sum]
    congr 1
    exact Finset.sum_congr rfl (fun i _ => by rw [pow_add]; ring)
  simp only [Nat.zero_add] at i1
  unfold mulU
  simp only [← hK, ← hn]
  generalize mulGo c1 c2 n 0 0 = r at *
  rw [← i1, tot] at split
  have canP : Can c1 → Can c2 → B ^ (K - 1) ≤ cv c1 * cv c2 := by
    intro k1 k2
    have := Nat.mul_le_mul (cv_ge k1 n1) (cv_ge k2 n2)
    rw [← pow_add] at this
    rwa [show c1.length - 1 + (c2.length - 1) = K - 1 by omega] at this
  by_cases hc : n = N
  · have hz : r.2 = 0 := by
      by_contra hne
      have : B ^ n * 1 ≤ B ^ n * r.2 := Nat.mul_le_mul_left _ (by omega)
      rw [← hc] at hfit
      omega
    have hr : ∑ j ∈ Finset.range (K - n), B ^ j * conv c1 c2 (n + j) = 0 := by
      by_contra hne
      have : B ^ n * 1 ≤ B ^ n * ∑ j ∈ Finset.range (K - n), B ^ j * conv c1 c2 (n + j) := Nat.mul_le_mul_left _ (by omega)
      rw [← hc] at hfit
      omega
    rw [if_neg (by simp [hz])]
    rw [hz, hr, mul_zero, add_zero, add_zero] at split
    refine ⟨⟨by simp [i2], by simp [i2]; omega, i3⟩, split.symm, fun k1 k2 => can_of_ge i3 (fun _ => ?_)⟩
    dsimp only
    rw [i2, ← split]
    exact le_trans (Nat.pow_le_pow_right B_pos (by omega)) (canP k1 k2)
  · have hnK : n = K := by omega
    rw [hnK, Nat.sub_self, Finset.sum_range_zero, mul_zero, add_zero, ← hnK] at split
    by_cases hz : r.2 = 0
    · rw [if_neg (by simp [hz])]
      rw [hz, mul_zero, add_zero] at split
      refine ⟨⟨by simp [i2], by simp [i2]; omega, i3⟩, split.symm, fun k1 k2 => can_of_ge i3 (fun _ => ?_)⟩
      dsimp only
      rw [i2, ← split, hnK]
      exact canP k1 k2
    · rw [if_pos ⟨hz, hc⟩]
      have hlt : r.2 < B := by
        by_contra hge
        have h3 : cv c1 * cv c2 < B ^ c1.length * B ^ c2.length :=
          Nat.mul_lt_mul'' (cv_lt h1) (cv_lt h2)
        rw [← pow_add, show c1.length + c2.length = n + 1 by omega, pow_succ] at h3
        have : B ^ n * B ≤ B ^ n * r.2 := Nat.mul_le_mul_left _ (by omega)
        omega
      rw [Nat.mod_eq_of_lt hlt]
      refine ⟨⟨by simp [i2], by simp [i2]; omega, Ok.append i3 (fun x hx => by simp at hx; rw [hx]; exact hlt)⟩, ?_, fun _ _ h => by simpa using hz⟩
      simp only [cv_append, cv_cons, cv_nil, i2, mul_zero, add_zero]
      exact split.symm

/-! ### equal representations -/

theorem cv_inj {c d : List Nat} (hc : Ok c) (hd : Ok d) (kc : Can c) (kd : Can d) (h : cv c = cv d) : c = d := by
  have hl : c.length = d.length := by
    rcases lt_trichotomy c.length d.length with hl | hl | hl
    · exact absurd (cv_lt_of_length hc kd hl) (by omega)
    · exact hl
    · exact absurd (cv_lt_of_length hd kc hl) (by omega)
  exact Nat.ofDigits_inj_of_len_eq B_gt hl hc hd h

theorem scanTop_self (c : List Nat) : ∀ n, scanTop c c n = none := by
  intro n
  induction n with
  | zero => rfl
  | succ n ih => simp [scanTop, ih]

theorem difU_self (c : List Nat) : difU c c = ⟨0, []⟩ := by simp [difU, scanTop_self]

theorem cv_pos {c : List Nat} (k : Can c) (hn : c ≠ []) : 0 < cv c :=
  lt_of_lt_of_le (Nat.pow_pos B_pos) (cv_ge k hn)

/-! ### the operations on `EInt` -/

theorem count_zero_iff {N : Nat} {e : EInt} (h : EInt.WF N e) : e.count = 0 ↔ e.chunks = [] := by
  have := h.1
  constructor
  · intro h0; exact List.length_eq_zero_iff.mp (by rw [this, h0]; rfl)
  · intro h0; rw [h0] at this; simp at this; omega

theorem value_pos {N : Nat} {e : EInt} (_ : EInt.WF N e) (hp : e.count > 0) : EInt.value e = cv e.chunks := by
  unfold EInt.value
  rw [Int.sign_eq_one_of_pos hp, one_mul]; rfl

theorem value_negc {N : Nat} {e : EInt} (_ : EInt.WF N e) (hp : e.count < 0) : EInt.value e = -(cv e.chunks : Int) := by
  unfold EInt.value
  rw [Int.sign_eq_neg_one_of_neg hp, neg_mul, one_mul]; rfl

theorem value_zero {e : EInt} (hp : e.count = 0) : EInt.value e = 0 := by unfold EInt.value; rw [hp]; simp

theorem natAbs_value {N : Nat} {e : EInt} (h : EInt.WF N e) : (EInt.value e).natAbs = cv e.chunks := by
  rcases lt_trichotomy e.count 0 with hp | hp | hp
  · rw [value_negc h hp]; simp
  · rw [value_zero hp, (count_zero_iff h).mp hp]; rfl
  · rw [value_pos h hp]; simp

theorem can_neg {e : EInt} (h : EInt.Canonical e) : EInt.Canonical e.neg := h

theorem add_spec {N : Nat} {a b : EInt} (ha : EInt.WF N a) (hb : EInt.WF N b) (ka : EInt.Canonical a) (kb : EInt.Canonical b)
    (hfit : (EInt.value a + EInt.value b).natAbs < B ^ N) :
    EInt.WF N (EInt.add N a b) ∧ EInt.value (EInt.add N a b) = EInt.value a + EInt.value b ∧
      (EInt.value a + EInt.value b = 0 ∨ B ^ (max a.chunks.length b.chunks.length - 1) ≤ B * (EInt.value a + EInt.value b).natAbs →
        EInt.Canonical (EInt.add N a b)) := by
  unfold EInt.add
  by_cases a0 : a.count = 0
  · rw [if_pos a0, value_zero a0, zero_add]; exact ⟨hb, rfl, fun _ => kb⟩
  rw [if_neg a0]
  by_cases b0 : b.count = 0
  · rw [if_pos b0, value_zero b0, add_zero]; exact ⟨ha, rfl, fun _ => ka⟩
  rw [if_neg b0]
  -- the four sign combinations
  have D : ∀ c1 c2 : List Nat, Ok c1 → Ok c2 → Can c1 → Can c2 → c1.length ≤ N → c2.length ≤ N →
      EInt.WF N (difU c1 c2) ∧ EInt.value (difU c1 c2) = (cv c1 : Int) - cv c2 ∧
      ((cv c1 : Int) - cv c2 = 0 ∨ B ^ (max c1.length c2.length - 1) ≤ B * ((cv c1 : Int) - cv c2).natAbs → EInt.Canonical (difU c1 c2)) := by
    intro c1 c2 o1 o2 k1 k2 l1 l2
    obtain ⟨u, v, w⟩ := difU_spec o1 o2 k1 k2 l1 l2
    refine ⟨u, v, fun h => ?_⟩
    rcases h with h | h
    · rw [cv_inj o1 o2 k1 k2 (by omega), difU_self]
      intro hn; exact absurd rfl hn
    · exact w h
  rcases lt_or_gt_of_ne a0 with pa | pa <;> rcases lt_or_gt_of_ne b0 with pb | pb
  · have x : xor (decide (a.count > 0)) (decide (b.count > 0)) = false := by simp [show (0 < a.count) = False from by simp; omega, show (0 < b.count) = False from by simp; omega]
    simp only [x, Bool.false_eq_true, if_false, if_pos pa]
    rw [value_negc ha pa, value_negc hb pb] at *
    obtain ⟨u, v, w⟩ := addU_spec (N := N) ha.2.2 hb.2.2 ha.2.1 hb.2.1 (by omega)
    refine ⟨wf_neg u.wf, ?_, fun _ => can_neg (w ka kb)⟩
    rw [value_neg, sign_len u.len, v]; push_cast; ring
  · have x : xor (decide (a.count > 0)) (decide (b.count > 0)) = true := by simp [show (0 < a.count) = False from by simp; omega, show (0 < b.count) = True from by simp; omega]
    simp only [x, if_true, if_pos pa]
    rw [value_negc ha pa, value_pos hb pb] at *
    obtain ⟨u, v, w⟩ := D _ _ ha.2.2 hb.2.2 ka kb ha.2.1 hb.2.1
    refine ⟨wf_neg u, by rw [value_neg, v]; ring, fun h => can_neg (w ?_)⟩
    have e : ((cv a.chunks : Int) - cv b.chunks).natAbs = (-(cv a.chunks : Int) + cv b.chunks).natAbs := by omega
    rw [e]
    exact h.imp (fun h => by omega) id
  · have x : xor (decide (a.count > 0)) (decide (b.count > 0)) = true := by simp [show (0 < a.count) = True from by simp; omega, show (0 < b.count) = False from by simp; omega]
    simp only [x, if_true, if_neg (show ¬ a.count < 0 by omega)]
    rw [value_pos ha pa, value_negc hb pb] at *
    obtain ⟨u, v, w⟩ := D _ _ ha.2.2 hb.2.2 ka kb ha.2.1 hb.2.1
    exact ⟨u, by rw [v]; ring, fun h => w (by rw [sub_eq_add_neg]; exact h)⟩
  · have x : xor (decide (a.count > 0)) (decide (b.count > 0)) = false := by simp [show (0 < a.count) = True from by simp; omega, show (0 < b.count) = True from by simp; omega]
    simp only [x, Bool.false_eq_true, if_false, if_neg (show ¬ a.count < 0 by omega)]
    rw [value_pos ha pa, value_pos hb pb] at *
    obtain ⟨u, v, w⟩ := addU_spec (N := N) ha.2.2 hb.2.2 ha.2.1 hb.2.1 (by omega)
    exact ⟨u.wf, by rw [sign_len u.len, v]; push_cast; ring, fun _ => w ka kb⟩

theorem sub_eq_add_neg' (N : Nat) (a b : EInt) : EInt.sub N a b = EInt.add N a b.neg := by
  unfold EInt.sub EInt.add
  by_cases a0 : a.count = 0
  · rw [if_pos a0, if_pos a0]
  rw [if_neg a0, if_neg a0]
  by_cases b0 : b.count = 0
  · rw [if_pos b0, if_pos (show b.neg.count = 0 by simp [EInt.neg, b0])]
  rw [if_neg b0, if_neg (show ¬ b.neg.count = 0 by simp [EInt.neg, b0])]
  have e : xor (decide (a.count > 0)) (decide (b.neg.count > 0)) = !xor (decide (a.count > 0)) (decide (b.count > 0)) := by
    unfold EInt.neg
    rcases lt_or_gt_of_ne b0 with p | p
    · simp [show ¬ (0 < b.count) by omega, p]
    · simp [show ¬ (b.count < 0) by omega, p]
  rw [e]
  cases xor (decide (a.count > 0)) (decide (b.count > 0)) <;> simp [EInt.neg]

theorem sub_spec {N : Nat} {a b : EInt} (ha : EInt.WF N a) (hb : EInt.WF N b) (ka : EInt.Canonical a) (kb : EInt.Canonical b)
    (hfit : (EInt.value a - EInt.value b).natAbs < B ^ N) :
    EInt.WF N (EInt.sub N a b) ∧ EInt.value (EInt.sub N a b) = EInt.value a - EInt.value b ∧
      (EInt.value a - EInt.value b = 0 ∨ B ^ (max a.chunks.length b.chunks.length - 1) ≤ B * (EInt.value a - EInt.value b).natAbs →
        EInt.Canonical (EInt.sub N a b)) := by
  rw [sub_eq_add_neg']
  have := add_spec ha (wf_neg hb) ka (can_neg kb)
  rw [value_neg, ← sub_eq_add_neg] at this
  exact this hfit

theorem mul_spec {N : Nat} {a b : EInt} (ha : EInt.WF N a) (hb : EInt.WF N b) (hN : N < 2 ^ 31)
    (hfit : (EInt.value a * EInt.value b).natAbs < B ^ N) :
    EInt.WF N (EInt.mul N a b) ∧ EInt.value (EInt.mul N a b) = EInt.value a * EInt.value b ∧
      (EInt.Canonical a → EInt.Canonical b → EInt.Canonical (EInt.mul N a b)) := by
  unfold EInt.mul
  by_cases h0 : a.count = 0 ∨ b.count = 0
  · rw [if_pos h0]
    refine ⟨⟨rfl, Nat.zero_le _, by simp⟩, ?_, fun _ _ hn => absurd rfl hn⟩
    rcases h0 with h0 | h0
    · rw [value_zero h0, zero_mul]; rfl
    · rw [value_zero h0, mul_zero]; rfl
  · rw [if_neg h0]
    push Not at h0
    have na : a.chunks ≠ [] := fun h => h0.1 ((count_zero_iff ha).mpr h)
    have nb : b.chunks ≠ [] := fun h => h0.2 ((count_zero_iff hb).mpr h)
    rw [Int.natAbs_mul, natAbs_value ha, natAbs_value hb] at hfit
    obtain ⟨u, v, w⟩ := mulU_spec ha.2.2 hb.2.2 na nb ha.2.1 hN hfit
    have vv : EInt.value (mulU N a.chunks b.chunks) = (cv a.chunks : Int) * cv b.chunks := by rw [sign_len u.len, v]; push_cast; ring
    rcases lt_or_gt_of_ne h0.1 with pa | pa <;> rcases lt_or_gt_of_ne h0.2 with pb | pb
    · have x : xor (decide (a.count > 0)) (decide (b.count > 0)) = false := by simp [show (0 < a.count) = False from by simp; omega, show (0 < b.count) = False from by simp; omega]
      simp only [x, Bool.false_eq_true, if_false]; rw [value_negc ha pa, value_negc hb pb]
      exact ⟨u.wf, by rw [vv]; ring, w⟩
    · have x : xor (decide (a.count > 0)) (decide (b.count > 0)) = true := by simp [show (0 < a.count) = False from by simp; omega, show (0 < b.count) = True from by simp; omega]
      simp only [x, if_true]; rw [value_negc ha pa, value_pos hb pb]
      exact ⟨wf_neg u.wf, by rw [value_neg, vv]; ring, w⟩
    · have x : xor (decide (a.count > 0)) (decide (b.count > 0)) = true := by simp [show (0 < a.count) = True from by simp; omega, show (0 < b.count) = False from by simp; omega]
      simp only [x, if_true]; rw [value_pos ha pa, value_negc hb pb]
      exact ⟨wf_neg u.wf, by rw [value_neg, vv]; ring, w⟩
    · have x : xor (decide (a.count > 0)) (decide (b.count > 0)) = false := by simp [show (0 < a.count) = True from by simp; omega, show (0 < b.count) = True from by simp; omega]
      simp only [x, Bool.false_eq_true, if_false]; rw [value_pos ha pa, value_pos hb pb]
      exact ⟨u.wf, vv, w⟩

/-! ### comparison -/

theorem eq_iff {N : Nat} {a b : EInt} (ha : EInt.WF N a) (hb : EInt.WF N b) : EInt.eq a b = true ↔ a = b := by
  constructor
  · intro h
    unfold EInt.eq at h
    split_ifs at h with hc
    push Not at hc
    have hl : a.chunks.length = b.chunks.length := by rw [ha.1, hb.1, hc]
    obtain ⟨c, l⟩ := a
    obtain ⟨d, m⟩ := b
    simp only at hc hl
    rw [List.all_eq_true] at h
    congr 1
    refine List.ext_getElem hl (fun i h1 h2 => ?_)
    have := h i (by rw [List.mem_range]; unfold EInt.size; have := ha.1; dsimp only at this ⊢; omega)
    simp only [beq_iff_eq] at this
    rwa [List.getD_eq_getElem _ _ h1, List.getD_eq_getElem _ _ h2] at this
  · rintro rfl
    simp [EInt.eq]

theorem cv_take_succ {c : List Nat} {i : Nat} (h : i < c.length) : cv (c.take (i + 1)) = cv (c.take i) + B ^ i * c.getD i 0 := by
  rw [List.take_succ_eq_append_getElem h, cv_append, List.length_take, min_eq_left (by omega), List.getD_eq_getElem _ _ h]
  simp [cv_cons, cv_nil]

theorem ltGo_spec {a b : EInt} (oa : Ok a.chunks) (ob : Ok b.chunks) (hl : a.chunks.length = b.chunks.length) :
    ∀ i, i ≤ a.chunks.length → (ltGo a b i = true ↔
      if a.count < 0 then cv (b.chunks.take i) < cv (a.chunks.take i) else cv (a.chunks.take i) < cv (b.chunks.take i)) := by
  intro i
  induction i with
  | zero => intro _; simp [ltGo]
  | succ i ih =>
    intro hi
    have ih := ih (by omega)
    rw [ltGo, cv_take_succ (c := a.chunks) (i := i) (by omega), cv_take_succ (c := b.chunks) (i := i) (by omega)]
    have ta : cv (a.chunks.take i) < B ^ i := by
      have := cv_lt (oa.take i); rwa [List.length_take, min_eq_left (by omega)] at this
    have tb : cv (b.chunks.take i) < B ^ i := by
      have := cv_lt (ob.take i); rwa [List.length_take, min_eq_left (by omega)] at this
    generalize a.chunks.getD i 0 = x at *
    generalize b.chunks.getD i 0 = y at *
    generalize cv (a.chunks.take i) = p at *
    generalize cv (b.chunks.take i) = q at *
    rcases lt_trichotomy x y with h | h | h
    · have : B ^ i * (x + 1) ≤ B ^ i * y := Nat.mul_le_mul_left _ h
      rw [mul_add, mul_one] at this
      rw [if_pos (by omega)]
      by_cases hn : a.count < 0
      · rw [if_pos hn]; simp [hn, h]; omega
      · rw [if_neg hn]; simp [hn, h]; omega
    · subst h
      rw [if_neg (by omega), ih]
      simp
    · have : B ^ i * (y + 1) ≤ B ^ i * x := Nat.mul_le_mul_left _ h
      rw [mul_add, mul_one] at this
      rw [if_pos (by omega)]
      by_cases hn : a.count < 0
      · rw [if_pos hn]; simp [hn, show ¬ (x < y) by omega]; omega
      · rw [if_neg hn]; simp [hn, show ¬ (x < y) by omega]; omega

theorem lt_spec {N : Nat} {a b : EInt} (ha : EInt.WF N a) (hb : EInt.WF N b) (ka : EInt.Canonical a) (kb : EInt.Canonical b) :
    EInt.lt a b = true ↔ EInt.value a < EInt.value b := by
  have la := ha.1
  have lb := hb.1
  unfold EInt.lt
  by_cases hc : a.count = b.count
  · rw [if_neg (by omega)]
    have hl : a.chunks.length = b.chunks.length := by rw [ha.1, hb.1, hc]
    rw [ltGo_spec ha.2.2 hb.2.2 hl a.size (by unfold EInt.size; omega)]
    rw [List.take_of_length_le (by unfold EInt.size; omega), List.take_of_length_le (by unfold EInt.size; omega)]
    rcases lt_trichotomy a.count 0 with hp | hp | hp
    · rw [if_pos hp, value_negc ha hp, value_negc hb (by omega)]; omega
    · rw [if_neg (by omega), value_zero hp, value_zero (e := b) (by omega), (count_zero_iff ha).mp hp, (count_zero_iff hb).mp (by omega)]; simp
    · rw [if_neg (by omega), value_pos ha hp, value_pos hb (by omega)]; omega
  · rw [if_pos hc]
    have pa : a.chunks ≠ [] → 0 < cv a.chunks := cv_pos ka
    have pb : b.chunks ≠ [] → 0 < cv b.chunks := cv_pos kb
    have na : a.count ≠ 0 → a.chunks ≠ [] := fun h h' => h ((count_zero_iff ha).mpr h')
    have nb : b.count ≠ 0 → b.chunks ≠ [] := fun h h' => h ((count_zero_iff hb).mpr h')
    rw [decide_eq_true_eq]
    rcases lt_trichotomy a.count 0 with sa | sa | sa <;> rcases lt_trichotomy b.count 0 with sb | sb | sb
    · rw [value_negc ha sa, value_negc hb sb]
      rcases lt_or_gt_of_ne hc with h | h
      · have := cv_lt_of_length hb.2.2 ka (by omega); omega
      · have := cv_lt_of_length ha.2.2 kb (by omega); omega
    · rw [value_negc ha sa, value_zero sb]
      have := pa (na (by omega)); omega
    · rw [value_negc ha sa, value_pos hb sb]
      have := pa (na (by omega)); omega
    · rw [value_zero sa, value_negc hb sb]; omega
    · omega
    · rw [value_zero sa, value_pos hb sb]
      have := pb (nb (by omega)); omega
    · rw [value_pos ha sa, value_negc hb sb]; omega
    · rw [value_pos ha sa, value_zero sb]; omega
    · rw [value_pos ha sa, value_pos hb sb]
      rcases lt_or_gt_of_ne hc with h | h
      · have := cv_lt_of_length ha.2.2 kb (by omega); omega
      · have := cv_lt_of_length hb.2.2 ka (by omega); omega

theorem value_inj {N : Nat} {a b : EInt} (ha : EInt.WF N a) (hb : EInt.WF N b) (ka : EInt.Canonical a) (kb : EInt.Canonical b)
    (h : EInt.value a = EInt.value b) : a = b := by
  have e : a.chunks = b.chunks := cv_inj ha.2.2 hb.2.2 ka kb (by rw [← natAbs_value ha, ← natAbs_value hb, h])
  have la := ha.1
  have lb := hb.1
  have hc : a.count = b.count := by
    by_contra hne
    have hop : b.count = -a.count := by rw [e] at la; omega
    have h0 : a.count ≠ 0 := by omega
    have pa := cv_pos ka (fun h' => h0 ((count_zero_iff ha).mpr h'))
    rcases lt_or_gt_of_ne h0 with p | p
    · rw [value_negc ha p, value_pos hb (by omega), ← e] at h; omega
    · rw [value_pos ha p, value_negc hb (by omega), ← e] at h; omega
  obtain ⟨_, _⟩ := a
  obtain ⟨_, _⟩ := b
  simp only at e hc
  rw [e, hc]

/-! ### construction -/

theorem w32_of {z : Int} (h : 0 ≤ z) (h' : z < 2 ^ 32) : (w32 z : Int) = z := by
  unfold w32; rw [Int.emod_eq_of_lt h h']; omega

theorem ofInt32_spec {N : Nat} (hN : 1 ≤ N) {z : Int} (h : -2 ^ 31 < z) (h' : z < 2 ^ 31) :
    ∃ e, ofInt32 z = some e ∧ EInt.WF N e ∧ EInt.Canonical e ∧ EInt.value e = z := by
  have hB : (B : Int) = 2 ^ 32 := rfl
  have one : ∀ y : Int, 0 < y → y < 2 ^ 31 → EInt.WF N ⟨1, [w32 y]⟩ ∧ EInt.Canonical ⟨1, [w32 y]⟩ ∧ EInt.value ⟨1, [w32 y]⟩ = y := by
    intro y y0 y1
    have e := w32_of y0.le (by omega)
    refine ⟨⟨rfl, hN, fun x hx => ?_⟩, ?_, ?_⟩
    · simp only [List.mem_singleton] at hx; subst hx; omega
    · intro _; simp only [List.getLast_singleton]; omega
    · rw [sign_len rfl]; simp only [cv_cons, cv_nil]; push_cast; omega
  unfold ofInt32
  rcases lt_trichotomy z 0 with hz | hz | hz
  · rw [if_neg (by omega), if_pos hz]
    obtain ⟨u, v, w⟩ := one (-z) (by omega) (by omega)
    refine ⟨EInt.neg ⟨1, [w32 (-z)]⟩, ?_, wf_neg u, can_neg v, by rw [value_neg, w]; omega⟩
    have : Machine.i32 (-z) = some (-z) := if_pos (show Machine.I32 (-z) from ⟨by omega, by omega⟩)
    rw [this]; rfl
  · rw [if_neg (by omega), if_neg (by omega)]
    exact ⟨_, rfl, ⟨rfl, Nat.zero_le _, by simp⟩, fun h => absurd rfl h, by rw [hz]; rfl⟩
  · rw [if_pos hz]
    obtain ⟨u, v, w⟩ := one z hz h'
    exact ⟨_, rfl, u, v, w⟩

theorem ofInt64_spec {N : Nat} (hN : 2 ≤ N) {z : Int} (h : -2 ^ 63 < z) (h' : z < 2 ^ 63) :
    ∃ e, ofInt64 z = some e ∧ EInt.WF N e ∧ EInt.Canonical e ∧ EInt.value e = z := by
  have hB : (B : Int) = 2 ^ 32 := rfl
  have one : ∀ y : Int, 0 < y → y < 2 ^ 63 → let e : EInt := ⟨(split64 y).length, split64 y⟩
      EInt.WF N e ∧ EInt.Canonical e ∧ EInt.value e = y := by
    intro y y0 y1
    have e2 : (w32 (y / 2 ^ 32) : Int) = y / 2 ^ 32 := w32_of (by omega) (by omega)
    have e1 : (w32 y : Int) = y % 2 ^ 32 := by unfold w32; omega
    dsimp only
    rw [sign_len rfl]
    unfold split64
    generalize w32 (y / 2 ^ 32) = u at *
    by_cases hh : u = 0
    · rw [if_neg (by simpa using hh)]
      refine ⟨⟨rfl, by simp; omega, fun x hx => ?_⟩, ?_, ?_⟩
      · simp only [List.mem_singleton] at hx; subst hx; omega
      · intro _; simp only [List.getLast_singleton]; omega
      · simp only [cv_cons, cv_nil]; push_cast; omega
    · rw [if_pos hh]
      refine ⟨⟨rfl, by simpa using hN, fun x hx => ?_⟩, ?_, ?_⟩
      · simp only [List.mem_cons, List.not_mem_nil, or_false] at hx
        rcases hx with rfl | rfl <;> omega
      · intro _; exact hh
      · simp only [cv_cons, cv_nil]; push_cast; rw [hB]; omega
  unfold ofInt64
  rcases lt_trichotomy z 0 with hz | hz | hz
  · rw [if_neg (by omega), if_pos hz]
    obtain ⟨u, v, w⟩ := one (-z) (by omega) (by omega)
    refine ⟨EInt.neg ⟨(split64 (-z)).length, split64 (-z)⟩, ?_, wf_neg u, can_neg v, by rw [value_neg, w]; omega⟩
    have : Machine.i64 (-z) = some (-z) := if_pos (show Machine.I64 (-z) from ⟨by omega, by omega⟩)
    rw [this]; rfl
  · rw [if_neg (by omega), if_neg (by omega)]
    exact ⟨_, rfl, ⟨rfl, Nat.zero_le _, by simp⟩, fun h => absurd rfl h, by rw [hz]; rfl⟩
  · rw [if_pos hz]
    obtain ⟨u, v, w⟩ := one z hz h'
    exact ⟨_, rfl, u, v, w⟩

end Verif.ExtInt
