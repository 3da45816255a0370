import Verif.Proofs.BooleanMap
/-! The refinement theorem for `processInterval`. -/
namespace Verif.BooleanOp

variable {T : Type}

theorem eq_nil_or_snoc (X : Map T) : X = [] ∨ ∃ Y p, X = Y ++ [p] := by
  rcases List.eq_nil_or_concat X with h | ⟨Y, p, h⟩
  · exact Or.inl h
  · exact Or.inr ⟨Y, p, by simpa using h⟩

theorem lastVal_snoc {d : T} {Y : Map T} {p : Int × T} : lastVal d (Y ++ [p]) = p.2 := by
  rw [lastVal_append]; rfl

theorem splitHigh_eq [Zero T] {X C : Map T} {n : It} {hi : Int} (hs : Sorted (X ++ C))
    (hX : KLt X hi) (hC : KGe C hi) (hne : X ++ C ≠ []) :
    ∃ w C' n', splitHigh ⟨X ++ C, n⟩ (beginIt C) hi = some (⟨X ++ (hi, w) :: C', n'⟩, hi) ∧
      KGt C' hi ∧ (∀ d y, valD d ((hi, w) :: C') y = if y < hi then d else
        valD (lastVal 0 X) C y) ∧
      (C = (hi, w) :: C' ∨ (C = C' ∧ w = lastVal 0 X)) := by
  cases C with
  | cons e C =>
    by_cases he : e.1 = hi
    · refine ⟨e.2, C, n, ?_, ?_, ?_, Or.inl (by rw [← he])⟩
      · obtain ⟨k, v⟩ := e
        simp only at he; subst he
        simp [splitHigh, beginIt]
      · rw [sorted_append, sorted_cons] at hs; rw [← he]; exact hs.2.1.1
      · intro d y; simp only [valD, ← he]; split <;> rfl
    · have hlt : hi < e.1 := by have := hC e (by simp); omega
      have hgt : KGt (e :: C) hi := by
        intro x hx
        rcases List.mem_cons.mp hx with rfl | hx
        · exact hlt
        · rw [sorted_append, sorted_cons] at hs; have := hs.2.1.1 x hx; omega
      rcases eq_nil_or_snoc X with rfl | ⟨Y, p, rfl⟩
      · refine ⟨0, e :: C, some hi, ?_, hgt, ?_, Or.inr ⟨rfl, rfl⟩⟩
        · have : insertKV (e :: C) hi 0 = (hi, 0) :: e :: C := insertKV_append (A := []) (by simp [KLt]) hgt
          simp [splitHigh, beginIt, hlt, insert, validIt, this]
        · intro d y; simp only [valD, lastVal]
      · have hb : some e.1 ≠ beginIt (Y ++ [p] ++ e :: C) := by
          cases Y with
          | nil =>
            rw [sorted_append] at hs
            have := hs.2.2 p (by simp) e (by simp)
            simp [beginIt]; omega
          | cons q Y =>
            rw [sorted_append] at hs
            have := hs.2.2 q (by simp) e (by simp)
            simp [beginIt]; omega
        have hp : prevIt (Y ++ [p] ++ e :: C) (some e.1) = some p.1 := by
          have := prevIt_append (A := Y) (R := e :: C) (p := p) (by simpa using hs)
          simpa [beginIt] using this
        have hv : valAt (Y ++ [p] ++ e :: C) p.1 = some p.2 := by
          have : KLt Y p.1 := by
            intro x hx; rw [sorted_append, sorted_append] at hs; exact hs.1.2.2 x hx p (by simp)
          have := valAt_append (R := e :: C) (v := p.2) this
          simpa using this
        refine ⟨p.2, e :: C, some hi, ?_, hgt, ?_, Or.inr ⟨rfl, lastVal_snoc.symm⟩⟩
        · simp only [splitHigh]
          rw [if_pos (by simp [beginIt, hlt])]
          rw [show beginIt (e :: C) = some e.1 from rfl, if_pos hb, hp]
          simp only [Option.bind_eq_bind, Option.bind_some, hv, insert]
          rw [if_pos (validIt_mem (e := p) (by simp)), insertKV_append hX hgt]
          rfl
        · intro d y; rw [lastVal_snoc]; rfl
  | nil =>
    rw [List.append_nil] at hs hne
    rcases eq_nil_or_snoc X with rfl | ⟨Y, p, rfl⟩
    · exact absurd rfl hne
    · have hb : (none : It) ≠ beginIt (Y ++ [p]) := by
        cases Y <;> simp [beginIt]
      have hp : prevIt (Y ++ [p]) none = some p.1 := by
        simpa [beginIt] using prevIt_append (A := Y) (R := []) (p := p) (by simpa using hs)
      have hv : valAt (Y ++ [p]) p.1 = some p.2 := by
        have : KLt Y p.1 := by
          intro x hx; rw [sorted_append] at hs; exact hs.2.2 x hx p (by simp)
        have := valAt_append (R := []) (v := p.2) this
        simpa using this
      refine ⟨p.2, [], some hi, ?_, by simp [KGt], ?_, Or.inr ⟨rfl, lastVal_snoc.symm⟩⟩
      · simp only [splitHigh]
        rw [List.append_nil, if_pos (by simp [beginIt])]
        rw [show beginIt ([] : Map T) = none from rfl, if_pos hb, hp]
        simp only [Option.bind_eq_bind, Option.bind_some, hv, insert]
        rw [if_pos (validIt_mem (e := p) (by simp))]
        have := insertKV_append (A := Y ++ [p]) (R := []) (v := p.2) hX (by simp [KGt])
        rw [List.append_nil] at this
        rw [this]; rfl
      · intro d y; rw [lastVal_snoc]; rfl

/-- `splitLow` at an element that is preceded by exactly the entries `X`. -/
theorem splitLow_gen [Zero T] {X R : Map T} {n : It} {lo : Int} {e : Int × T}
    (hs : Sorted (X ++ e :: R)) (he : lo < e.1) (hins : ∃ A B, X = A ++ B ∧ KLt A lo ∧ KGt B lo ∧
      (B = [] ∨ ∃ k, B = [(k, lastVal 0 A)])) :
    ∃ A B, X = A ++ B ∧ KLt A lo ∧ KGt B lo ∧
      splitLow ⟨X ++ e :: R, n⟩ e.1 lo =
        some (⟨A ++ (lo, lastVal 0 A) :: (B ++ e :: R), some lo⟩, lo) := by
  obtain ⟨A, B, rfl, hA, hB, hBB⟩ := hins
  refine ⟨A, B, rfl, hA, hB, ?_⟩
  have hgt : KGt (B ++ e :: R) lo := by
    intro x hx
    rcases List.mem_append.mp hx with hx | hx
    · exact hB x hx
    · rcases List.mem_cons.mp hx with rfl | hx
      · exact he
      · rw [sorted_append, sorted_cons] at hs; have := hs.2.1.1 x hx; omega
  have hi : ∀ v, insertKV (A ++ B ++ e :: R) lo v = A ++ (lo, v) :: (B ++ e :: R) := by
    intro v; rw [List.append_assoc]; exact insertKV_append hA hgt
  rcases eq_nil_or_snoc (A ++ B) with h0 | ⟨Y, p, h0⟩
  · rw [List.append_eq_nil_iff] at h0
    obtain ⟨rfl, rfl⟩ := h0
    have := hi 0
    simp only [List.nil_append] at this
    simp [splitLow, he, beginIt, insert, validIt, this, lastVal]
  · have hlast : p.2 = lastVal 0 A := by
      have h1 : lastVal 0 (A ++ B) = p.2 := by rw [h0, lastVal_snoc]
      rw [lastVal_append] at h1
      rcases hBB with rfl | ⟨k, rfl⟩
      · exact h1.symm
      · exact h1.symm
    rw [h0] at hs hi ⊢
    have hb : some e.1 ≠ beginIt (Y ++ [p] ++ e :: R) := by
      cases Y with
      | nil =>
        rw [sorted_append] at hs
        have := hs.2.2 p (by simp) e (by simp)
        simp [beginIt]; omega
      | cons q Y =>
        rw [sorted_append] at hs
        have := hs.2.2 q (by simp) e (by simp)
        simp [beginIt]; omega
    have hp : prevIt (Y ++ [p] ++ e :: R) (some e.1) = some p.1 := by
      have := prevIt_append (A := Y) (R := e :: R) (p := p) (by simpa using hs)
      simpa [beginIt] using this
    have hv : valAt (Y ++ [p] ++ e :: R) p.1 = some p.2 := by
      have : KLt Y p.1 := by
        intro x hx; rw [sorted_append, sorted_append] at hs; exact hs.1.2.2 x hx p (by simp)
      have := valAt_append (R := e :: R) (v := p.2) this
      simpa using this
    simp only [splitLow]
    rw [if_pos he, if_pos hb, hp]
    simp only [Option.bind_eq_bind, Option.bind_some, hv, insert]
    rw [if_pos (validIt_mem (e := p) (by simp)), hi, hlast]
    rfl

/-- After both splits the map has elements at `lo` and `hi` and denotes the same function. -/
theorem splits_eq [Zero T] {A B C : Map T} {n : It} {lo hi : Int} (hs : Sorted (A ++ (B ++ C)))
    (hA : KLt A lo) (hB : KGe B lo) (hB2 : KLt B hi) (hC : KGe C hi) (hlt : lo < hi)
    {lowK : Int} (hl : beginIt (B ++ C) = some lowK) (hz : lastVal (0 : T) (A ++ (B ++ C)) = 0) :
    ∃ s1 u B' w C' n', splitHigh ⟨A ++ (B ++ C), n⟩ (beginIt C) hi = some (s1, hi) ∧
      splitLow s1 lowK lo = some (⟨A ++ (lo, u) :: B' ++ (hi, w) :: C', n'⟩, lo) ∧
      Sorted (A ++ (lo, u) :: B' ++ (hi, w) :: C') ∧
      lastVal w C' = 0 ∧
      ∀ y, valD 0 (A ++ (lo, u) :: B' ++ (hi, w) :: C') y = valD 0 (A ++ (B ++ C)) y := by
  have hs1 := sorted_append.mp hs
  have hs2 := sorted_append.mp hs1.2.1
  have hX : KLt (A ++ B) hi := by
    intro x hx
    rcases List.mem_append.mp hx with hx | hx
    · have := hA x hx; omega
    · exact hB2 x hx
  have hne : A ++ B ++ C ≠ [] := by
    intro h
    simp only [List.append_eq_nil_iff] at h
    obtain ⟨⟨rfl, rfl⟩, rfl⟩ := h
    simp [beginIt] at hl
  obtain ⟨w, C', n', e1, hC', hval, hcase⟩ := splitHigh_eq (n := n) (by simpa using hs) hX hC hne
  rw [List.append_assoc] at e1
  have hlast : lastVal w C' = 0 := by
    rcases hcase with rfl | ⟨rfl, rfl⟩
    · simpa [lastVal_append, lastVal] using hz
    · simpa [lastVal_append] using hz
  have hsC : Sorted ((hi, w) :: C') := by
    rw [sorted_cons]; refine ⟨hC', ?_⟩
    rcases hcase with rfl | ⟨rfl, rfl⟩
    · exact (sorted_cons.mp hs2.2.1).2
    · exact hs2.2.1
  have hABC : Sorted (A ++ B ++ (hi, w) :: C') := by
    rw [sorted_append]
    refine ⟨?_, hsC, ?_⟩
    · rw [sorted_append]; exact ⟨hs1.1, hs2.1, fun a ha b hb => hs1.2.2 a ha b (by simp [hb])⟩
    · intro a ha b hb
      have h1 := hX a ha
      rcases List.mem_cons.mp hb with rfl | hb
      · exact h1
      · have := hC' b hb; omega
  have hvalw : ∀ y, valD 0 (A ++ B ++ (hi, w) :: C') y = valD 0 (A ++ (B ++ C)) y := by
    intro y
    by_cases hy : y < hi
    · rw [valD_append_left (Y := (hi, w) :: C'), ← List.append_assoc]
      · by_cases h : ∃ e ∈ C, e.1 ≤ y
        · obtain ⟨e, he, hey⟩ := h
          have := hC e he; omega
        · push Not at h
          rw [valD_append_left h]
      · intro e he
        rcases List.mem_cons.mp he with rfl | he
        · exact hy
        · have := hC' e he; omega
    · have hle : ∀ e ∈ A ++ B, e.1 ≤ y := fun e he => by have := hX e he; omega
      rw [valD_append_right hle, hval, if_neg hy, ← List.append_assoc, valD_append_right hle]
  -- now the low split
  cases B with
  | cons b B =>
    simp only [List.cons_append, beginIt, List.head?_cons, Option.map_some, Option.some.injEq] at hl
    subst hl
    by_cases hb : b.1 = lo
    · refine ⟨_, b.2, B, w, C', n', e1, ?_, ?_, hlast, ?_⟩
      · simp only [splitLow]
        rw [if_neg (by omega), ← hb]; rfl
      · rw [← hb]; exact hABC
      · intro y; rw [← hb]; exact hvalw y
    · have hlb : lo < b.1 := by have := hB b (by simp); omega
      obtain ⟨A1, B1, hAB, hA1, hB1, e2⟩ := splitLow_gen (X := A) (R := B ++ (hi, w) :: C') (n := n') (lo := lo)
        (e := b) (by simpa using hABC) hlb (⟨A, [], by simp, hA, by simp [KGt], Or.inl rfl⟩)
      have hB1n : B1 = [] := by
        cases B1 with
        | nil => rfl
        | cons q B1 =>
          have h1 := hB1 q (by simp)
          have h2 := hA q (by rw [hAB]; simp)
          omega
      subst hB1n
      rw [List.append_nil] at hAB
      subst hAB
      simp only [List.nil_append] at e2
      refine ⟨_, lastVal 0 A, b :: B, w, C', some lo, e1, ?_, ?_, hlast, ?_⟩
      · simpa using e2
      · simp only [List.append_assoc, List.cons_append] at hABC ⊢
        have h3 := sorted_append.mp hABC
        rw [sorted_append, sorted_cons]
        refine ⟨h3.1, ⟨?_, h3.2.1⟩, ?_⟩
        · intro x hx
          rcases List.mem_cons.mp hx with rfl | hx
          · exact hlb
          · have := (sorted_cons.mp h3.2.1).1 x hx; omega
        · intro a ha x hx
          rcases List.mem_cons.mp hx with rfl | hx
          · exact hA a ha
          · exact h3.2.2 a ha x hx
      · intro y
        rw [← hvalw y]
        simp only [List.append_assoc, List.cons_append]
        by_cases hy : y < lo
        · have g1 : KGt (b :: (B ++ (hi, w) :: C')) y := by
            intro x hx
            simp only [List.append_assoc, List.cons_append] at hABC
            rcases List.mem_cons.mp hx with rfl | hx
            · omega
            · have := (sorted_cons.mp (sorted_append.mp hABC).2.1).1 x hx; omega
          rw [valD_append_left, valD_append_left g1]
          intro x hx
          rcases List.mem_cons.mp hx with rfl | hx
          · exact hy
          · exact g1 x hx
        · have hle : ∀ e ∈ A, e.1 ≤ y := fun e he => by have := hA e he; omega
          rw [valD_append_right hle, valD_append_right hle, valD, if_neg hy]
  | nil =>
    simp only [List.nil_append, List.append_nil] at *
    cases C with
    | nil => simp [beginIt] at hl
    | cons c C =>
      simp only [beginIt, List.head?_cons, Option.map_some, Option.some.injEq] at hl
      subst hl
      have hlc : lo < c.1 := by have := hC c (by simp); omega
      have : splitLow ⟨A ++ (hi, w) :: C', n'⟩ c.1 lo =
          some (⟨A ++ (lo, lastVal 0 A) :: (hi, w) :: C', some lo⟩, lo) := by
        rcases hcase with h | ⟨h, hw⟩
        · obtain ⟨A1, B1, hAB, hA1, hB1, e2⟩ := splitLow_gen (X := A) (R := C') (n := n') (lo := lo)
            (e := (hi, w)) hABC hlt (⟨A, [], by simp, hA, by simp [KGt], Or.inl rfl⟩)
          have hB1n : B1 = [] := by
            cases B1 with
            | nil => rfl
            | cons q B1 =>
              have h1 := hB1 q (by simp)
              have h2 := hA q (by rw [hAB]; simp)
              omega
          subst hB1n
          rw [List.append_nil] at hAB
          subst hAB
          simp only [List.cons.injEq] at h
          rw [h.1]
          simpa using e2
        · subst h
          obtain ⟨A1, B1, hAB, hA1, hB1, e2⟩ := splitLow_gen (X := A ++ [(hi, w)]) (R := C) (n := n') (lo := lo)
            (e := c) (by simpa using hABC) hlc
            (⟨A, [(hi, w)], rfl, hA, by intro x hx; simp at hx; rw [hx]; exact hlt, Or.inr ⟨hi, by rw [hw]⟩⟩)
          have key : A1 = A ∧ B1 = [(hi, w)] := by
            rcases eq_nil_or_snoc B1 with rfl | ⟨Y, p, rfl⟩
            · rw [List.append_nil] at hAB
              have := hA1 (hi, w) (by rw [← hAB]; simp)
              simp only at this; omega
            · rw [← List.append_assoc] at hAB
              have h1 := (List.append_inj' hAB rfl)
              obtain ⟨h1, h2⟩ := h1
              simp only [List.cons.injEq, and_true] at h2
              cases Y with
              | nil => simp at h1; exact ⟨h1.symm, by simp [h2]⟩
              | cons q Y =>
                have g1 := hB1 q (by simp)
                have g2 := hA q (by rw [h1]; simp)
                omega
          obtain ⟨rfl, rfl⟩ := key
          simpa using e2
      refine ⟨_, lastVal 0 A, [], w, C', some lo, e1, ?_, ?_, hlast, ?_⟩
      · simpa using this
      · simp only [List.append_assoc, List.cons_append, List.nil_append]
        have h3 := sorted_append.mp hABC
        rw [sorted_append, sorted_cons]
        refine ⟨h3.1, ⟨?_, h3.2.1⟩, ?_⟩
        · intro x hx
          rcases List.mem_cons.mp hx with rfl | hx
          · exact hlt
          · have := hC' x hx; simp only; omega
        · intro a ha x hx
          rcases List.mem_cons.mp hx with rfl | hx
          · exact hA a ha
          · exact h3.2.2 a ha x hx
      · intro y
        rw [← hvalw y]
        simp only [List.append_assoc, List.cons_append, List.nil_append]
        by_cases hy : y < lo
        · have g1 : KGt ((hi, w) :: C') y := by
            intro x hx
            rcases List.mem_cons.mp hx with rfl | hx
            · simp only; omega
            · have := hC' x hx; omega
          rw [valD_append_left, valD_append_left g1]
          intro x hx
          rcases List.mem_cons.mp hx with rfl | hx
          · exact hy
          · exact g1 x hx
        · have hle : ∀ e ∈ A, e.1 ≤ y := fun e he => by have := hA e he; omega
          rw [valD_append_right hle, valD_append_right hle, valD, if_neg hy]

theorem mergeLow_eq [Zero T] [DecidableEq T] {A B R : Map T} {lo : Int} {u : T}
    (hs : Sorted (A ++ (lo, u) :: B ++ R)) :
    ∃ B2, mergeLow (A ++ (lo, u) :: B ++ R) lo = some (A ++ B2 ++ R) ∧ A ++ B2 ≠ [] ∧
      (B2 = (lo, u) :: B ∨ B2 = B) ∧
      ∀ y, valD 0 (A ++ B2 ++ R) y = valD 0 (A ++ (lo, u) :: B ++ R) y := by
  have hs' := hs
  simp only [List.append_assoc, List.cons_append] at hs
  have hs1 := sorted_append.mp hs
  have hA : KLt A lo := fun e he => hs1.2.2 e he (lo, u) (by simp)
  have hR := (sorted_cons.mp hs1.2.1).1
  rcases eq_nil_or_snoc A with rfl | ⟨Y, p, rfl⟩
  · exact ⟨(lo, u) :: B, by simp [mergeLow, beginIt], by simp, Or.inl rfl, fun y => rfl⟩
  · have hb : some lo ≠ beginIt (Y ++ [p] ++ (lo, u) :: B ++ R) := by
      cases Y with
      | nil => have := hA p (by simp); simp [beginIt]; omega
      | cons q Y => have := hA q (by simp); simp [beginIt]; omega
    have hp : prevIt (Y ++ [p] ++ (lo, u) :: B ++ R) (some lo) = some p.1 := by
      have := prevIt_append (A := Y) (R := (lo, u) :: (B ++ R)) (p := p) (by simpa using hs)
      simpa [beginIt] using this
    have hv : valAt (Y ++ [p] ++ (lo, u) :: B ++ R) p.1 = some p.2 := by
      have : KLt Y p.1 := by
        intro x hx; exact (sorted_append.mp hs1.1).2.2 x hx p (by simp)
      have := valAt_append (R := (lo, u) :: (B ++ R)) (v := p.2) this
      simpa using this
    have hv2 : valAt (Y ++ [p] ++ (lo, u) :: B ++ R) lo = some u := by
      have := valAt_append (R := B ++ R) (v := u) hA
      simpa using this
    by_cases hpu : p.2 = u
    · refine ⟨B, ?_, by simp, Or.inr rfl, ?_⟩
      · simp only [mergeLow]
        rw [if_pos hb, hp]
        simp only [Option.bind_eq_bind, Option.bind_some, hv, hv2, if_pos hpu]
        have := eraseK_append (R := B ++ R) (v := u) hA hR
        simp only [List.append_assoc, List.cons_append] at this ⊢
        rw [this]; rfl
      · intro y
        rw [List.append_assoc (Y ++ [p]) B R, List.append_assoc (Y ++ [p]) ((lo, u) :: B) R,
          List.cons_append]
        by_cases hy : y < lo
        · have g1 : KGt (B ++ R) y := fun x hx => by have := hR x hx; simp only at this; omega
          rw [valD_append_left g1, valD_append_left (X := Y ++ [p]) (Y := (lo, u) :: (B ++ R))]
          intro x hx
          rcases List.mem_cons.mp hx with rfl | hx
          · exact hy
          · exact g1 x hx
        · have hle : ∀ e ∈ Y ++ [p], e.1 ≤ y := fun e he => by have := hA e he; omega
          rw [valD_append_right hle, valD_append_right hle, valD, if_neg hy, lastVal_snoc, hpu]
    · refine ⟨(lo, u) :: B, ?_, by simp, Or.inl rfl, fun y => rfl⟩
      simp only [mergeLow]
      rw [if_pos hb, hp]
      simp only [Option.bind_eq_bind, Option.bind_some, hv, hv2, if_neg hpu]
      rfl

theorem mergeHigh_eq [Zero T] [DecidableEq T] {X C : Map T} {hi : Int} {w : T}
    (hs : Sorted (X ++ (hi, w) :: C)) (hX : X ≠ []) (hz : lastVal w C = 0) :
    ∃ C2, mergeHigh (X ++ (hi, w) :: C) hi = some ⟨X ++ C2, beginIt C2⟩ ∧
      Sorted (X ++ C2) ∧ lastVal (0 : T) (X ++ C2) = 0 ∧
      ∀ y, valD 0 (X ++ C2) y = valD 0 (X ++ (hi, w) :: C) y := by
  have hs1 := sorted_append.mp hs
  have hA : KLt X hi := fun e he => hs1.2.2 e he (hi, w) (by simp)
  have hR := (sorted_cons.mp hs1.2.1).1
  rcases eq_nil_or_snoc X with rfl | ⟨Y, p, rfl⟩
  · exact absurd rfl hX
  · have hb : some hi ≠ beginIt (Y ++ [p] ++ (hi, w) :: C) := by
      cases Y with
      | nil => have := hA p (by simp); simp [beginIt]; omega
      | cons q Y => have := hA q (by simp); simp [beginIt]; omega
    have hp : prevIt (Y ++ [p] ++ (hi, w) :: C) (some hi) = some p.1 := by
      have := prevIt_append (A := Y) (R := (hi, w) :: C) (p := p) (by simpa using hs)
      simpa [beginIt] using this
    have hY : KLt Y p.1 := by
      intro x hx; exact (sorted_append.mp hs1.1).2.2 x hx p (by simp)
    have hv : valAt (Y ++ [p] ++ (hi, w) :: C) p.1 = some p.2 := by
      have := valAt_append (R := (hi, w) :: C) (v := p.2) hY
      simpa using this
    have hv2 : valAt (Y ++ [p] ++ (hi, w) :: C) hi = some w := valAt_append hA
    by_cases hpu : p.2 = w
    · refine ⟨C, ?_, ?_, ?_, ?_⟩
      · simp only [mergeHigh]
        rw [if_pos hb, hp]
        simp only [Option.bind_eq_bind, Option.bind_some, hv, hv2, if_pos hpu]
        rw [eraseK_append hA hR]
        have := nextIt_append (R := C) (v := p.2) hY
        simp only [List.append_assoc, List.cons_append, List.nil_append] at this ⊢
        rw [this]; rfl
      · rw [sorted_append]
        exact ⟨hs1.1, (sorted_cons.mp hs1.2.1).2, fun a ha b hb => hs1.2.2 a ha b (by simp [hb])⟩
      · rw [lastVal_append, lastVal_snoc, hpu]; exact hz
      · intro y
        by_cases hy : y < hi
        · have g1 : KGt C y := fun x hx => by have := hR x hx; simp only at this; omega
          rw [valD_append_left g1, valD_append_left (X := Y ++ [p]) (Y := (hi, w) :: C)]
          intro x hx
          rcases List.mem_cons.mp hx with rfl | hx
          · exact hy
          · exact g1 x hx
        · have hle : ∀ e ∈ Y ++ [p], e.1 ≤ y := fun e he => by have := hA e he; omega
          rw [valD_append_right hle, valD_append_right hle, valD, if_neg hy, lastVal_snoc, hpu]
    · refine ⟨(hi, w) :: C, ?_, hs, by rw [lastVal_append]; exact hz, fun y => rfl⟩
      simp only [mergeHigh]
      rw [if_pos hb, hp]
      simp only [Option.bind_eq_bind, Option.bind_some, hv, hv2, if_neg hpu]
      rfl

theorem insert_of_valid {s : State T} {p : Int} {c : T} (h : validIt s.scan s.next = true) :
    insert s p c = some ⟨insertKV s.scan p c, some p⟩ := by
  rw [insert, if_pos h]

theorem processInterval_spec [AddCommMonoid T] [DecidableEq T] (pos : T → Bool) (s : State T)
    (lo hi : Int) (δ : T) (hs : Sorted s.scan) (hz : lastVal (0 : T) s.scan = 0) (hn : NextOK s lo)
    (hlt : lo < hi) :
    ∃ s' out, processInterval pos s lo hi δ = some (s', out) ∧
      Sorted s'.scan ∧ lastVal (0 : T) s'.scan = 0 ∧ NextOK s' hi ∧
      (∀ y, valD 0 s'.scan y = if lo ≤ y ∧ y < hi then valD 0 s.scan y + δ else valD 0 s.scan y) ∧
      PiecesOK out lo hi ∧
      (∀ y, psum out y = ind (pos (valD 0 s'.scan y)) - ind (pos (valD 0 s.scan y))) := by
  obtain ⟨A, R, hm, hA, hR⟩ := split_at s.scan hs lo
  have hsR : Sorted R := by rw [hm, sorted_append] at hs; exact hs.2.1
  obtain ⟨B, C, rfl, hB2, hC⟩ := split_at R hsR hi
  have hB : KGe B lo := fun e he => hR e (by simp [he])
  have e1 := lookup_eq hn hm hs hA hR
  have e2 : lookup ⟨s.scan, beginIt (B ++ C)⟩ hi = (beginIt C, ⟨s.scan, beginIt C⟩) := by
    apply lookup_eq (A := A ++ B)
    · exact ⟨A, B ++ C, hm, rfl, fun e he => by have := hA e he; omega⟩
    · simp [hm]
    · exact hs
    · intro x hx
      rcases List.mem_append.mp hx with hx | hx
      · have := hA x hx; omega
      · exact hB2 x hx
    · exact hC
  unfold processInterval
  rw [e1]
  simp only
  rw [e2]
  simp only
  rcases hl : beginIt (B ++ C) with _ | lowK
  · -- past the end
    have hBC : B ++ C = [] := by
      cases h : B ++ C with
      | nil => rfl
      | cons e r => rw [h] at hl; simp [beginIt] at hl
    obtain ⟨rfl, rfl⟩ := List.append_eq_nil_iff.mp hBC
    simp only [List.append_nil] at hm
    have i1 : insertKV A lo δ = A ++ [(lo, δ)] := by
      have := insertKV_append (R := []) (v := δ) hA (by simp [KGt])
      simpa using this
    have hA2 : KLt (A ++ [(lo, δ)]) hi := by
      intro x hx
      rcases List.mem_append.mp hx with hx | hx
      · have := hA x hx; omega
      · simp at hx; rw [hx]; exact hlt
    have i2 : insertKV (A ++ [(lo, δ)]) hi (0 : T) = A ++ [(lo, δ)] ++ [(hi, 0)] := by
      have := insertKV_append (R := []) (v := (0 : T)) hA2 (by simp [KGt])
      simpa using this
    have hv0 : ∀ y, lo ≤ y → valD 0 s.scan y = 0 := by
      intro y hy
      rw [valD_of_le, hz]
      intro e he; rw [hm] at he; have := hA e he; omega
    refine ⟨⟨A ++ [(lo, δ)] ++ [(hi, 0)], some hi⟩, evaluate pos lo hi 0 δ, ?_, ?_, ?_, ?_, ?_, ?_, ?_⟩
    · rw [insert_of_valid (s := ⟨s.scan, beginIt []⟩) rfl]
      simp only [hm, i1, Option.bind_eq_bind, Option.bind_some]
      rw [insert_of_valid (validIt_mem (e := (lo, δ)) (by simp))]
      simp only [Option.bind_some, i2]; rfl
    · rw [sorted_append, sorted_append]
      rw [hm] at hs
      refine ⟨⟨hs, by simp [Sorted], ?_⟩, by simp [Sorted], ?_⟩
      · intro a ha b hb; simp at hb; rw [hb]; exact hA a ha
      · intro a ha b hb; simp at hb; rw [hb]; exact hA2 a ha
    · exact lastVal_snoc
    · exact ⟨A ++ [(lo, δ)], [(hi, 0)], rfl, rfl, hA2⟩
    · intro y
      simp only
      by_cases c1 : y < lo
      · rw [if_neg (by omega), List.append_assoc, valD_append_left, hm]
        intro x hx; simp at hx; rcases hx with rfl | rfl
        · exact c1
        · simp only; omega
      · have hle : ∀ e ∈ A, e.1 ≤ y := fun e he => by have := hA e he; omega
        rw [List.append_assoc, valD_append_right hle]
        simp only [List.cons_append, List.nil_append, valD, if_neg c1]
        rw [hv0 y (by omega)]
        by_cases c2 : y < hi
        · rw [if_pos c2, if_pos (by omega), zero_add]
        · rw [if_neg c2, if_neg (by omega)]
    · exact (evaluate_ok pos hlt 0 δ).1
    · intro y
      rw [(evaluate_ok pos hlt 0 δ).2]
      simp only
      by_cases c1 : y < lo
      · rw [if_neg (by omega), List.append_assoc, valD_append_left, hm]
        · ring
        · intro x hx; simp at hx; rcases hx with rfl | rfl
          · exact c1
          · simp only; omega
      · have hle : ∀ e ∈ A, e.1 ≤ y := fun e he => by have := hA e he; omega
        rw [List.append_assoc, valD_append_right hle]
        simp only [List.cons_append, List.nil_append, valD, if_neg c1]
        rw [hv0 y (by omega)]
        by_cases c2 : y < hi
        · rw [if_pos c2, if_pos (by omega)]
        · rw [if_neg c2, if_neg (by omega)]; ring
  · rw [hm] at hs hz
    obtain ⟨s1, u, B', w, C', n', f1, f2, f3, f4, f5⟩ :=
      splits_eq (n := beginIt C) hs hA hB hB2 hC hlt hl hz
    have hs3 := sorted_append.mp f3
    have hs4 := sorted_append.mp hs3.1
    have hAhi : KLt (A ++ (lo, u) :: B') hi := fun e he => hs3.2.2 e he (hi, w) (by simp)
    have hB' : KGt B' lo := (sorted_cons.mp hs4.2.1).1
    have f6 := walk_eq pos δ hi w C' B' A lo u ((A ++ (lo, u) :: B' ++ (hi, w) :: C').length + 1) [] f3
      (by simp; omega)
    have hmap : ∀ (e : Int × T) (L : Map T), e ∈ L.map (fun e => (e.1, e.2 + δ)) → ∃ x ∈ L, x.1 = e.1 := by
      intro e L he
      obtain ⟨x, hx, rfl⟩ := List.mem_map.mp he
      exact ⟨x, hx, rfl⟩
    have hsm : Sorted (A ++ ((lo, u) :: B').map (fun e => (e.1, e.2 + δ)) ++ (hi, w) :: C') := by
      rw [sorted_append, sorted_append]
      refine ⟨⟨hs4.1, ?_, ?_⟩, hs3.2.1, ?_⟩
      · exact List.Pairwise.map _ (fun a b h => h) hs4.2.1
      · intro a ha b hb
        obtain ⟨x, hx, hxe⟩ := hmap b _ hb
        rw [← hxe]; exact hs4.2.2 a ha x hx
      · intro a ha b hb
        rcases List.mem_append.mp ha with ha | ha
        · exact hs3.2.2 a (by simp [ha]) b hb
        · obtain ⟨x, hx, hxe⟩ := hmap a _ ha
          rw [← hxe]; exact hs3.2.2 x (List.mem_append_right _ hx) b hb
    obtain ⟨B2, g1, g2, g3, g4⟩ := mergeLow_eq (A := A) (B := B'.map (fun e => (e.1, e.2 + δ)))
      (R := (hi, w) :: C') (lo := lo) (u := u + δ) (by simpa using hsm)
    have hsB2 : Sorted (A ++ B2 ++ (hi, w) :: C') := by
      rcases g3 with rfl | rfl
      · simpa using hsm
      · simp only [List.append_assoc, List.map_cons, List.cons_append] at hsm ⊢
        have h := sorted_append.mp hsm
        rw [sorted_append]
        exact ⟨h.1, (sorted_cons.mp h.2.1).2, fun a ha b hb => h.2.2 a ha b (by simp at hb ⊢; right; exact hb)⟩
    obtain ⟨C2, k1, k2, k3, k4⟩ := mergeHigh_eq hsB2 g2 f4
    have hX2 : KLt (A ++ B2) hi := fun e he => (sorted_append.mp hsB2).2.2 e he (hi, w) (by simp)
    have hval : ∀ y, valD 0 (A ++ B2 ++ C2) y =
        if lo ≤ y ∧ y < hi then valD 0 s.scan y + δ else valD 0 s.scan y := by
      intro y
      rw [k4, g4, hm, ← f5 y]
      have hC' : KGt C' hi := (sorted_cons.mp hs3.2.1).1
      have hl1 : lastVal (0 : T) (A ++ (lo, u) :: B') = lastVal (0 : T) (A ++ (lo, u) :: B') := rfl
      by_cases c1 : y < lo
      · rw [if_neg (by omega), List.append_assoc, List.append_assoc, valD_append_left, valD_append_left]
        · intro x hx
          simp only [List.cons_append] at hx
          rcases List.mem_cons.mp hx with rfl | hx
          · exact c1
          · rcases List.mem_append.mp hx with hx | hx
            · have := hB' x hx; omega
            · rcases List.mem_cons.mp hx with rfl | hx
              · simp only; omega
              · have := hC' x hx; omega
        · intro x hx
          simp only [List.cons_append] at hx
          rcases List.mem_cons.mp hx with rfl | hx
          · exact c1
          · rcases List.mem_append.mp hx with hx | hx
            · obtain ⟨z, hz, hze⟩ := hmap x _ hx
              have := hB' z hz; omega
            · rcases List.mem_cons.mp hx with rfl | hx
              · simp only; omega
              · have := hC' x hx; omega
      · have hle : ∀ e ∈ A, e.1 ≤ y := fun e he => by have := hA e he; omega
        rw [List.append_assoc, List.append_assoc, valD_append_right hle, valD_append_right hle]
        simp only [List.cons_append, valD, if_neg c1]
        by_cases c2 : y < hi
        · have hg : KGt ((hi, w) :: C') y := by
            intro x hx
            rcases List.mem_cons.mp hx with rfl | hx
            · exact c2
            · have := hC' x hx; omega
          rw [valD_append_left hg, valD_append_left hg, valD_map_add, if_pos (by omega)]
        · have h1 : ∀ e ∈ B', e.1 ≤ y := fun e he => by have := hAhi e (by simp [he]); omega
          have h2 : ∀ e ∈ B'.map (fun e => (e.1, e.2 + δ)), e.1 ≤ y := by
            intro e he
            obtain ⟨z, hz, hze⟩ := hmap e _ he
            have := h1 z hz; omega
          rw [valD_append_right h1, valD_append_right h2, if_neg (by omega)]
          simp only [valD, if_neg c2]
    obtain ⟨p1, p2⟩ := piecesOf_ok pos δ B' lo u (lastVal 0 A) hs4.2.1
      (fun e he => hAhi e (List.mem_append_right _ he))
    refine ⟨⟨A ++ B2 ++ C2, beginIt C2⟩, piecesOf pos δ hi ((lo, u) :: B'), ?_, k2, k3, ?_, hval, p1, ?_⟩
    · simp only [hm, f1, Option.bind_eq_bind, Option.bind_some, f2, f6]
      rw [show A ++ ((lo, u) :: B').map (fun e => (e.1, e.2 + δ)) ++ (hi, w) :: C' =
        A ++ (lo, u + δ) :: B'.map (fun e => (e.1, e.2 + δ)) ++ (hi, w) :: C' from by simp]
      rw [g1, Option.bind_some, k1]
      simp
    · exact ⟨A ++ B2, C2, rfl, rfl, hX2⟩
    · intro y
      rw [p2, hval]
      by_cases c : lo ≤ y ∧ y < hi
      · rw [if_pos c, if_pos c]
        have : valD 0 s.scan y = valD (lastVal 0 A) ((lo, u) :: B') y := by
          rw [hm, ← f5 y]
          have hle : ∀ e ∈ A, e.1 ≤ y := fun e he => by have := hA e he; omega
          rw [List.append_assoc, valD_append_right hle, valD_append_left]
          intro x hx
          rcases List.mem_cons.mp hx with rfl | hx
          · exact c.2
          · have := (sorted_cons.mp hs3.2.1).1 x hx; simp only at this; omega
        rw [this]
      · rw [if_neg c, if_neg c]; ring

end Verif.BooleanOp
