import Verif.Proofs.FormColor
/-!
# The lists of edges at a point
-/
namespace Verif.ArbForm
open Verif.Arb Verif.Contains Verif.Spec Verif.Spec.Arb

theorem sorted_split {α : Type} {R : α → α → Prop} (P : α → Bool) : ∀ l : List α, l.Pairwise R → (∀ a ∈ l, ∀ b ∈ l, R a b → P a = true → P b = true) →
    l = l.filter (fun a => !P a) ++ l.filter P
  | [], _, _ => rfl
  | a :: r, h, hP => by
    obtain ⟨h1, h2⟩ := List.pairwise_cons.1 h
    have ih := sorted_split P r h2 (fun b hb c hc => hP b (List.mem_cons_of_mem _ hb) c (List.mem_cons_of_mem _ hc))
    by_cases c : P a = true
    · have hall : ∀ b ∈ a :: r, P b = true := by
        intro b hb
        rcases List.mem_cons.1 hb with rfl | hb
        · exact c
        · exact hP a List.mem_cons_self b (List.mem_cons_of_mem _ hb) (h1 b hb) c
      rw [List.filter_eq_self.2 hall, List.filter_eq_nil_iff.2 (by intro b hb; simp [hall b hb]), List.nil_append]
    · rw [List.filter_cons_of_pos (by simp [c]), List.filter_cons_of_neg (by simp [c]), List.cons_append, ← ih]

theorem tw_append {α : Type} {q : α → Bool} : ∀ {A B : List α}, (∀ a ∈ A, q a = true) → (∀ b ∈ B, q b = false) → (A ++ B).takeWhile q = A ∧ (A ++ B).dropWhile q = B
  | [], [], _, _ => ⟨rfl, rfl⟩
  | [], b :: B, _, h => by simp [h b List.mem_cons_self]
  | a :: A, B, h1, h2 => by
    have ih := tw_append (q := q) (A := A) (fun b hb => h1 b (List.mem_cons_of_mem _ hb)) h2
    rw [List.cons_append, List.takeWhile_cons_of_pos (h1 a List.mem_cons_self), List.dropWhile_cons_of_pos (h1 a List.mem_cons_self), ih.1, ih.2]
    exact ⟨rfl, rfl⟩

/-- The scanline seen from a point: below it, at it and above it. -/
theorem lookup {D : List V} (hG : Good (evs D)) {sd : List (V × Nat)} {p : Pt} (hsrt : sd.Pairwise (fun a b => Lt a.1.1 b.1.1))
    (hm : ∀ a ∈ sd, Has (evs D) a.1.1 ∧ LSpan p.1 a.1.1) (hv : Vertex (evs D) p) :
    ∃ A B C, sd = A ++ (B ++ C) ∧ (∀ a ∈ A, Y a.1.1 p.1 < p.2) ∧ (∀ a ∈ B, a.1.1.2 = p) ∧ (∀ a ∈ C, (p.2 : ℚ) < Y a.1.1 p.1) ∧
      (sd.takeWhile (fun a => lessHE p.1 true a.1.1 (p, (p.1, p.2 + 1)))).length = A.length ∧
      (sd.drop A.length).takeWhile (fun a => decide (a.1.1.1 = p ∨ a.1.1.2 = p)) = B := by
  have hmono : sd.Pairwise (fun a b => Y a.1.1 p.1 ≤ Y b.1.1 p.1) := by
    refine List.Pairwise.imp_of_mem ?_ hsrt
    intro a b ha hb hl
    exact lt_le_l hG (hm b hb).1 (hm a ha).1 (hm b hb).2 (hm a ha).2 hl
  have s1 := sorted_split (fun a : V × Nat => decide ((p.2 : ℚ) ≤ Y a.1.1 p.1)) sd hmono (by
    intro a _ b _ hab ha
    simp only [decide_eq_true_eq] at ha ⊢
    linarith)
  have s2 := sorted_split (fun a : V × Nat => decide ((p.2 : ℚ) < Y a.1.1 p.1)) (sd.filter (fun a => decide ((p.2 : ℚ) ≤ Y a.1.1 p.1)))
    (hmono.sublist List.filter_sublist) (by
    intro a _ b _ hab ha
    simp only [decide_eq_true_eq] at ha ⊢
    linarith)
  rw [s2] at s1
  generalize hA : sd.filter (fun a : V × Nat => !decide ((p.2 : ℚ) ≤ Y a.1.1 p.1)) = A at s1
  generalize hB : (sd.filter (fun a : V × Nat => decide ((p.2 : ℚ) ≤ Y a.1.1 p.1))).filter (fun a => !decide ((p.2 : ℚ) < Y a.1.1 p.1)) = B at s1
  generalize hC : (sd.filter (fun a : V × Nat => decide ((p.2 : ℚ) ≤ Y a.1.1 p.1))).filter (fun a => decide ((p.2 : ℚ) < Y a.1.1 p.1)) = C at s1
  have kA : ∀ a ∈ A, a ∈ sd ∧ Y a.1.1 p.1 < p.2 := by
    intro a ha
    rw [← hA, List.mem_filter] at ha
    exact ⟨ha.1, by simpa using ha.2⟩
  have kB : ∀ a ∈ B, a ∈ sd ∧ Y a.1.1 p.1 = p.2 := by
    intro a ha
    rw [← hB, List.mem_filter, List.mem_filter] at ha
    have h1 : (p.2 : ℚ) ≤ Y a.1.1 p.1 := by simpa using ha.1.2
    have h2 : ¬ (p.2 : ℚ) < Y a.1.1 p.1 := by simpa using ha.2
    exact ⟨ha.1.1, le_antisymm (not_lt.1 h2) h1⟩
  have kC : ∀ a ∈ C, a ∈ sd ∧ (p.2 : ℚ) < Y a.1.1 p.1 := by
    intro a ha
    rw [← hC, List.mem_filter, List.mem_filter] at ha
    exact ⟨ha.1.1, by simpa using ha.2⟩
  have hq : ∀ b ∈ sd, (lessHE p.1 true b.1.1 (p, (p.1, p.2 + 1)) = true ↔ Y b.1.1 p.1 < p.2) := by
    intro b hb
    have := (hm b hb).2
    have h := lessHE_query (umax := p.2 + 1) p this.nv this.1 this.2
    unfold vhe at h
    rw [if_pos (by omega)] at h
    exact h
  refine ⟨A, B, C, s1, fun a ha => (kA a ha).2, fun a ha => ?_, fun a ha => (kC a ha).2, ?_, ?_⟩
  · exact (end_at hG hv (hm a (kB a ha).1).1 (hm a (kB a ha).1).2).1 (kB a ha).2
  · have := (tw_append (q := fun a : V × Nat => lessHE p.1 true a.1.1 (p, (p.1, p.2 + 1))) (A := A) (B := B ++ C)
      (fun a ha => (hq a (kA a ha).1).2 (kA a ha).2) (by
        intro b hb
        rcases List.mem_append.1 hb with hb | hb
        · rw [Bool.eq_false_iff, Ne, hq b (kB b hb).1, (kB b hb).2]; exact _root_.lt_irrefl _
        · rw [Bool.eq_false_iff, Ne, hq b (kC b hb).1]; exact not_lt.2 (kC b hb).2.le)).1
    rw [← s1] at this
    rw [this]
  · have : sd.drop A.length = B ++ C := by
      conv_lhs => rw [s1]
      exact List.drop_left
    rw [this]
    refine (tw_append ?_ ?_).1
    · intro a ha
      simp only [decide_eq_true_eq]
      exact Or.inr ((end_at hG hv (hm a (kB a ha).1).1 (hm a (kB a ha).1).2).1 (kB a ha).2)
    · intro a ha
      simp only [decide_eq_false_iff_not]
      obtain ⟨h1, h2⟩ := kC a ha
      obtain ⟨h3, h4⟩ := hm a h1
      rintro (h | h)
      · have := h4.1; rw [h] at this; omega
      · rw [(end_at hG hv h3 h4).2 h] at h2; exact _root_.lt_irrefl _ h2

/-- The edges that end at a point are sorted from the top to the bottom. -/
theorem block_sorted {D : List V} (c : Clean D) {B : List (V × Nat)} {p : Pt} (hsrt : B.Pairwise (fun a b => Lt a.1.1 b.1.1))
    (hm : ∀ a ∈ B, Has (evs D) a.1.1 ∧ LSpan p.1 a.1.1 ∧ a.1.1.2 = p) : (isort lessInc B).Pairwise (fun a b => Lt b.1.1 a.1.1) := by
  have h1 := isort_sorted (lt := lessInc) (fun a : V × Nat => slope a.1.1) B (by
    intro a ha b hb
    unfold lessInc
    rw [lessSlopeD_sl, sl_in (hm a ha).2.1.nv, sl_in (hm b hb).2.1.nv, WithTop.coe_lt_coe])
  have hp := isort_perm lessInc B
  have hnd : (isort lessInc B).Pairwise (fun a b => a.1.1 ≠ b.1.1) := by
    have : B.Pairwise (fun a b => a.1.1 ≠ b.1.1) := hsrt.imp (fun h => lt_ne h)
    exact (hp.pairwise_iff (fun h => h.symm)).2 this
  refine List.Pairwise.imp_of_mem ?_ (h1.and hnd)
  rintro a b ha hb ⟨hab, hne⟩
  obtain ⟨ea, sa, pa⟩ := hm a (hp.mem_iff.1 ha)
  obtain ⟨eb, sb, pb⟩ := hm b (hp.mem_iff.1 hb)
  rcases lt_or (c.good.sep ea eb hne sa.nv sb.nv) sa.nv sb.nv (by have := sa.1; rw [pb]; omega) (by have := sb.1; rw [pa]; omega) with h | h
  · exact absurd (lt_end sa.nv sb.nv (by rw [pa, pb]) h) (not_lt.2 hab)
  · exact h

theorem halves_at {p : Pt} : ∀ {D : List V}, (∀ e ∈ D, Directed e.1) →
    ((((halves D).filter (fun e => decide (e.1.1 = p))).map (fun e => (e.1.2, e.2))).filter (fun a => lessPoint p a.1)) =
      (D.filter (fun e => decide (e.1.1 = p))).map (fun e => (e.1.2, e.2))
  | [], _ => rfl
  | e :: D, h => by
    have ih := halves_at (p := p) (D := D) (fun f hf => h f (List.mem_cons_of_mem _ hf))
    have hd := h e List.mem_cons_self
    have : halves (e :: D) = (e.1, e.2) :: ((e.1.2, e.1.1), -1 * e.2) :: halves D := rfl
    rw [this]
    have h2 : ∀ l : List V, (((((e.1.2, e.1.1), -1 * e.2) :: l).filter (fun e => decide (e.1.1 = p))).map (fun e => (e.1.2, e.2))).filter (fun a => lessPoint p a.1) =
        ((l.filter (fun e => decide (e.1.1 = p))).map (fun e => (e.1.2, e.2))).filter (fun a => lessPoint p a.1) := by
      intro l
      by_cases c : e.1.2 = p
      · rw [List.filter_cons_of_pos (by simpa using c), List.map_cons, List.filter_cons_of_neg]
        dsimp only
        rw [Contains.lessPoint_iff, ← c]
        unfold Spec.Arb.Directed at hd
        omega
      · rw [List.filter_cons_of_neg (by simpa using c)]
    by_cases c : e.1.1 = p
    · rw [List.filter_cons_of_pos (by simpa using c), List.map_cons, List.filter_cons_of_pos, h2, ih, List.filter_cons_of_pos (by simpa using c), List.map_cons]
      dsimp only
      rw [Contains.lessPoint_iff, ← c]
      exact hd
    · rw [List.filter_cons_of_neg (by simpa using c), h2, ih, List.filter_cons_of_neg (by simpa using c)]

theorem turnLast_spec {x : Int} {L : List V} {W : Option V} (hL : ∀ a ∈ L, a.1.1.1 = x ∧ a.1.2.1 ≠ x) (hW : ∀ a, W = some a → a.1.1.1 = x ∧ a.1.2.1 = x) :
    turnLast x ((L ++ W.toList).map (fun e => (e.1.2, e.2))) = (L ++ W.toList).map (fun e => (e.1.2, sg e)) := by
  have h0 : ∀ a ∈ L, sg a = a.2 := by
    intro a ha
    obtain ⟨h1, h2⟩ := hL a ha
    unfold sg; rw [if_neg (by omega)]
  have h1 : L.map (fun e : V => (e.1.2, e.2)) = L.map (fun e => (e.1.2, sg e)) := List.map_congr_left (fun a ha => by rw [h0 a ha])
  unfold turnLast
  cases W with
  | none =>
    rw [Option.toList_none, List.append_nil, h1]
    rcases h : (L.map (fun e : V => (e.1.2, sg e))).getLast? with _ | a
    · rfl
    · dsimp only
      obtain ⟨b, hb, rfl⟩ := List.mem_map.1 (List.mem_of_getLast? h)
      rw [if_neg (hL b hb).2]
  | some v =>
    obtain ⟨v1, v2⟩ := hW v rfl
    rw [Option.toList_some, List.map_append, List.map_append, List.map_cons, List.map_cons, List.map_nil, List.getLast?_concat]
    dsimp only
    rw [if_pos v2, List.dropLast_concat, h1]
    have : sg v = v.2 * -1 := by unfold sg; rw [if_pos (by omega)]; omega
    rw [this]
    rfl

/-- The edges that start at a point: those to the right from the bottom to the top, then the vertical one. -/
theorem inc_list {D : List V} (c : Clean D) {p : Pt} {G : List V} (hG : G.Perm ((halves D).filter (fun e => decide (e.1.1 = p)))) :
    ∃ (L : List V) (W : Option V), turnLast p.1 ((isort (lessCount p) (G.map (fun e => (e.1.2, e.2)))).filter (fun a => lessPoint p a.1)) =
        (L ++ W.toList).map (fun e => (e.1.2, sg e)) ∧ (L ++ W.toList).Perm (D.filter (fun e => decide (e.1.1 = p))) ∧
      L.Pairwise (fun a b => Lt a.1 b.1) ∧ (∀ a ∈ L, NV a.1) ∧ (∀ a, W = some a → a.1.1.1 = a.1.2.1) := by
  have hd : ∀ e ∈ D, Directed e.1 := fun e he => c.good.dirE (Has.evs he)
  generalize hI : (isort (lessCount p) (G.map (fun e => (e.1.2, e.2)))).filter (fun a => lessPoint p a.1) = I
  have hp : I.Perm ((D.filter (fun e => decide (e.1.1 = p))).map (fun e => (e.1.2, e.2))) := by
    rw [← halves_at hd, ← hI]
    exact ((isort_perm _ _).trans (hG.map _)).filter _
  have hs : I.Pairwise (fun a b => sl (a.1.1 - p.1) (a.1.2 - p.2) ≤ sl (b.1.1 - p.1) (b.1.2 - p.2)) := by
    rw [← hI]
    refine List.Pairwise.sublist List.filter_sublist ?_
    refine isort_sorted (lt := lessCount p) (fun a : Pt × Int => sl (a.1.1 - p.1) (a.1.2 - p.2)) _ ?_
    intro a _ b _
    unfold lessCount Arb.lessSlope
    exact lessSlopeD_sl _ _ _ _
  clear hI hG
  have hq : (I.map (fun a => (((p, a.1), a.2) : V))).Perm (D.filter (fun e => decide (e.1.1 = p))) := by
    refine (hp.map _).trans ?_
    rw [List.map_map]
    refine List.Perm.of_eq ?_
    conv_rhs => rw [← List.map_id (D.filter (fun e => decide (e.1.1 = p)))]
    apply List.map_congr_left
    intro a ha
    have : a.1.1 = p := by simpa using (List.mem_filter.1 ha).2
    simp only [Function.comp, id]
    rw [← this]
  have hback : I = (I.map (fun a => (((p, a.1), a.2) : V))).map (fun e => (e.1.2, e.2)) := by
    rw [List.map_map]
    conv_lhs => rw [← List.map_id I]
    rfl
  have hs' : (I.map (fun a => (((p, a.1), a.2) : V))).Pairwise (fun a b => sl (a.1.2.1 - p.1) (a.1.2.2 - p.2) ≤ sl (b.1.2.1 - p.1) (b.1.2.2 - p.2)) := by
    rw [List.pairwise_map]
    exact hs
  rw [hback]
  generalize I.map (fun a => (((p, a.1), a.2) : V)) = K at hq hs'
  clear hback hs hp I
  have hK : ∀ a ∈ K, a ∈ D ∧ a.1.1 = p := by
    intro a ha
    have := List.mem_filter.1 (hq.mem_iff.1 ha)
    exact ⟨this.1, by simpa using this.2⟩
  have hnd : K.Pairwise (fun a b => a.1 ≠ b.1) := by
    refine (hq.pairwise_iff (fun h => h.symm)).2 ?_
    have : D.Pairwise (fun a b => a.1 ≠ b.1) := by
      have := c.nd
      rwa [List.Nodup, List.pairwise_map] at this
    exact this.sublist List.filter_sublist
  have hsplit := sorted_split (fun a : V => decide (a.1.2.1 = p.1)) K hs' (by
    intro a _ b _ hab ha
    simp only [decide_eq_true_eq] at ha ⊢
    unfold sl at hab
    rw [if_pos (by omega)] at hab
    by_contra hb
    rw [if_neg (by omega)] at hab
    simp at hab)
  generalize hL : K.filter (fun a : V => !decide (a.1.2.1 = p.1)) = L at hsplit
  have kL : ∀ a ∈ L, a ∈ K ∧ a.1.2.1 ≠ p.1 := by
    intro a ha
    rw [← hL, List.mem_filter] at ha
    exact ⟨ha.1, by simpa using ha.2⟩
  have hW : ∃ W : Option V, K.filter (fun a : V => decide (a.1.2.1 = p.1)) = W.toList := by
    have hn : (K.filter (fun a : V => decide (a.1.2.1 = p.1))).Pairwise (fun a b => a.1 ≠ b.1) := hnd.sublist List.filter_sublist
    have hall : ∀ a ∈ K.filter (fun a : V => decide (a.1.2.1 = p.1)), Has (evs D) a.1 ∧ a.1.1 = p ∧ a.1.2.1 = p.1 := by
      intro a ha
      rw [List.mem_filter] at ha
      exact ⟨Has.evs (hK a ha.1).1, (hK a ha.1).2, by simpa using ha.2⟩
    generalize K.filter (fun a : V => decide (a.1.2.1 = p.1)) = M at hn hall
    match M, hn, hall with
    | [], _, _ => exact ⟨none, rfl⟩
    | [a], _, _ => exact ⟨some a, rfl⟩
    | a :: b :: r, hn, hall =>
      exfalso
      obtain ⟨a1, a2, a3⟩ := hall a (by simp)
      obtain ⟨b1, b2, b3⟩ := hall b (by simp)
      exact (List.pairwise_cons.1 hn).1 b (by simp) (vert_start c.good a1 b1 (x := p.1) (y := p.2) a2 a3 b2 b3)
  obtain ⟨W, hW⟩ := hW
  rw [hW] at hsplit
  have kW : ∀ a, W = some a → a ∈ K ∧ a.1.2.1 = p.1 := by
    intro a ha
    have : a ∈ K.filter (fun a : V => decide (a.1.2.1 = p.1)) := by rw [hW, ha]; simp
    rw [List.mem_filter] at this
    exact ⟨this.1, by simpa using this.2⟩
  have hnv : ∀ a ∈ L, NV a.1 := by
    intro a ha
    obtain ⟨h1, h2⟩ := kL a ha
    obtain ⟨h3, h4⟩ := hK a h1
    rcases hd a h3 with h | h
    · exact h
    · rw [h4] at h; omega
  refine ⟨L, W, ?_, by rw [← hsplit]; exact hq, ?_, hnv, ?_⟩
  · rw [hsplit]
    refine turnLast_spec ?_ ?_
    · intro a ha
      exact ⟨by rw [(hK a (kL a ha).1).2], (kL a ha).2⟩
    · intro a ha
      exact ⟨by rw [(hK a (kW a ha).1).2], (kW a ha).2⟩
  · have hsub : L.Sublist K := by rw [← hL]; exact List.filter_sublist
    refine List.Pairwise.imp_of_mem ?_ ((hs'.sublist hsub).and (hnd.sublist hsub))
    rintro a b ha hb ⟨hab, hne⟩
    obtain ⟨ea, pa⟩ := hK a (kL a ha).1
    obtain ⟨eb, pb⟩ := hK b (kL b hb).1
    have na := hnv a ha
    have nb := hnv b hb
    have na' : a.1.1.1 < a.1.2.1 := na
    have nb' : b.1.1.1 < b.1.2.1 := nb
    have ka : sl (a.1.2.1 - p.1) (a.1.2.2 - p.2) = (slope a.1 : WithTop ℚ) := by rw [← pa]; exact sl_out na
    have kb : sl (b.1.2.1 - p.1) (b.1.2.2 - p.2) = (slope b.1 : WithTop ℚ) := by rw [← pb]; exact sl_out nb
    rw [ka, kb, WithTop.coe_le_coe] at hab
    rcases lt_or (c.good.sep (Has.evs ea) (Has.evs eb) hne na nb) na nb (by rw [pa, ← pb]; exact nb') (by rw [pb, ← pa]; exact na') with h | h
    · exact h
    · exact absurd (lt_start nb na (by rw [pa, pb]) h) (not_lt.2 hab)
  · intro a ha
    rw [(kW a ha).2, (hK a (kW a ha).1).2]

end Verif.ArbForm
