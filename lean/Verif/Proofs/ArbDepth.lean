import Verif.Proofs.ArbScan
import Mathlib.Data.Rat.Floor
import Mathlib.Data.Finset.Max
/-! Depth and closedness of what the scan writes. -/
namespace Verif.Arb
open Verif.Spec Verif.Spec.Arb

/-- The count written for an edge, 0 when nothing is. -/
noncomputable def N (op : Val) (E : List Ev) (e : HE) : Int :=
  if e.1.1 = e.2.1 then val op (Rsum E e.2) - val op (Lsum E e.2)
  else val op (D E e e.1.1) - val op (fun k => D E e e.1.1 k - S E k (· = e))

/-- What is written for an edge. -/
noncomputable def NNV (op : Val) (E : List Ev) (e : HE) : List (HE × Int) := if N op E e = 0 then [] else [(e, N op E e)]

theorem NNV_emit (op : Val) (E : List Ev) (e : HE) :
    NNV op E e = if e.1.1 = e.2.1 then emitV op e (Lsum E e.2) (Rsum E e.2)
      else emitV op e (D E e e.1.1) (fun k => D E e e.1.1 k - S E k (· = e)) := by
  unfold NNV N emitV
  by_cases h : e.1.1 = e.2.1
  · simp only [if_pos h]
    by_cases g : val op (Lsum E e.2) = val op (Rsum E e.2)
    · rw [if_pos g, if_pos (by rw [g]; ring)]
    · rw [if_neg g, if_neg (fun hc => g (by omega))]
      congr 2; ring
  · simp only [if_neg h]
    by_cases g : val op (D E e e.1.1) = val op (fun k => D E e e.1.1 k - S E k (· = e))
    · rw [if_pos g, if_pos (by rw [← g]; ring)]
    · rw [if_neg g, if_neg (fun hc => g (by omega))]
      congr 2; ring

/-- All that is written for one value. -/
structure DoneV (E : List Ev) (op : Val) (P : List HE) (out : List (HE × Int)) : Prop where
  outEq : out = P.flatMap (NNV op E)
  nd : P.Nodup
  mem : ∀ e ∈ P, Has E e
  all : ∀ e, Has E e → e ∈ P ∨ NNV op E e = []

theorem N_unit (op : Val) (E : List Ev) (e : HE) : N op E e = 0 ∨ N op E e = 1 ∨ N op E e = -1 := by
  unfold N
  split_ifs
  · rcases val_01 op (Rsum E e.2) with h | h <;> rcases val_01 op (Lsum E e.2) with g | g <;> rw [h, g] <;> simp
  · rcases val_01 op (D E e e.1.1) with h | h <;> rcases val_01 op (fun k => D E e e.1.1 k - S E k (· = e)) with g | g <;> rw [h, g] <;> simp

/-- The different edges. -/
def U (E : List Ev) : Finset HE := (E.map Prod.fst).toFinset

theorem mem_U {E : List Ev} {e : HE} : e ∈ U E ↔ Has E e := List.mem_toFinset

theorem out_sum {E : List Ev} {op : Val} {P : List HE} {out : List (HE × Int)} (h : DoneV E op P out) (F : HE → Int) :
    (out.map (fun a => a.2 * F a.1)).sum = (U E).sum (fun e => N op E e * F e) := by
  have h1 : ∀ P : List HE, ((P.flatMap (NNV op E)).map (fun a => a.2 * F a.1)).sum = (P.map (fun e => N op E e * F e)).sum := by
    intro P
    induction P with
    | nil => rfl
    | cons e P ih =>
      rw [List.flatMap_cons, List.map_append, List.sum_append, ih, List.map_cons, List.sum_cons, NNV]
      congr 1
      split_ifs with g
      · rw [g]; simp
      · simp
  rw [h.outEq, h1, ← List.sum_toFinset _ h.nd]
  apply Finset.sum_subset
  · intro e he
    exact mem_U.2 (h.mem e (List.mem_toFinset.1 he))
  · intro e he hn
    rcases h.all e (mem_U.1 he) with g | g
    · exact absurd (List.mem_toFinset.2 g) hn
    · unfold NNV at g
      split_ifs at g with k
      rw [k, zero_mul]

theorem out_edges {E : List Ev} {op : Val} {P : List HE} {out : List (HE × Int)} (h : DoneV E op P out) :
    (out.map Prod.fst).Nodup ∧ ∀ a ∈ out, Has E a.1 ∧ a.2 = N op E a.1 ∧ a.2 ≠ 0 := by
  rw [h.outEq]
  have hm : ∀ a ∈ P.flatMap (NNV op E), a.1 ∈ P ∧ a.2 = N op E a.1 ∧ a.2 ≠ 0 := by
    intro a ha
    obtain ⟨e, he, hae⟩ := List.mem_flatMap.1 ha
    unfold NNV at hae
    split_ifs at hae with g
    · simp at hae
    · rw [List.mem_singleton] at hae
      subst hae
      exact ⟨he, rfl, g⟩
  refine ⟨?_, fun a ha => ⟨h.mem _ (hm a ha).1, (hm a ha).2⟩⟩
  have : (P.flatMap (NNV op E)).map Prod.fst = P.filter (fun e => decide (N op E e ≠ 0)) := by
    clear hm
    induction P with
    | nil => rfl
    | cons e P ih =>
      have : ∀ P : List HE, (P.flatMap (NNV op E)).map Prod.fst = P.filter (fun e => decide (N op E e ≠ 0)) := by
        intro P
        induction P with
        | nil => rfl
        | cons e P ih =>
          rw [List.flatMap_cons, List.map_append, ih, NNV, List.filter_cons]
          by_cases g : N op E e = 0
          · simp [g]
          · simp [g]
      exact this _
  rw [this]
  exact h.nd.sublist List.filter_sublist

/-- Properties other than 0 and 1 do not occur. -/
theorem S_none {E : List Ev} (hk : ∀ e ∈ E, e.2.1 = 0 ∨ e.2.1 = 1) (C : HE → Prop) (k : Int) (h0 : k ≠ 0) (h1 : k ≠ 1) : S E k C = 0 := by
  classical
  rw [S_eq]
  unfold T
  apply List.sum_eq_zero
  intro x hx
  obtain ⟨ev, hev, rfl⟩ := List.mem_map.1 hx
  rcases hk ev hev with h | h <;> simp [h, Ne.symm h0, Ne.symm h1]

/-- The Boolean functor writes the value of its operation. -/
theorem Done.bool {E : List Ev} (hd : ∀ e ∈ E, Directed e.1) (hk : ∀ e ∈ E, e.2.1 = 0 ∨ e.2.1 = 1) {op : Nat} {P : List HE} {out : List (HE × Int)}
    (h : Done E (boolOut op) (fun _ => True) P out) : DoneV E (boolVal op) P out := by
  have key : ∀ e, Has E e → NN (boolOut op) E e = NNV (boolVal op) E e := by
    intro e he
    have hde : Directed e := by obtain ⟨ev, hev, rfl⟩ := List.mem_map.1 he; exact hd ev hev
    rw [NNV_emit]
    unfold NN
    split_ifs
    · exact emit_bool op hde (S_none hk _) (S_none hk _)
    · refine emit_bool op hde (S_none hk _) fun k h0 h1 => ?_
      rw [S_none hk _ k h0 h1]
      show S E k _ - 0 = 0
      rw [S_none hk _ k h0 h1, sub_zero]
  refine ⟨?_, h.nd, fun e he => (h.mem e he).1, fun e he => ?_⟩
  · rw [h.outEq]
    apply List.flatMap_congr
    intro e he
    exact key e (h.mem e he).1
  · rw [← key e he]; exact h.all e he trivial

/-! ### Adding up from below -/

open Classical in
theorem telescope {E : List Ev} (hG : Good E) (op : Val) (x : Int) : ∀ (n : Nat) (C : HE → Prop),
    ((U E).filter (fun e => RSpan x e ∧ C e)).card = n →
    (∀ e f, Has E e → Has E f → RSpan x e → RSpan x f → Lt f e → C e → C f) →
    ((U E).filter (fun e => RSpan x e ∧ C e)).sum (N op E) = val op (fun k => S E k (fun e => RSpan x e ∧ C e)) := by
  intro n
  induction n with
  | zero =>
    intro C hc _
    rw [Finset.card_eq_zero] at hc
    rw [hc, Finset.sum_empty]
    have : (fun k => S E k (fun e => RSpan x e ∧ C e)) = fun _ => 0 := by
      funext k
      apply S_zero
      intro ev hev hce
      have : ev.1 ∈ (U E).filter (fun e => RSpan x e ∧ C e) := Finset.mem_filter.2 ⟨mem_U.2 (Has.of hev), hce⟩
      rw [hc] at this
      simp at this
    rw [this, val_zero]
  | succ n ih =>
    intro C hc hdown
    have hne : ((U E).filter (fun e => RSpan x e ∧ C e)).Nonempty := by
      rw [← Finset.card_pos, hc]; omega
    obtain ⟨m, hm, hmax⟩ := Finset.exists_max_image _ (fun e => Y e ((x : ℚ) + 1 / 2)) hne
    obtain ⟨hmU, hmR, hmC⟩ := Finset.mem_filter.1 hm
    have hmH := mem_U.1 hmU
    have key : ∀ a : HE, RSpan x a → (a.1.1 : ℚ) < (x : ℚ) + 1 / 2 ∧ (x : ℚ) + 1 / 2 < a.2.1 := by
      intro a ha
      have q1 : (a.1.1 : ℚ) ≤ x := by exact_mod_cast ha.1
      have q2 : (x : ℚ) + 1 ≤ a.2.1 := by exact_mod_cast ha.2
      constructor <;> linarith
    have hup : ∀ e, Has E e → RSpan x e → (C e ↔ e = m ∨ Lt e m) := by
      intro e he hs
      constructor
      · intro hce
        by_cases hem : e = m
        · exact Or.inl hem
        · right
          obtain ⟨k1, k2⟩ := key e hs
          obtain ⟨k3, k4⟩ := key m hmR
          have := hmax e (Finset.mem_filter.2 ⟨mem_U.2 he, hs, hce⟩)
          exact ⟨_, k1, k2, k3, k4, lt_of_le_of_ne this (hG.sep he hmH hem hs.nv hmR.nv _ k1 k2 k3 k4)⟩
      · rintro (rfl | h)
        · exact hmC
        · exact hdown m e hmH he hmR hs h hmC
    obtain ⟨C', hC'⟩ : ∃ C' : HE → Prop, ∀ e, C' e ↔ C e ∧ e ≠ m := ⟨_, fun _ => Iff.rfl⟩
    have hfil : (U E).filter (fun e => RSpan x e ∧ C' e) = ((U E).filter (fun e => RSpan x e ∧ C e)).erase m := by
      ext e
      simp only [Finset.mem_filter, Finset.mem_erase, hC']
      tauto
    have ih' := ih C' (by rw [hfil, Finset.card_erase_of_mem hm, hc]; rfl) (by
      intro e f he hf se sf hl h12
      rw [hC'] at h12 ⊢
      obtain ⟨h1, h2⟩ := h12
      refine ⟨hdown e f he hf se sf hl h1, ?_⟩
      rintro rfl
      have := (hup e he se).1 h1
      rcases this with g | g
      · exact h2 g
      · exact lt_asymm (hG.sep he hmH h2 se.nv hmR.nv) g hl)
    rw [hfil] at ih'
    rw [← Finset.add_sum_erase _ _ hm, ih']
    have hD : (fun k => S E k (fun e => RSpan x e ∧ C e)) = D E m m.1.1 := by
      funext k
      rw [← D_const hG hmH hmR.1 hmR.2]
      unfold D
      apply S_congr
      intro ev hev
      exact and_congr_right fun hs => hup ev.1 (Has.of hev) hs
    have hD' : (fun k => S E k (fun e => RSpan x e ∧ C' e)) = fun k => D E m m.1.1 k - S E k (· = m) := by
      rw [← hD]
      funext k
      have := S_add (E := E) (k := k) (P := fun e => RSpan x e ∧ C e) (Q := fun e => RSpan x e ∧ C' e) (R := fun e => e = m)
        (by
          intro ev _
          rw [hC']
          by_cases g : ev.1 = m
          · simp only [g, ne_eq, not_true_eq_false, and_false, false_or, iff_true]; exact ⟨hmR, hmC⟩
          · simp [g]) (by
          rintro ev _ ⟨h1, h2⟩; exact ((hC' _).1 h1.2).2 h2)
      dsimp only
      omega
    rw [hD, hD']
    have hnv : ¬ m.1.1 = m.2.1 := by have := hmR.nv; unfold NV at this; omega
    unfold N
    rw [if_neg hnv]
    ring

theorem depth_layer (E : List Ev) (k : Int) (q : ℚ × ℚ) :
    depth (layer E k) q = S E k (fun e => RSpan ⌊q.1⌋ e ∧ Y e q.1 ≤ q.2) := by
  rw [S_eq, ← T_layer]
  unfold depth
  congr 1
  apply List.map_congr_left
  intro e _
  have : PassesBelow e.1 q ↔ (RSpan ⌊q.1⌋ e.1 ∧ Y e.1 q.1 ≤ q.2) := by
    unfold PassesBelow RSpan
    rw [Int.le_floor, Int.floor_lt, and_assoc]
  by_cases h : PassesBelow e.1 q
  · rw [if_pos h, if_pos (this.1 h), mul_one]
  · rw [if_neg h, if_neg (fun hc => h (this.2 hc)), mul_zero]

open Classical in
theorem depth_out {E : List Ev} (hG : Good E) {op : Val} {P : List HE} {out : List (HE × Int)} (h : DoneV E op P out) (q : ℚ × ℚ) :
    depth out q = val op (fun k => depth (layer E k) q) := by
  have h1 : depth out q = (out.map (fun a => a.2 * (fun e => if RSpan ⌊q.1⌋ e ∧ Y e q.1 ≤ q.2 then 1 else 0) a.1)).sum := by
    unfold depth
    congr 1
    apply List.map_congr_left
    intro e _
    have : PassesBelow e.1 q ↔ (RSpan ⌊q.1⌋ e.1 ∧ Y e.1 q.1 ≤ q.2) := by
      unfold PassesBelow RSpan
      rw [Int.le_floor, Int.floor_lt, and_assoc]
    by_cases h : PassesBelow e.1 q
    · simp only [if_pos h, if_pos (this.1 h), mul_one]
    · simp only [if_neg h, if_neg (fun hc => h (this.2 hc)), mul_zero]
  rw [h1, out_sum h (fun e => if RSpan ⌊q.1⌋ e ∧ Y e q.1 ≤ q.2 then 1 else 0)]
  have h2 : (U E).sum (fun e => N op E e * (fun e => if RSpan ⌊q.1⌋ e ∧ Y e q.1 ≤ q.2 then 1 else 0) e) =
      ((U E).filter (fun e => RSpan ⌊q.1⌋ e ∧ Y e q.1 ≤ q.2)).sum (N op E) := by
    rw [Finset.sum_filter]
    apply Finset.sum_congr rfl
    intro e _
    dsimp only
    split_ifs <;> simp
  rw [h2]
  refine Eq.trans ?_ ((telescope hG op ⌊q.1⌋ _ (fun e => Y e q.1 ≤ q.2) rfl ?_).trans ?_)
  · congr 1
    ext e
    simp only [Finset.mem_filter]
  rotate_left
  · congr 1
    funext k
    rw [depth_layer]
  · intro e f he hf se sf hl hc
    have l : ∀ a : HE, RSpan ⌊q.1⌋ a → (a.1.1 : ℚ) ≤ q.1 ∧ q.1 ≤ a.2.1 := by
      intro a ha
      exact ⟨Int.le_floor.1 ha.1, (Int.floor_lt.1 ha.2).le⟩
    exact le_trans (lt_le (hG.sep hf he (lt_ne hl) sf.nv se.nv) hl (l f sf).1 (l f sf).2 (l e se).1 (l e se).2) hc

/-! ### Around a point -/

theorem lt_le_r {E : List Ev} (hG : Good E) {x : Int} {e f : HE} (he : Has E e) (hf : Has E f) (se : RSpan x e) (sf : RSpan x f) (hl : Lt f e) :
    Y f x ≤ Y e x :=
  lt_le (hG.sep hf he (lt_ne hl) sf.nv se.nv) hl (by exact_mod_cast sf.1) (by exact_mod_cast sf.2.le) (by exact_mod_cast se.1)
    (by exact_mod_cast se.2.le)

theorem span_iff (x : Int) (e : HE) : RSpan (x - 1) e ↔ LSpan x e := by unfold RSpan LSpan; omega

theorem lt_le_l {E : List Ev} (hG : Good E) {x : Int} {e f : HE} (he : Has E e) (hf : Has E f) (se : LSpan x e) (sf : LSpan x f) (hl : Lt f e) :
    Y f x ≤ Y e x :=
  lt_le (hG.sep hf he (lt_ne hl) sf.nv se.nv) hl (by exact_mod_cast sf.1.le) (by exact_mod_cast sf.2) (by exact_mod_cast se.1.le)
    (by exact_mod_cast se.2)

open Classical in
theorem sum_right {E : List Ev} (hG : Good E) (op : Val) (x : Int) (C : ℚ → Prop) (hC : ∀ a b : ℚ, a ≤ b → C b → C a) :
    (U E).sum (fun e => if RSpan x e ∧ C (Y e x) then N op E e else 0) = val op (fun k => S E k (fun e => RSpan x e ∧ C (Y e x))) := by
  rw [← Finset.sum_filter]
  exact telescope hG op x _ (fun e => C (Y e x)) rfl (fun e f he hf se sf hl hc => hC _ _ (lt_le_r hG he hf se sf hl) hc)

open Classical in
theorem sum_left {E : List Ev} (hG : Good E) (op : Val) (x : Int) (C : ℚ → Prop) (hC : ∀ a b : ℚ, a ≤ b → C b → C a) :
    (U E).sum (fun e => if LSpan x e ∧ C (Y e x) then N op E e else 0) = val op (fun k => S E k (fun e => LSpan x e ∧ C (Y e x))) := by
  have h := telescope hG op (x - 1) _ (fun e => C (Y e x)) rfl
    (fun e f he hf se sf hl hc => hC _ _ (lt_le_l hG he hf ((span_iff x e).1 se) ((span_iff x f).1 sf) hl) hc)
  have hc : (fun k => S E k (fun e => RSpan (x - 1) e ∧ C (Y e x))) = fun k => S E k (fun e => LSpan x e ∧ C (Y e x)) := by
    funext k
    apply S_congr
    intro ev _
    rw [span_iff]
  rw [hc] at h
  rw [← h, Finset.sum_filter]
  apply Finset.sum_congr rfl
  intro e _
  simp only [span_iff]

/-- The four ways of touching a point. -/
theorem inflow_split {e : HE} (hd : Directed e) (c : Int) (v : Pt) :
    inflow (e, c) v = (if NV e ∧ e.2 = v then c else 0) - (if NV e ∧ e.1 = v then c else 0)
      - (if e.1.1 = e.2.1 ∧ e.2 = v then c else 0) + (if e.1.1 = e.2.1 ∧ e.1 = v then c else 0) := by
  unfold inflow NV
  dsimp only
  by_cases h : e.1.1 = e.2.1
  · have : ¬ e.1.1 < e.2.1 := by omega
    simp only [h, true_and, if_true, _root_.lt_irrefl, false_and, if_false]
    split_ifs <;> ring
  · have : e.1.1 < e.2.1 := by rcases hd with g | g <;> omega
    simp only [h, this, true_and, if_false, false_and]
    split_ifs <;> ring

theorem closed_out {E : List Ev} (hG : Good E) {op : Val} {P : List HE} {out : List (HE × Int)} (h : DoneV E op P out) :
    Closed out := by
  classical
  intro v
  have h0 : (out.map (fun e => inflow e v)).sum = (U E).sum (fun e => inflow (e, N op E e) v) := by
    have := out_sum h (fun e => (if e.1.1 = e.2.1 then -1 else 1) * ((if e.2 = v then 1 else 0) - (if e.1 = v then 1 else 0)))
    have g1 : (out.map (fun e => inflow e v)).sum = (out.map (fun a => a.2 * (fun e : HE => (if e.1.1 = e.2.1 then -1 else 1) *
        ((if e.2 = v then 1 else 0) - (if e.1 = v then 1 else 0))) a.1)).sum := by
      congr 1
      apply List.map_congr_left
      intro e _
      unfold inflow
      dsimp only
      split_ifs <;> ring
    rw [g1, this]
    apply Finset.sum_congr rfl
    intro e _
    unfold inflow
    dsimp only
    split_ifs <;> ring
  rw [h0]
  by_cases hv : Vertex E v
  swap
  · apply Finset.sum_eq_zero
    intro e he
    have hH := mem_U.1 he
    have h1 : ¬ e.2 = v := fun hc => hv ⟨e, hH, Or.inr hc⟩
    have h2 : ¬ e.1 = v := fun hc => hv ⟨e, hH, Or.inl hc⟩
    unfold inflow
    simp [h1, h2]
  -- sums below and up to the point
  have eL : (fun k => S E k (fun e => LSpan v.1 e ∧ Y e v.1 < v.2)) = Lsum E v := rfl
  have eR : (fun k => S E k (fun e => RSpan v.1 e ∧ Y e v.1 < v.2)) = Rsum E v := rfl
  have sL := sum_left hG op v.1 (fun t => t < v.2) (fun a b hab hb => lt_of_le_of_lt hab hb)
  have sL' := sum_left hG op v.1 (fun t => t ≤ v.2) (fun a b hab hb => le_trans hab hb)
  have sR := sum_right hG op v.1 (fun t => t < v.2) (fun a b hab hb => lt_of_le_of_lt hab hb)
  have sR' := sum_right hG op v.1 (fun t => t ≤ v.2) (fun a b hab hb => le_trans hab hb)
  rw [eL] at sL
  rw [eR] at sR
  generalize hLp : (fun k => S E k (fun e => LSpan v.1 e ∧ Y e v.1 ≤ v.2)) = Lp at sL'
  generalize hRp : (fun k => S E k (fun e => RSpan v.1 e ∧ Y e v.1 ≤ v.2)) = Rp at sR'
  have hA : (U E).sum (fun e => if NV e ∧ e.2 = v then N op E e else 0) = val op Lp - val op (Lsum E v) := by
    rw [← sL, ← sL', ← Finset.sum_sub_distrib]
    apply Finset.sum_congr rfl
    intro e he
    have hH := mem_U.1 he
    by_cases c : NV e ∧ e.2 = v
    · obtain ⟨c1, c2⟩ := c
      have hs : LSpan v.1 e := by rw [← c2]; exact ⟨c1, le_rfl⟩
      have hy : Y e v.1 = v.2 := by rw [← c2]; exact Y_right c1
      rw [if_pos ⟨c1, c2⟩, if_pos ⟨hs, hy.le⟩, if_neg (fun hc => absurd hc.2 (by rw [hy]; exact _root_.lt_irrefl _)), sub_zero]
    · rw [if_neg c]
      have : (LSpan v.1 e ∧ Y e v.1 ≤ v.2) ↔ (LSpan v.1 e ∧ Y e v.1 < v.2) := by
        refine and_congr_right fun hs => ⟨fun hle => lt_of_le_of_ne hle ?_, le_of_lt⟩
        intro hy
        rcases eq_or_lt_of_le hs.2 with g | g
        · have := Y_right hs.nv
          rw [← g, hy] at this
          exact c ⟨hs.nv, Prod.ext g.symm (by exact_mod_cast this.symm)⟩
        · exact vertex_nv hG hv hH hs.1 g hy
      by_cases d : LSpan v.1 e ∧ Y e v.1 < v.2
      · rw [if_pos d, if_pos (this.2 d), sub_self]
      · rw [if_neg d, if_neg (fun hc => d (this.1 hc)), sub_self]
  have hB : (U E).sum (fun e => if NV e ∧ e.1 = v then N op E e else 0) = val op Rp - val op (Rsum E v) := by
    rw [← sR, ← sR', ← Finset.sum_sub_distrib]
    apply Finset.sum_congr rfl
    intro e he
    have hH := mem_U.1 he
    by_cases c : NV e ∧ e.1 = v
    · obtain ⟨c1, c2⟩ := c
      have hs : RSpan v.1 e := by rw [← c2]; exact ⟨le_rfl, c1⟩
      have hy : Y e v.1 = v.2 := by rw [← c2]; exact Y_left c1
      rw [if_pos ⟨c1, c2⟩, if_pos ⟨hs, hy.le⟩, if_neg (fun hc => absurd hc.2 (by rw [hy]; exact _root_.lt_irrefl _)), sub_zero]
    · rw [if_neg c]
      have : (RSpan v.1 e ∧ Y e v.1 ≤ v.2) ↔ (RSpan v.1 e ∧ Y e v.1 < v.2) := by
        refine and_congr_right fun hs => ⟨fun hle => lt_of_le_of_ne hle ?_, le_of_lt⟩
        intro hy
        rcases eq_or_lt_of_le hs.1 with g | g
        · have := Y_left hs.nv
          rw [g, hy] at this
          exact c ⟨hs.nv, Prod.ext g (by exact_mod_cast this.symm)⟩
        · exact vertex_nv hG hv hH g hs.2 hy
      by_cases d : RSpan v.1 e ∧ Y e v.1 < v.2
      · rw [if_pos d, if_pos (this.2 d), sub_self]
      · rw [if_neg d, if_neg (fun hc => d (this.1 hc)), sub_self]
  have hC : (U E).sum (fun e => if e.1.1 = e.2.1 ∧ e.2 = v then N op E e else 0) = val op (Rsum E v) - val op (Lsum E v) := by
    by_cases hex : ∃ e, Has E e ∧ e.1.1 = e.2.1 ∧ e.2 = v
    · obtain ⟨e, he, h1, h2⟩ := hex
      rw [Finset.sum_eq_single_of_mem e (mem_U.2 he), if_pos ⟨h1, h2⟩]
      · unfold N; rw [if_pos h1, h2]
      · intro f hf hne
        rw [if_neg]
        rintro ⟨g1, g2⟩
        have dE := hG.dirE he
        have dF := hG.dirE (mem_U.1 hf)
        unfold Verif.Spec.Arb.Directed at dE dF
        have x1 : e.2.1 = f.2.1 := by rw [h2, g2]
        have x2 : e.2.2 = f.2.2 := by rw [h2, g2]
        exact hne (vert_eq hG (mem_U.1 hf) he g1 h1 (by omega) (by omega) (by omega))
    · have hW : Rsum E v = Lsum E v := by
        funext k
        rw [← lwr hG]
        have : Wsum E v k = 0 := by
          apply S_zero
          rintro ev hev ⟨⟨g1, g2⟩, g3, g4⟩
          rcases eq_or_lt_of_le g4 with g | g
          · exact hex ⟨ev.1, Has.of hev, by omega, Prod.ext g2 g.symm⟩
          · exact vertex_vert hG hv (Has.of hev) g1 g2 g3 g
        rw [this, add_zero]
      rw [hW, sub_self]
      apply Finset.sum_eq_zero
      intro e he
      rw [if_neg (fun hc => hex ⟨e, mem_U.1 he, hc⟩)]
  have hD : (U E).sum (fun e => if e.1.1 = e.2.1 ∧ e.1 = v then N op E e else 0) = val op Rp - val op Lp := by
    by_cases hex : ∃ e, Has E e ∧ e.1.1 = e.2.1 ∧ e.1 = v
    · obtain ⟨e, he, h1, h2⟩ := hex
      have dE := hG.dirE he
      unfold Verif.Spec.Arb.Directed at dE
      have hlt : v.2 < e.2.2 := by rw [← h2]; omega
      have hltq : (v.2 : ℚ) < e.2.2 := by exact_mod_cast hlt
      have hx1 : e.1.1 = v.1 := by rw [h2]
      have hx2 : e.2.1 = v.1 := by omega
      have hy1 : e.1.2 = v.2 := by rw [h2]
      rw [Finset.sum_eq_single_of_mem e (mem_U.2 he), if_pos ⟨h1, h2⟩]
      · have inside : ∀ f, Has E f → NV f → f.1.1 ≤ v.1 → v.1 ≤ f.2.1 → (Y f v.1 < e.2.2 ↔ Y f v.1 ≤ v.2) := by
          intro f hf hn a b
          constructor
          · intro hyl
            by_contra hc
            push Not at hc
            rcases eq_or_lt_of_le a with g | g
            · have hy := Y_left hn
              rw [g] at hy
              rw [hy] at hyl hc
              exact vertex_vert hG ⟨f, hf, Or.inl rfl⟩ he (by omega) (by omega) (by rw [hy1]; exact_mod_cast hc) (by exact_mod_cast hyl)
            · rcases eq_or_lt_of_le b with g' | g'
              · have hy := Y_right hn
                rw [← g'] at hy
                rw [hy] at hyl hc
                exact vertex_vert hG ⟨f, hf, Or.inr rfl⟩ he (by omega) (by omega) (by rw [hy1]; exact_mod_cast hc) (by exact_mod_cast hyl)
              · exact no_cross hG hf he g g' hx1 hx2 (by rw [hy1]; exact hc.le) hyl.le
          · intro hyl; exact lt_of_le_of_lt hyl hltq
        have r1 : Rsum E e.2 = Rp := by
          rw [← hRp]
          funext k
          apply S_congr
          intro ev hev
          rw [hx2]
          exact and_congr_right fun hs => inside ev.1 (Has.of hev) hs.nv hs.1 hs.2.le
        have r2 : Lsum E e.2 = Lp := by
          rw [← hLp]
          funext k
          apply S_congr
          intro ev hev
          rw [hx2]
          exact and_congr_right fun hs => inside ev.1 (Has.of hev) hs.nv hs.1.le hs.2
        unfold N; rw [if_pos h1, r1, r2]
      · intro f hf hne
        rw [if_neg]
        rintro ⟨g1, g2⟩
        have dF := hG.dirE (mem_U.1 hf)
        unfold Verif.Spec.Arb.Directed at dF
        have x1 : e.1.1 = f.1.1 := by rw [h2, g2]
        have x2 : e.1.2 = f.1.2 := by rw [h2, g2]
        exact hne (vert_eq hG (mem_U.1 hf) he g1 h1 (by omega) (by omega) (by omega))
    · have hW : Rp = Lp := by
        rw [← hRp, ← hLp]
        funext k
        have := column hG k v.1 (fun t => t ≤ v.2) (fun a b hab hb => le_trans hab.le hb)
        rw [← this]
        have z : S E k (fun e => (e.1.1 = v.1 ∧ e.2.1 = v.1) ∧ (e.1.2 : ℚ) ≤ v.2 ∧ ¬ (e.2.2 : ℚ) ≤ v.2) = 0 := by
          apply S_zero
          rintro ev hev ⟨⟨g1, g2⟩, g3, g4⟩
          rw [Int.cast_le] at g3 g4
          rcases eq_or_lt_of_le g3 with g | g
          · exact hex ⟨ev.1, Has.of hev, by omega, Prod.ext g1 g⟩
          · exact vertex_vert hG hv (Has.of hev) g1 g2 g (by omega)
        rw [z, add_zero]
      rw [hW, sub_self]
      apply Finset.sum_eq_zero
      intro e he
      rw [if_neg (fun hc => hex ⟨e, mem_U.1 he, hc⟩)]
  have hsum : (U E).sum (fun e => inflow (e, N op E e) v) =
      (U E).sum (fun e => if NV e ∧ e.2 = v then N op E e else 0) - (U E).sum (fun e => if NV e ∧ e.1 = v then N op E e else 0)
      - (U E).sum (fun e => if e.1.1 = e.2.1 ∧ e.2 = v then N op E e else 0)
      + (U E).sum (fun e => if e.1.1 = e.2.1 ∧ e.1 = v then N op E e else 0) := by
    rw [← Finset.sum_sub_distrib, ← Finset.sum_sub_distrib, ← Finset.sum_add_distrib]
    apply Finset.sum_congr rfl
    intro e he
    exact inflow_split (hG.dirE (mem_U.1 he)) _ v
  rw [hsum, hA, hB, hC, hD]
  ring

end Verif.Arb
