import Verif.Proofs.ArbSum
/-! Property maps and the output functor. -/
namespace Verif.Arb
open Verif.Contains (lessPoint lessPoint_iff)
open Verif.Spec Verif.Spec.Arb

/-- The count of a property. -/
def get (m : PMap) (k : Int) : Int := (m.map (fun a => if a.1 = k then a.2 else 0)).sum

theorem get_nil (k : Int) : get [] k = 0 := rfl
theorem get_cons (a : Int × Int) (m : PMap) (k : Int) : get (a :: m) k = (if a.1 = k then a.2 else 0) + get m k := by
  simp [get]

/-- Keys in order. -/
structure Ok (m : PMap) : Prop where
  srt : m.Pairwise (fun a b => a.1 < b.1)

theorem ok_nil : Ok [] := ⟨List.Pairwise.nil⟩

theorem mergeMaps_get (m1 m2 : PMap) (k : Int) : get (mergeMaps m1 m2) k = get m1 k + get m2 k := by
  induction m1, m2 using mergeMaps.induct with
  | case1 m2 => rw [mergeMaps, get_nil, zero_add]
  | case2 m1 h => rw [mergeMaps]; · rw [get_nil, add_zero]
                  · intro hc; exact h hc
  | case3 a r b s h ih => rw [mergeMaps, if_pos h, get_cons, ih, get_cons, get_cons]; ring
  | case4 a r b s h1 h2 ih => rw [mergeMaps, if_neg h1, if_pos h2, get_cons, ih, get_cons, get_cons]; ring
  | case5 a r b s h1 h2 h3 ih =>
    rw [mergeMaps, if_neg h1, if_neg h2, if_pos h3, get_cons, ih, get_cons, get_cons]
    have : a.1 = b.1 := by omega
    dsimp only; rw [this]; split_ifs <;> ring
  | case6 a r b s h1 h2 h3 ih =>
    rw [mergeMaps, if_neg h1, if_neg h2, if_neg h3, ih, get_cons, get_cons]
    have : a.1 = b.1 := by omega
    rw [this]; split_ifs <;> omega

theorem mergeMaps_key (m1 m2 : PMap) : ∀ a ∈ mergeMaps m1 m2, (∃ b ∈ m1, b.1 = a.1) ∨ (∃ b ∈ m2, b.1 = a.1) := by
  induction m1, m2 using mergeMaps.induct with
  | case1 m2 => rw [mergeMaps]; intro a ha; exact Or.inr ⟨a, ha, rfl⟩
  | case2 m1 h => rw [mergeMaps]; · intro a ha; exact Or.inl ⟨a, ha, rfl⟩
                  · intro hc; exact h hc
  | case3 a r b s h ih =>
    rw [mergeMaps, if_pos h]
    intro c hc
    rcases List.mem_cons.1 hc with rfl | hc
    · exact Or.inl ⟨c, List.mem_cons_self, rfl⟩
    · rcases ih c hc with ⟨d, hd, hd'⟩ | hd
      · exact Or.inl ⟨d, List.mem_cons_of_mem _ hd, hd'⟩
      · exact Or.inr hd
  | case4 a r b s h1 h2 ih =>
    rw [mergeMaps, if_neg h1, if_pos h2]
    intro c hc
    rcases List.mem_cons.1 hc with rfl | hc
    · exact Or.inr ⟨c, List.mem_cons_self, rfl⟩
    · rcases ih c hc with hd | ⟨d, hd, hd'⟩
      · exact Or.inl hd
      · exact Or.inr ⟨d, List.mem_cons_of_mem _ hd, hd'⟩
  | case5 a r b s h1 h2 h3 ih =>
    rw [mergeMaps, if_neg h1, if_neg h2, if_pos h3]
    intro c hc
    rcases List.mem_cons.1 hc with rfl | hc
    · exact Or.inl ⟨a, List.mem_cons_self, rfl⟩
    · rcases ih c hc with ⟨d, hd, hd'⟩ | ⟨d, hd, hd'⟩
      · exact Or.inl ⟨d, List.mem_cons_of_mem _ hd, hd'⟩
      · exact Or.inr ⟨d, List.mem_cons_of_mem _ hd, hd'⟩
  | case6 a r b s h1 h2 h3 ih =>
    rw [mergeMaps, if_neg h1, if_neg h2, if_neg h3]
    intro c hc
    rcases ih c hc with ⟨d, hd, hd'⟩ | ⟨d, hd, hd'⟩
    · exact Or.inl ⟨d, List.mem_cons_of_mem _ hd, hd'⟩
    · exact Or.inr ⟨d, List.mem_cons_of_mem _ hd, hd'⟩

theorem mergeMaps_srt (m1 m2 : PMap) (h1 : m1.Pairwise (fun a b => a.1 < b.1)) (h2 : m2.Pairwise (fun a b => a.1 < b.1)) :
    (mergeMaps m1 m2).Pairwise (fun a b => a.1 < b.1) := by
  induction m1, m2 using mergeMaps.induct with
  | case1 m2 => rw [mergeMaps]; exact h2
  | case2 m1 h => rw [mergeMaps]; · exact h1
                  · intro hc; exact h hc
  | case3 a r b s h ih =>
    rw [mergeMaps, if_pos h]
    refine List.pairwise_cons.2 ⟨?_, ih (List.pairwise_cons.1 h1).2 h2⟩
    intro c hc
    rcases mergeMaps_key _ _ c hc with ⟨d, hd, hd'⟩ | ⟨d, hd, hd'⟩
    · have := (List.pairwise_cons.1 h1).1 d hd; omega
    · rcases List.mem_cons.1 hd with rfl | hd
      · omega
      · have := (List.pairwise_cons.1 h2).1 d hd; omega
  | case4 a r b s g1 g2 ih =>
    rw [mergeMaps, if_neg g1, if_pos g2]
    refine List.pairwise_cons.2 ⟨?_, ih h1 (List.pairwise_cons.1 h2).2⟩
    intro c hc
    rcases mergeMaps_key _ _ c hc with ⟨d, hd, hd'⟩ | ⟨d, hd, hd'⟩
    · rcases List.mem_cons.1 hd with rfl | hd
      · omega
      · have := (List.pairwise_cons.1 h1).1 d hd; omega
    · have := (List.pairwise_cons.1 h2).1 d hd; omega
  | case5 a r b s g1 g2 g3 ih =>
    rw [mergeMaps, if_neg g1, if_neg g2, if_pos g3]
    refine List.pairwise_cons.2 ⟨?_, ih (List.pairwise_cons.1 h1).2 (List.pairwise_cons.1 h2).2⟩
    intro c hc
    rcases mergeMaps_key _ _ c hc with ⟨d, hd, hd'⟩ | ⟨d, hd, hd'⟩
    · have := (List.pairwise_cons.1 h1).1 d hd; dsimp only; omega
    · have := (List.pairwise_cons.1 h2).1 d hd; dsimp only; omega
  | case6 a r b s g1 g2 g3 ih =>
    rw [mergeMaps, if_neg g1, if_neg g2, if_neg g3]
    exact ih (List.pairwise_cons.1 h1).2 (List.pairwise_cons.1 h2).2

theorem mergeMaps_ok {m1 m2 : PMap} (h1 : Ok m1) (h2 : Ok m2) : Ok (mergeMaps m1 m2) := by
  exact ⟨mergeMaps_srt _ _ h1.srt h2.srt⟩

theorem updateMap_get (m : PMap) (d : Int × Int) (k : Int) : get (updateMap m d) k = get m k + if d.1 = k then d.2 else 0 := by
  induction m with
  | nil => rw [updateMap, get_cons, get_nil]; ring
  | cons a r ih =>
    rw [updateMap]
    by_cases h : d.1 = a.1
    · rw [if_pos h]
      split_ifs with h2 h3 h3
      · rw [get_cons, get_cons, ← h]; dsimp only; simp only [h3, if_true]; ring
      · rw [get_cons, get_cons, ← h]; dsimp only; simp only [h3, if_false]; ring
      · rw [get_cons, ← h]; simp only [h3, if_true]; omega
      · rw [get_cons, ← h]; simp only [h3, if_false]; ring
    · rw [if_neg h]
      by_cases h2 : d.1 < a.1
      · rw [if_pos h2, get_cons]; ring
      · rw [if_neg h2, get_cons, ih, get_cons]; ring

theorem updateMap_key (m : PMap) (d : Int × Int) : ∀ a ∈ updateMap m d, a.1 = d.1 ∨ ∃ b ∈ m, b.1 = a.1 := by
  induction m with
  | nil => intro a ha; rw [updateMap] at ha; left; simp at ha; rw [ha]
  | cons c r ih =>
    intro a ha
    rw [updateMap] at ha
    split_ifs at ha with h1 h2 h3
    · rcases List.mem_cons.1 ha with rfl | ha
      · left; rfl
      · right; exact ⟨a, List.mem_cons_of_mem _ ha, rfl⟩
    · right; exact ⟨a, List.mem_cons_of_mem _ ha, rfl⟩
    · rcases List.mem_cons.1 ha with rfl | ha
      · left; rfl
      · right; exact ⟨a, ha, rfl⟩
    · rcases List.mem_cons.1 ha with rfl | ha
      · right; exact ⟨a, List.mem_cons_self, rfl⟩
      · rcases ih a ha with h | ⟨b, hb, hb'⟩
        · left; exact h
        · right; exact ⟨b, List.mem_cons_of_mem _ hb, hb'⟩

theorem updateMap_ok {m : PMap} (h : Ok m) {d : Int × Int} : Ok (updateMap m d) := by
  constructor
  · have hs := h.srt
    clear h
    induction m with
    | nil => rw [updateMap]; exact List.pairwise_singleton _ _
    | cons c r ih =>
      have hc := List.pairwise_cons.1 hs
      rw [updateMap]
      split_ifs with h1 h2 h3
      · exact List.pairwise_cons.2 ⟨fun b hb => by have := hc.1 b hb; dsimp only; omega, hc.2⟩
      · exact hc.2
      · refine List.pairwise_cons.2 ⟨fun b hb => ?_, hs⟩
        rcases List.mem_cons.1 hb with rfl | hb
        · exact h3
        · have := hc.1 b hb; omega
      · refine List.pairwise_cons.2 ⟨fun b hb => ?_, ih hc.2⟩
        rcases updateMap_key _ _ b hb with h | ⟨e, he, he'⟩
        · omega
        · have := hc.1 e he; omega

/-! ### The set of properties with a positive count -/

theorem sorted_ext {l l' : List Int} (h : l.Pairwise (· < ·)) (h' : l'.Pairwise (· < ·)) (hm : ∀ k, k ∈ l ↔ k ∈ l') : l = l' := by
  have n : l.Nodup := h.imp (fun h => ne_of_lt h)
  have n' : l'.Nodup := h'.imp (fun h => ne_of_lt h)
  exact List.Perm.eq_of_pairwise (fun a b _ _ g g' => absurd g (_root_.lt_asymm g')) h h' ((List.perm_ext_iff_of_nodup n n').2 hm)

open Classical in
/-- The properties with a positive value, in order. -/
noncomputable def pset (v : Int → Int) : List Int :=
  if h : ∃ l : List Int, l.Pairwise (· < ·) ∧ ∀ k, k ∈ l ↔ v k > 0 then h.choose else []

theorem pset_of {v : Int → Int} {l : List Int} (h : l.Pairwise (· < ·)) (hm : ∀ k, k ∈ l ↔ v k > 0) : pset v = l := by
  have h0 : ∃ l : List Int, l.Pairwise (· < ·) ∧ ∀ k, k ∈ l ↔ v k > 0 := ⟨l, h, hm⟩
  unfold pset
  rw [dif_pos h0]
  exact sorted_ext h0.choose_spec.1 h fun k => (h0.choose_spec.2 k).trans (hm k).symm

theorem get_not_mem {m : PMap} {k : Int} (h : ∀ a ∈ m, a.1 ≠ k) : get m k = 0 := by
  induction m with
  | nil => rfl
  | cons a r ih => rw [get_cons, if_neg (h a List.mem_cons_self), ih (fun b hb => h b (List.mem_cons_of_mem _ hb)), add_zero]

theorem get_mem {m : PMap} (h : m.Pairwise (fun a b => a.1 < b.1)) {a : Int × Int} (ha : a ∈ m) : get m a.1 = a.2 := by
  induction m with
  | nil => simp at ha
  | cons b r ih =>
    have hb := List.pairwise_cons.1 h
    rw [get_cons]
    rcases List.mem_cons.1 ha with rfl | ha
    · rw [if_pos rfl, get_not_mem (fun c hc => ne_of_gt (hb.1 c hc)), add_zero]
    · rw [if_neg (ne_of_lt (hb.1 a ha)), ih hb.2 ha, zero_add]

theorem posSet_srt {m : PMap} (h : Ok m) : (posSet m).Pairwise (· < ·) := by
  unfold posSet
  rw [List.pairwise_map]
  exact h.srt.filter _

theorem mem_posSet {m : PMap} (h : Ok m) (k : Int) : k ∈ posSet m ↔ get m k > 0 := by
  unfold posSet
  rw [List.mem_map]
  constructor
  · rintro ⟨a, ha, rfl⟩
    obtain ⟨ha, hp⟩ := List.mem_filter.1 ha
    rw [get_mem h.srt ha]
    simpa using hp
  · intro hk
    by_cases hc : ∃ a ∈ m, a.1 = k
    · obtain ⟨a, ha, rfl⟩ := hc
      rw [get_mem h.srt ha] at hk
      exact ⟨a, List.mem_filter.2 ⟨ha, by simpa using hk⟩, rfl⟩
    · push Not at hc
      rw [get_not_mem hc] at hk
      exact absurd hk (_root_.lt_irrefl _)

theorem posSet_pset {m : PMap} (h : Ok m) : posSet m = pset (get m) := (pset_of (posSet_srt h) (mem_posSet h)).symm

theorem pset_zero : pset (fun _ => 0) = [] := pset_of List.Pairwise.nil (by simp)

/-- The set of a value that has only finitely many positive places. -/
theorem pset_spec {v : Int → Int} (h : ∃ m, Ok m ∧ v = get m) : (pset v).Pairwise (· < ·) ∧ ∀ k, k ∈ pset v ↔ v k > 0 := by
  obtain ⟨m, hm, rfl⟩ := h
  rw [← posSet_pset hm]
  exact ⟨posSet_srt hm, mem_posSet hm⟩

/-- What is written for an edge with given values on its two sides. -/
noncomputable def emit {β : Type} (rf : RF β) (e : HE) (l r : Int → Int) : List β :=
  if pset l = pset r then [] else rf e (pset l) (pset r)

theorem writeOut_eq {β : Type} (rf : RF β) (e : HE) {l r : PMap} (hl : Ok l) (hr : Ok r) :
    writeOut rf e l r = emit rf e (get l) (get r) := by
  unfold writeOut emit
  rw [posSet_pset hl, posSet_pset hr]
  split_ifs <;> simp_all

/-! ### Values of a side -/

/-- Membership of a side in a result, as a number. -/
structure Val where
  v : (Int → Int) → Int
  v_01 : ∀ f, v f = 0 ∨ v f = 1
  v_zero : v (fun _ => 0) = 0

/-- Membership in the result, as a number. -/
def val (op : Val) (f : Int → Int) : Int := op.v f

theorem val_01 (op : Val) (v : Int → Int) : val op v = 0 ∨ val op v = 1 := op.v_01 v

theorem val_zero (op : Val) : val op (fun _ => 0) = 0 := op.v_zero

/-- Membership in the result of an operation on two operands. -/
def boolVal (op : Nat) : Val where
  v f := if inResult op (f 0 > 0) (f 1 > 0) then 1 else 0
  v_01 f := by split_ifs <;> simp
  v_zero := by
    unfold inResult
    rcases op with _ | _ | _ | _ <;> simp

/-- The set of properties is a given one, which is not empty. -/
noncomputable def setVal (s : List Int) (hs : s ≠ []) : Val where
  v f := if pset f = s then 1 else 0
  v_01 f := by split_ifs <;> simp
  v_zero := by rw [pset_zero, if_neg (Ne.symm hs)]

theorem boolVal_eq (op : Nat) (v : Int → Int) : val (boolVal op) v = if inResult op (v 0 > 0) (v 1 > 0) then 1 else 0 := rfl

theorem pset_two {v : Int → Int} (h : ∀ k, k ≠ 0 → k ≠ 1 → v k = 0) :
    pset v = (if v 0 > 0 then [0] else []) ++ (if v 1 > 0 then [1] else []) := by
  apply pset_of
  · split_ifs <;> simp
  · intro k
    by_cases h0 : k = 0
    · subst h0; split_ifs <;> simp_all
    by_cases h1 : k = 1
    · subst h1; split_ifs <;> simp_all
    · rw [h k h0 h1]; split_ifs <;> simp [h0, h1]

theorem opVal_eq (op : Nat) {v : Int → Int} (h : ∀ k, k ≠ 0 → k ≠ 1 → v k = 0) : opVal op (pset v) = decide (val (boolVal op) v = 1) := by
  rw [pset_two h, boolVal_eq]
  unfold opVal inResult
  rcases op with _ | _ | _ | n
  · by_cases a : v 0 > 0 <;> by_cases b : v 1 > 0 <;> simp [a, b]
  · by_cases a : v 0 > 0 <;> by_cases b : v 1 > 0 <;> simp [a, b]
  · by_cases a : v 0 > 0 <;> by_cases b : v 1 > 0 <;> simp [a, b]
  · by_cases a : v 0 > 0 <;> by_cases b : v 1 > 0 <;> simp [a, b]

theorem directed_lessPoint {e : HE} (h : Directed e) : lessPoint e.2 e.1 = false := by
  rw [Bool.eq_false_iff]
  intro hc
  rw [lessPoint_iff] at hc
  rcases h with h | h <;> omega

/-- What is written for an edge with given values on its two sides. -/
def emitV (op : Val) (e : HE) (l r : Int → Int) : List (HE × Int) :=
  if val op l = val op r then [] else [(e, (if e.1.1 = e.2.1 then -1 else 1) * (val op l - val op r))]

theorem emit_bool (op : Nat) {e : HE} (hd : Directed e) {l r : Int → Int} (hl : ∀ k, k ≠ 0 → k ≠ 1 → l k = 0) (hr : ∀ k, k ≠ 0 → k ≠ 1 → r k = 0) :
    emit (boolOut op) e l r = emitV (boolVal op) e l r := by
  have v1 := val_01 (boolVal op) l
  have v2 := val_01 (boolVal op) r
  unfold emit emitV
  by_cases hp : pset l = pset r
  · rw [if_pos hp]
    have a := opVal_eq op hl
    have b := opVal_eq op hr
    rw [hp, b] at a
    have : val (boolVal op) l = val (boolVal op) r := by
      simp only [decide_eq_decide] at a
      omega
    rw [if_pos this]
  · rw [if_neg hp]
    unfold boolOut
    rw [directed_lessPoint hd, opVal_eq op hl, opVal_eq op hr]
    have hv : isVertical e = decide (e.1.1 = e.2.1) := by
      unfold isVertical; rw [Bool.eq_iff_iff]; simp
    rw [hv]
    by_cases h3 : op < 3
    · simp only [h3, if_true]
      rcases v1 with v1 | v1 <;> rcases v2 with v2 | v2 <;> by_cases hv : e.1.1 = e.2.1 <;> simp [v1, v2, hv]
    · simp only [h3, if_false]
      -- both sides cannot be members, since only {0} is
      have hb : ¬ (val (boolVal op) l = 1 ∧ val (boolVal op) r = 1) := by
        rintro ⟨a, b⟩
        apply hp
        rw [pset_two hl, pset_two hr]
        obtain ⟨n, rfl⟩ : ∃ n, op = n + 3 := ⟨op - 3, by omega⟩
        have key : ∀ v : Int → Int, val (boolVal (n + 3)) v = 1 → v 0 > 0 ∧ ¬ v 1 > 0 := by
          intro v hv; rw [boolVal_eq] at hv; unfold inResult at hv; by_contra hc; simp only [hc, if_false] at hv; omega
        have a := key _ a
        have b := key _ b
        simp only [a.1, a.2, b.1, b.2]
      rcases v1 with v1 | v1 <;> rcases v2 with v2 | v2 <;> by_cases hv : e.1.1 = e.2.1 <;> simp [v1, v2, hv] at hb ⊢

end Verif.Arb
