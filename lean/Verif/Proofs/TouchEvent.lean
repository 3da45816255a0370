import Verif.Proofs.Touch
/-! # Helper lemmas: the events of the connectivity extraction -/
namespace Verif.Touch
open Verif.BooleanOp Verif.Set90

/-- The ids toggled at a position. -/
def Event.At (E : Event) (y : Int) (i : Nat) : Prop := ∃ e ∈ E, e.1 = y ∧ i ∈ e.2

/-- An event that stands for the edges `L i y`: the cells `[y, y+1)` where set `i` has an edge. -/
structure EvOk (E : Event) (L : Nat → Int → Prop) : Prop where
  srt : Sorted E
  ne : ∀ e ∈ E, e.2 ≠ []
  nd : ∀ e ∈ E, e.2.Nodup
  at_iff : ∀ y i, E.At y i ↔ ¬ (L i y ↔ L i (y - 1))
  low : ∀ y i, (∀ e ∈ E, y < e.1) → ¬ L i y
  high : ∀ y i, (∀ e ∈ E, e.1 ≤ y) → ¬ L i y

theorem nextOK_mono {s : State Ids} {a b : Int} (h : NextOK s a) (hab : a ≤ b) : NextOK s b := by
  obtain ⟨A, R, h1, h2, h3⟩ := h
  exact ⟨A, R, h1, h2, fun e he => by have := h3 e he; omega⟩

theorem sorted_inj {β : Type} {l : List (Int × β)} (hl : Sorted l) {u v : Int × β} (hu : u ∈ l) (hv : v ∈ l) (huv : u.1 = v.1) : u = v := by
  induction l with
  | nil => simp at hu
  | cons w l ih =>
    have hl' := sorted_cons.mp hl
    rcases List.mem_cons.mp hu with hu1 | hu1 <;> rcases List.mem_cons.mp hv with hv1 | hv1
    · rw [hu1, hv1]
    · have := hl'.1 v hv1; rw [← hu1] at this; omega
    · have := hl'.1 u hu1; rw [← hv1] at this; omega
    · exact ih hl'.2 hu1 hv1

/-! ### Insertion -/

theorem insertPos_spec (p : Int) (i : Nat) : ∀ {E : Event}, Sorted E → (∀ e ∈ E, e.2 ≠ []) → (∀ e ∈ E, e.2.Nodup) → ¬ E.At p i →
    Sorted (E.insertPos p i) ∧ (∀ e ∈ E.insertPos p i, e.2 ≠ []) ∧ (∀ e ∈ E.insertPos p i, e.2.Nodup) ∧
    (∀ y j, (E.insertPos p i).At y j ↔ E.At y j ∨ (y = p ∧ j = i)) ∧
    (∀ y, (∃ e ∈ E.insertPos p i, e.1 = y) ↔ (∃ e ∈ E, e.1 = y) ∨ y = p) := by
  intro E
  induction E with
  | nil =>
    intro _ _ _ _
    refine ⟨by simp [Event.insertPos, Sorted], by simp [Event.insertPos], by simp [Event.insertPos], fun y j => ?_, fun y => ?_⟩
    · simp only [Event.insertPos, Event.At, List.mem_cons, List.not_mem_nil, or_false, exists_eq_left, false_and, exists_false, false_or]
      constructor <;> rintro ⟨rfl, h⟩ <;> exact ⟨rfl, h⟩
    · simp only [Event.insertPos, List.mem_cons, List.not_mem_nil, or_false, exists_eq_left, false_and, exists_false, false_or]
      exact ⟨fun h => h.symm, fun h => h.symm⟩
  | cons e r ih =>
    intro hs hne hnd hat
    have hs' := sorted_cons.mp hs
    unfold Event.insertPos
    by_cases c1 : p < e.1
    · rw [if_pos c1]
      refine ⟨sorted_cons.mpr ⟨?_, hs⟩, ?_, ?_, fun y j => ?_, fun y => ?_⟩
      · intro x hx
        rcases List.mem_cons.mp hx with rfl | hx
        · exact c1
        · have := hs'.1 x hx; simp only; omega
      · intro x hx
        rcases List.mem_cons.mp hx with rfl | hx
        · simp
        · exact hne x hx
      · intro x hx
        rcases List.mem_cons.mp hx with rfl | hx
        · simp
        · exact hnd x hx
      · simp only [Event.At, List.mem_cons (a := _) (b := (p, [i])), exists_eq_or_imp, List.mem_cons, List.not_mem_nil, or_false]
        constructor
        · rintro (⟨rfl, h⟩ | h)
          · exact Or.inr ⟨rfl, h⟩
          · exact Or.inl h
        · rintro (h | ⟨rfl, h⟩)
          · exact Or.inr h
          · exact Or.inl ⟨rfl, h⟩
      · simp only [List.mem_cons (b := (p, [i])), exists_eq_or_imp]
        constructor
        · rintro (h | h)
          · exact Or.inr h.symm
          · exact Or.inl h
        · rintro (h | h)
          · exact Or.inr h
          · exact Or.inl h.symm
    · rw [if_neg c1]
      by_cases c2 : e.1 = p
      · rw [if_pos c2]
        have hi : i ∉ e.2 := fun h => hat ⟨e, by simp, c2, h⟩
        refine ⟨sorted_cons.mpr ⟨fun x hx => ?_, hs'.2⟩, ?_, ?_, fun y j => ?_, fun y => ?_⟩
        · have := hs'.1 x hx; simp only; omega
        · intro x hx
          rcases List.mem_cons.mp hx with rfl | hx
          · intro h
            have : i ∈ toggle i e.2 := mem_toggle.mpr (Or.inl ⟨rfl, hi⟩)
            simp only at h
            rw [h] at this; simp at this
          · exact hne x (by simp [hx])
        · intro x hx
          rcases List.mem_cons.mp hx with rfl | hx
          · exact nodup_toggle (hnd e (by simp))
          · exact hnd x (by simp [hx])
        · simp only [Event.At, List.mem_cons, exists_eq_or_imp, mem_toggle]
          constructor
          · rintro (⟨rfl, h | h⟩ | h)
            · exact Or.inr ⟨rfl, h.1⟩
            · exact Or.inl (Or.inl ⟨c2, h.2⟩)
            · exact Or.inl (Or.inr h)
          · rintro ((⟨h, h'⟩ | h) | ⟨rfl, rfl⟩)
            · refine Or.inl ⟨by omega, Or.inr ⟨fun hj => hi (hj ▸ h'), h'⟩⟩
            · exact Or.inr h
            · exact Or.inl ⟨rfl, Or.inl ⟨rfl, hi⟩⟩
        · simp only [List.mem_cons, exists_eq_or_imp, c2]
          constructor
          · rintro (h | h)
            · exact Or.inr h.symm
            · exact Or.inl (Or.inr h)
          · rintro ((h | h) | h)
            · exact Or.inl h
            · exact Or.inr h
            · exact Or.inl h.symm
      · rw [if_neg c2]
        obtain ⟨i1, i2, i3, i4, i5⟩ := ih hs'.2 (fun x hx => hne x (by simp [hx])) (fun x hx => hnd x (by simp [hx]))
          (fun ⟨x, hx, h⟩ => hat ⟨x, by simp [hx], h⟩)
        refine ⟨sorted_cons.mpr ⟨fun x hx => ?_, i1⟩, ?_, ?_, fun y j => ?_, fun y => ?_⟩
        · rcases (i5 x.1).mp ⟨x, hx, rfl⟩ with ⟨z, hz, h⟩ | h
          · have := hs'.1 z hz; omega
          · omega
        · intro x hx
          rcases List.mem_cons.mp hx with rfl | hx
          · exact hne x (by simp)
          · exact i2 x hx
        · intro x hx
          rcases List.mem_cons.mp hx with rfl | hx
          · exact hnd x (by simp)
          · exact i3 x hx
        · have := i4 y j
          unfold Event.At at this ⊢
          simp only [List.mem_cons, exists_eq_or_imp, this]
          rw [or_assoc]
        · have := i5 y
          simp only [List.mem_cons, exists_eq_or_imp, this]
          rw [or_assoc]

theorem insertIvl_ok {E : Event} {L : Nat → Int → Prop} (h : EvOk E L) {lo hi : Int} {i : Nat} (hlt : lo < hi)
    (hf : ∀ y, lo - 1 ≤ y → y ≤ hi → ¬ L i y) : EvOk (E.insertIvl lo hi i) (fun j y => L j y ∨ (j = i ∧ lo ≤ y ∧ y < hi)) := by
  have hno : ∀ y, lo ≤ y → y ≤ hi → ¬ E.At y i := by
    intro y h1 h2 hat
    exact (h.at_iff y i).mp hat (iff_of_false (hf y (by omega) h2) (hf (y - 1) (by omega) (by omega)))
  obtain ⟨a1, a2, a3, a4, a5⟩ := insertPos_spec lo i h.srt h.ne h.nd (hno lo (le_refl _) (by omega))
  obtain ⟨b1, b2, b3, b4, b5⟩ := insertPos_spec hi i a1 a2 a3 (fun hat => by
    rcases (a4 hi i).mp hat with h' | h'
    · exact hno hi (by omega) (le_refl _) h'
    · omega)
  refine ⟨b1, b2, b3, fun y j => ?_, fun y j hy => ?_, fun y j hy => ?_⟩
  · unfold Event.insertIvl
    rw [b4, a4, h.at_iff]
    by_cases hj : j = i
    · subst hj
      by_cases hy : lo ≤ y ∧ y ≤ hi
      · have n1 := hf y (by omega) hy.2
        have n2 := hf (y - 1) (by omega) (by omega)
        simp only [n1, n2, false_or, true_and, and_true, not_true]
        constructor
        · rintro (h | h) hc <;> have := hc.mp <;> omega
        · intro hc
          by_contra hn
          exact hc ⟨fun _ => by omega, fun _ => by omega⟩
      · have e1 : ¬ (lo ≤ y ∧ y < hi) := by omega
        have e2 : ¬ (lo ≤ y - 1 ∧ y - 1 < hi) := by omega
        have e3 : ¬ y = lo := by omega
        have e4 : ¬ y = hi := by omega
        simp only [e1, e2, e3, e4, and_false, or_false, false_and]
    · simp only [hj, and_false, or_false, false_and]
  · have hk : ∀ e ∈ E, y < e.1 := by
      intro e he
      obtain ⟨z, hz, hze⟩ := (b5 e.1).mpr (Or.inl ((a5 e.1).mpr (Or.inl ⟨e, he, rfl⟩)))
      have := hy z hz; omega
    obtain ⟨z, hz, hze⟩ := (b5 lo).mpr (Or.inl ((a5 lo).mpr (Or.inr rfl)))
    have := hy z hz
    rintro (hl | ⟨-, h1, h2⟩)
    · exact h.low y j hk hl
    · omega
  · have hk : ∀ e ∈ E, e.1 ≤ y := by
      intro e he
      obtain ⟨z, hz, hze⟩ := (b5 e.1).mpr (Or.inl ((a5 e.1).mpr (Or.inl ⟨e, he, rfl⟩)))
      have := hy z hz; omega
    obtain ⟨z, hz, hze⟩ := (b5 hi).mpr (Or.inr rfl)
    have := hy z hz
    rintro (hl | ⟨-, h1, h2⟩)
    · exact h.high y j hk hl
    · omega

theorem evOk_nil : EvOk [] (fun _ _ => False) :=
  ⟨List.Pairwise.nil, by simp, by simp, by simp [Event.At], by simp, by simp⟩

theorem evOk_congr {E : Event} {L M : Nat → Int → Prop} (h : EvOk E L) (e : ∀ i y, L i y ↔ M i y) : EvOk E M := by
  have : L = M := funext fun i => funext fun y => propext (e i y)
  rw [← this]; exact h

/-! ### Processing an event -/

/-- Between two positions of the event the edges do not change. -/
theorem evOk_const {P : Event} {a b : Int × Ids} {r : Event} {L : Nat → Int → Prop} (h : EvOk (P ++ a :: b :: r) L) (i : Nat) :
    ∀ y, a.1 ≤ y → y < b.1 → (L i y ↔ L i a.1) := by
  have key : ∀ n : Nat, a.1 + n < b.1 → (L i (a.1 + n) ↔ L i a.1) := by
    intro n
    induction n with
    | zero => intro _; simp
    | succ n ih =>
      intro hn
      have ih' := ih (by push_cast at hn; omega)
      rw [← ih']
      by_contra hc
      have : (a.1 + ((n + 1 : Nat) : Int)) - 1 = a.1 + n := by push_cast; omega
      rw [← this] at hc
      obtain ⟨e, he, hk, -⟩ := (h.at_iff _ i).mpr hc
      have hs := sorted_append.mp h.srt
      have hs2 := sorted_cons.mp hs.2.1
      have hs3 := sorted_cons.mp hs2.2
      rcases List.mem_append.mp he with he | he
      · have := hs.2.2 e he a (by simp); push_cast at hk; omega
      · rcases List.mem_cons.mp he with rfl | he
        · push_cast at hk; omega
        · rcases List.mem_cons.mp he with rfl | he
          · push_cast at hk hn; omega
          · have := hs3.1 e he; push_cast at hk hn; omega
  intro y h1 h2
  have := key (y - a.1).toNat (by omega)
  rwa [show a.1 + ((y - a.1).toNat : Int) = y by omega] at this

/-- The pairs found when the edges `L` from position `a` on are added to the scan `S`. -/
def Found (L S : Nat → Int → Prop) (a : Int) (p : Nat × Nat) : Prop :=
  ∃ c d y1 y2, a ≤ y1 ∧ L c y1 ∧ (S d y2 ∨ (a ≤ y2 ∧ L d y2)) ∧ y1 - 1 ≤ y2 ∧ y2 ≤ y1 + 1 ∧ Link c d p

theorem found_step {L S S1 : Nat → Int → Prop} {a b : Int} (hab : a < b) {ids : Ids} (hids : ∀ y, a ≤ y → y < b → ∀ i, i ∈ ids ↔ L i y)
    (hS1 : ∀ i y, S1 i y ↔ S i y ∨ (a ≤ y ∧ y < b ∧ L i y)) (p : Nat × Nat) :
    Found L S a p ↔ (∃ c ∈ ids, ∃ d, (d ∈ ids ∨ ∃ y, a - 1 ≤ y ∧ y ≤ b ∧ S d y) ∧ Link c d p) ∨ Found L S1 b p := by
  constructor
  · rintro ⟨c, d, y1, y2, h1, h2, h3, h4, h5, hk⟩
    by_cases hy : b ≤ y1
    · right
      refine ⟨c, d, y1, y2, hy, h2, ?_, h4, h5, hk⟩
      rcases h3 with h3 | ⟨h3, h6⟩
      · exact Or.inl ((hS1 _ _).mpr (Or.inl h3))
      · by_cases hy2 : b ≤ y2
        · exact Or.inr ⟨hy2, h6⟩
        · exact Or.inl ((hS1 _ _).mpr (Or.inr ⟨h3, by omega, h6⟩))
    · have hc : c ∈ ids := (hids y1 h1 (by omega) c).mpr h2
      rcases h3 with h3 | ⟨h3, h6⟩
      · left; exact ⟨c, hc, d, Or.inr ⟨y2, by omega, by omega, h3⟩, hk⟩
      · by_cases hy2 : y2 < b
        · left; exact ⟨c, hc, d, Or.inl ((hids y2 h3 hy2 d).mpr h6), hk⟩
        · right
          exact ⟨d, c, y2, y1, by omega, h6, Or.inl ((hS1 _ _).mpr (Or.inr ⟨h1, by omega, h2⟩)), by omega, by omega, hk.symm⟩
  · rintro (⟨c, hc, d, hd, hk⟩ | ⟨c, d, y1, y2, h1, h2, h3, h4, h5, hk⟩)
    · rcases hd with hd | ⟨y, h1, h2, hd⟩
      · exact ⟨c, d, a, a, le_refl _, (hids a (le_refl _) hab c).mp hc, Or.inr ⟨le_refl _, (hids a (le_refl _) hab d).mp hd⟩,
          by omega, by omega, hk⟩
      · by_cases e1 : y = a - 1
        · exact ⟨c, d, a, y, le_refl _, (hids a (le_refl _) hab c).mp hc, Or.inl hd, by omega, by omega, hk⟩
        · by_cases e2 : y = b
          · exact ⟨c, d, b - 1, y, by omega, (hids (b - 1) (by omega) (by omega) c).mp hc, Or.inl hd, by omega, by omega, hk⟩
          · exact ⟨c, d, y, y, by omega, (hids y (by omega) (by omega) c).mp hc, Or.inl hd, by omega, by omega, hk⟩
    · refine ⟨c, d, y1, y2, by omega, h2, ?_, h4, h5, hk⟩
      rcases h3 with h3 | ⟨h3, h6⟩
      · rcases (hS1 _ _).mp h3 with h | ⟨h, -, h'⟩
        · exact Or.inl h
        · exact Or.inr ⟨h, h'⟩
      · exact Or.inr ⟨by omega, h6⟩

/-- The scan after an event: union with or difference from the edges at positions `≥ a`. -/
def After (lead : Bool) (L S : Nat → Int → Prop) (a : Int) (i : Nat) (y : Int) : Prop :=
  if a ≤ y then (if lead then S i y ∨ L i y else S i y ∧ ¬ L i y) else S i y

theorem after_step {lead : Bool} {L S S1 : Nat → Int → Prop} {a b : Int} (hab : a < b)
    (hS1 : ∀ i y, S1 i y ↔ if a ≤ y ∧ y < b then (if lead then S i y ∨ L i y else S i y ∧ ¬ L i y) else S i y) (i : Nat) (y : Int) :
    After lead L S1 b i y ↔ After lead L S a i y := by
  unfold After
  by_cases h1 : b ≤ y
  · have ha : a ≤ y := by omega
    have hn : ¬ (a ≤ y ∧ y < b) := by omega
    have e : S1 i y ↔ S i y := by rw [hS1, if_neg hn]
    rw [if_pos h1, if_pos ha, e]
  · rw [if_neg h1, hS1]
    by_cases h2 : a ≤ y
    · rw [if_pos ⟨h2, by omega⟩, if_pos h2]
    · rw [if_neg (by omega), if_neg h2]

/-- The set read by the iterator. -/
theorem next_ids {P : Event} {a b : Int × Ids} {r : Event} {L : Nat → Int → Prop} (h : EvOk (P ++ a :: b :: r) L) {ids : Ids}
    (hn : ids.Nodup) (hi : ∀ i, i ∈ ids ↔ L i a.1) :
    (b.2.foldl (fun s i => toggle i s) ids).Nodup ∧ ∀ i, i ∈ b.2.foldl (fun s i => toggle i s) ids ↔ L i b.1 := by
  have hb : b ∈ P ++ a :: b :: r := by simp
  obtain ⟨t1, t2⟩ := toggle_fold b.2 ids (h.nd b hb)
  refine ⟨t2 hn, fun i => ?_⟩
  have hs := sorted_append.mp h.srt
  have hs2 := sorted_cons.mp hs.2.1
  have hab := hs2.1 b (by simp)
  have hc := evOk_const h i (b.1 - 1) (by omega) (by omega)
  have hat : i ∈ b.2 ↔ ¬ (L i b.1 ↔ L i (b.1 - 1)) := by
    rw [← h.at_iff]
    constructor
    · intro hi; exact ⟨b, hb, rfl, hi⟩
    · rintro ⟨e, he, hk, hi⟩
      have : e = b := sorted_inj h.srt he hb hk
      rw [← this]; exact hi
  rw [t1, hat, hi, hc]
  tauto

theorem adds_iff (lead : Bool) (ids : Ids) (m : Map Ids) (lo hi : Int) (p : Nat × Nat) :
    Adds lead ids (fun v => ∃ y, lo - 1 ≤ y ∧ y ≤ hi ∧ v = valD 0 m y) p ↔
    lead = true ∧ ∃ c ∈ ids, ∃ d, (d ∈ ids ∨ ∃ y, lo - 1 ≤ y ∧ y ≤ hi ∧ d ∈ valD 0 m y) ∧ Link c d p := by
  unfold Adds
  constructor
  · rintro ⟨h, c, hc, d, hd, hk⟩
    refine ⟨h, c, hc, d, ?_, hk⟩
    rcases hd with hd | ⟨v, ⟨y, h1, h2, rfl⟩, hd⟩
    · exact Or.inl hd
    · exact Or.inr ⟨y, h1, h2, hd⟩
  · rintro ⟨h, c, hc, d, hd, hk⟩
    refine ⟨h, c, hc, d, ?_, hk⟩
    rcases hd with hd | ⟨y, h1, h2, hd⟩
    · exact Or.inl hd
    · exact Or.inr ⟨_, ⟨y, h1, h2, rfl⟩, hd⟩

theorem after_congr {lead : Bool} {L S S1 : Nat → Int → Prop} {a : Int} (h : ∀ i y, S1 i y ↔ S i y) (i : Nat) (y : Int) :
    After lead L S1 a i y ↔ After lead L S a i y := by
  have : S1 = S := funext fun i => funext fun y => propext (h i y)
  rw [this]

/-- The scan after an event, from the position of `a` on. -/
theorem eventGo_spec (lead : Bool) {L : Nat → Int → Prop} : ∀ (fuel : Nat) (P : Event) (a b : Int × Ids) (r : Event)
    (it : Iter) (g : Graph) (s : State Ids), EvOk (P ++ a :: b :: r) L → it.rest = b :: r → r.length < fuel → it.ids.Nodup →
    (∀ i, i ∈ it.ids ↔ L i a.1) → (it.inc = true ∧ it.hi = a.1 ∨ it.inc = false ∧ it.lo = a.1 ∧ it.hi = b.1) →
    Sorted s.scan → lastVal (0 : Ids) s.scan = 0 → NextOK s a.1 →
    (lead = true → ∀ i y, a.1 ≤ y → L i y → i ∉ valD (0 : Ids) s.scan y) →
    (lead = false → ∀ i y, a.1 ≤ y → L i y → i ∈ valD (0 : Ids) s.scan y) →
    ∃ g' s', eventGo lead fuel it g s = some (g', s') ∧ Sorted s'.scan ∧ lastVal (0 : Ids) s'.scan = 0 ∧
      (∀ i y, i ∈ valD (0 : Ids) s'.scan y ↔ After lead L (fun i y => i ∈ valD (0 : Ids) s.scan y) a.1 i y) ∧
      ∀ p, p ∈ g' ↔ p ∈ g ∨ (lead = true ∧ Found L (fun i y => i ∈ valD (0 : Ids) s.scan y) a.1 p) := by
  intro fuel
  induction fuel with
  | zero => intro P a b r it g s _ _ hf; omega
  | succ fuel ih =>
    -- one elementary interval with its set, then the rest
    have main : ∀ (P : Event) (a b : Int × Ids) (r : Event) (ids : Ids) (g : Graph) (s : State Ids), EvOk (P ++ a :: b :: r) L →
        r.length < fuel + 1 → ids.Nodup → ids ≠ [] →
        (∀ i, i ∈ ids ↔ L i a.1) → Sorted s.scan → lastVal (0 : Ids) s.scan = 0 → NextOK s a.1 →
        (lead = true → ∀ i y, a.1 ≤ y → L i y → i ∉ valD (0 : Ids) s.scan y) →
        (lead = false → ∀ i y, a.1 ≤ y → L i y → i ∈ valD (0 : Ids) s.scan y) →
        ∃ s1 g1 g' s', processInterval lead g s a.1 b.1 ids = some (s1, g1) ∧
          eventGo lead fuel ⟨r, a.1, b.1, b.2.foldl (fun s i => toggle i s) ids, true⟩ g1 s1 = some (g', s') ∧
          Sorted s'.scan ∧ lastVal (0 : Ids) s'.scan = 0 ∧
          (∀ i y, i ∈ valD (0 : Ids) s'.scan y ↔ After lead L (fun i y => i ∈ valD (0 : Ids) s.scan y) a.1 i y) ∧
          ∀ p, p ∈ g' ↔ p ∈ g ∨ (lead = true ∧ Found L (fun i y => i ∈ valD (0 : Ids) s.scan y) a.1 p) := by
      intro P a b r ids g s h hf hnd hne hids hs hz hn hl ht
      have hsrt := sorted_append.mp h.srt
      have hs2 := sorted_cons.mp hsrt.2.1
      have hab := hs2.1 b (by simp)
      have hL : ∀ y, a.1 ≤ y → y < b.1 → ∀ i, i ∈ ids ↔ L i y := fun y h1 h2 i => by
        rw [hids, evOk_const h i y h1 h2]
      obtain ⟨s1, g1, e1, e2, e3, e4, e5, e6⟩ := processInterval_spec lead g s a.1 b.1 ids hs hz hn hab hnd
        (fun hle y h1 h2 c hc => hl hle c y h1 ((hL y h1 h2 c).mp hc))
        (fun hle => ⟨hne, fun y h1 h2 c hc => ht hle c y h1 ((hL y h1 h2 c).mp hc)⟩)
      have hS1 : ∀ i y, i ∈ valD (0 : Ids) s1.scan y ↔ if a.1 ≤ y ∧ y < b.1 then
          (if lead then i ∈ valD (0 : Ids) s.scan y ∨ L i y else i ∈ valD (0 : Ids) s.scan y ∧ ¬ L i y) else i ∈ valD (0 : Ids) s.scan y := by
        intro i y
        rw [e5]
        by_cases c : a.1 ≤ y ∧ y < b.1
        · rw [if_pos c, if_pos c, hL y c.1 c.2]
        · rw [if_neg c, if_neg c]
      have hfound : ∀ p, (p ∈ g1 ∨ (lead = true ∧ Found L (fun i y => i ∈ valD (0 : Ids) s1.scan y) b.1 p)) ↔
          p ∈ g ∨ (lead = true ∧ Found L (fun i y => i ∈ valD (0 : Ids) s.scan y) a.1 p) := by
        intro p
        rw [e6, adds_iff]
        by_cases hle : lead = true
        · have := found_step (S := fun i y => i ∈ valD (0 : Ids) s.scan y) (S1 := fun i y => i ∈ valD (0 : Ids) s1.scan y) hab hL
            (fun i y => by
              rw [hS1]
              by_cases c : a.1 ≤ y ∧ y < b.1
              · rw [if_pos c, if_pos hle]
                constructor
                · rintro (h | h)
                  · exact Or.inl h
                  · exact Or.inr ⟨c.1, c.2, h⟩
                · rintro (h | h)
                  · exact Or.inl h
                  · exact Or.inr h.2.2
              · rw [if_neg c]
                constructor
                · exact Or.inl
                · rintro (h | h)
                  · exact h
                  · exact absurd ⟨h.1, h.2.1⟩ c) p
          rw [this]
          simp only [hle, true_and]
          rw [or_assoc]
        · simp [hle]
      cases r with
      | nil =>
        refine ⟨s1, g1, g1, s1, e1, by unfold eventGo; rfl, e2, e3, fun i y => ?_, fun p => ?_⟩
        · rw [hS1]
          unfold After
          by_cases c1 : a.1 ≤ y
          · rw [if_pos c1]
            by_cases c2 : y < b.1
            · rw [if_pos ⟨c1, c2⟩]
            · rw [if_neg (by omega)]
              have : ¬ L i y := h.high y i (fun e he => by
                rcases List.mem_append.mp he with he | he
                · have := hsrt.2.2 e he a (by simp); omega
                · rcases List.mem_cons.mp he with rfl | he
                  · omega
                  · simp at he; rw [he]; omega)
              simp [this]
          · rw [if_neg c1, if_neg (by omega)]
        · rw [← hfound]
          constructor
          · exact Or.inl
          · rintro (hp | ⟨-, c, d, y1, y2, h1, h2, -⟩)
            · exact hp
            · exact absurd h2 (h.high y1 c (fun e he => by
                rcases List.mem_append.mp he with he | he
                · have := hsrt.2.2 e he a (by simp); omega
                · rcases List.mem_cons.mp he with rfl | he
                  · omega
                  · simp at he; rw [he]; omega))
      | cons c r =>
        obtain ⟨n1, n2⟩ := next_ids h hnd hids
        obtain ⟨g', s', f1, f2, f3, f4, f5⟩ := ih (P ++ [a]) b c r ⟨c :: r, a.1, b.1, b.2.foldl (fun s i => toggle i s) ids, true⟩ g1 s1
          (by simpa using h) rfl (by simp at hf; omega) n1 n2 (Or.inl ⟨rfl, rfl⟩) e2 e3 e4
          (fun hle i y h1 h2 => by rw [hS1, if_neg (by omega)]; exact hl hle i y (by omega) h2)
          (fun hle i y h1 h2 => by rw [hS1, if_neg (by omega)]; exact ht hle i y (by omega) h2)
        refine ⟨s1, g1, g', s', e1, f1, f2, f3, fun i y => ?_, fun p => ?_⟩
        · rw [f4]; exact after_step hab hS1 i y
        · rw [f5, hfound]
    intro P a b r it g s h hrest hf hnd hids hpos hs hz hn hl ht
    have hsrt := sorted_append.mp h.srt
    have hs2 := sorted_cons.mp hsrt.2.1
    have hs3 := sorted_cons.mp hs2.2
    have hab := hs2.1 b (by simp)
    -- the iterator after `update`
    have hup : it.update = some ⟨b :: r, a.1, b.1, it.ids, false⟩ := by
      obtain ⟨rest, lo, hi, ids, inc⟩ := it
      simp only at hrest hpos
      unfold Iter.update
      rcases hpos with ⟨h1, h2⟩ | ⟨h1, h2, h3⟩
      · simp only [h1, hrest, if_true, h2]
      · simp only [h1, hrest, h2, h3]; simp
    by_cases hids0 : it.ids = []
    · -- an empty set: the iterator skips to the next position
      obtain ⟨n1, n2⟩ := next_ids h hnd hids
      have hLa : ∀ i y, a.1 ≤ y → y < b.1 → ¬ L i y := by
        intro i y h1 h2 h3
        rw [evOk_const h i y h1 h2, ← hids, hids0] at h3
        simp at h3
      have hbne : b.2.foldl (fun s i => toggle i s) it.ids ≠ [] := by
        obtain ⟨j, hj⟩ := List.exists_mem_of_ne_nil _ (h.ne b (by simp))
        have : j ∈ b.2.foldl (fun s i => toggle i s) it.ids :=
          ((toggle_fold b.2 it.ids (h.nd b (by simp))).1 j).mpr (Or.inl ⟨hj, by rw [hids0]; simp⟩)
        intro e; rw [e] at this; simp at this
      obtain ⟨j, hj⟩ := List.exists_mem_of_ne_nil _ hbne
      have hLb := (n2 j).mp hj
      cases r with
      | nil =>
        exfalso
        refine h.high b.1 j (fun e he => ?_) hLb
        rcases List.mem_append.mp he with he | he
        · have := hsrt.2.2 e he a (by simp); omega
        · rcases List.mem_cons.mp he with rfl | he
          · omega
          · simp at he; rw [he]
      | cons c r =>
        obtain ⟨s1, g1, g', s', f0, f1, f2, f3, f4, f5⟩ := main (P ++ [a]) b c r _ g s (by simpa using h) (by simp at hf; omega) n1 hbne n2 hs hz
          (nextOK_mono hn (by omega)) (fun hle i y h1 h2 => hl hle i y (by omega) h2) (fun hle i y h1 h2 => ht hle i y (by omega) h2)
        have hd : it.deref = some ⟨c :: r, b.1, c.1, b.2.foldl (fun s i => toggle i s) it.ids, false⟩ := by
          unfold Iter.deref
          rw [hup]
          simp [hids0, Iter.next, Iter.update]
        have hd2 : (⟨c :: r, b.1, c.1, b.2.foldl (fun s i => toggle i s) it.ids, false⟩ : Iter).deref =
            some ⟨c :: r, b.1, c.1, b.2.foldl (fun s i => toggle i s) it.ids, false⟩ := by
          simp [Iter.deref, Iter.update, hbne]
        refine ⟨g', s', ?_, f2, f3, fun i y => ?_, fun p => ?_⟩
        · rw [eventGo, hrest]
          simp only [hd, hd2, Option.bind_eq_bind, Option.bind_some, f0, Iter.next, f1]
        · rw [f4]
          refine after_step hab (fun i y => ?_) i y
          by_cases hc : a.1 ≤ y ∧ y < b.1
          · rw [if_pos hc]
            have := hLa i y hc.1 hc.2
            simp [this]
          · rw [if_neg hc]
        · rw [f5]
          have := found_step (S := fun i y => i ∈ valD (0 : Ids) s.scan y) (S1 := fun i y => i ∈ valD (0 : Ids) s.scan y) (L := L) hab (ids := [])
            (fun y h1 h2 i => by simp [hLa i y h1 h2]) (fun i y => by
              constructor
              · exact Or.inl
              · rintro (h | ⟨h1, h2, h3⟩)
                · exact h
                · exact absurd h3 (hLa i y h1 h2)) p
          rw [this]
          simp
    · obtain ⟨s1, g1, g', s', f0, f1, f2, f3, f4, f5⟩ := main P a b r it.ids g s h hf hnd hids0 hids hs hz hn hl ht
      have hd : it.deref = some ⟨b :: r, a.1, b.1, it.ids, false⟩ := by
        unfold Iter.deref
        rw [hup]
        simp [hids0, Iter.update]
      have hd2 : (⟨b :: r, a.1, b.1, it.ids, false⟩ : Iter).deref = some ⟨b :: r, a.1, b.1, it.ids, false⟩ := by
        simp [Iter.deref, Iter.update, hids0]
      refine ⟨g', s', ?_, f2, f3, f4, f5⟩
      rw [eventGo, hrest]
      simp only [hd, hd2, Option.bind_eq_bind, Option.bind_some, f0, Iter.next, f1]

/-- A whole event. -/
theorem processEvent_spec (lead : Bool) {L : Nat → Int → Prop} {E : Event} (h : EvOk E L) (g : Graph) (s : State Ids)
    (hs : Sorted s.scan) (hz : lastVal (0 : Ids) s.scan = 0)
    (hl : lead = true → ∀ i y, L i y → i ∉ valD (0 : Ids) s.scan y) (ht : lead = false → ∀ i y, L i y → i ∈ valD (0 : Ids) s.scan y) :
    ∃ g' s', processEvent lead g s.advance E = some (g', s') ∧ Sorted s'.scan ∧ lastVal (0 : Ids) s'.scan = 0 ∧
      (∀ i y, i ∈ valD (0 : Ids) s'.scan y ↔ if lead then i ∈ valD (0 : Ids) s.scan y ∨ L i y else i ∈ valD (0 : Ids) s.scan y ∧ ¬ L i y) ∧
      ∀ p, p ∈ g' ↔ p ∈ g ∨ (lead = true ∧ ∃ c d y1 y2, L c y1 ∧ (d ∈ valD (0 : Ids) s.scan y2 ∨ L d y2) ∧ y1 - 1 ≤ y2 ∧ y2 ≤ y1 + 1 ∧ Link c d p) := by
  match E, h with
  | [], h =>
    have hn : ∀ i y, ¬ L i y := fun i y => h.low y i (by simp)
    refine ⟨g, s.advance, by simp [processEvent, Event.begin, eventGo], hs, hz, fun i y => ?_, fun p => ?_⟩
    · show i ∈ valD (0 : Ids) s.scan y ↔ _
      simp [hn]
    · simp [hn]
  | [e], h =>
    exfalso
    obtain ⟨j, hj⟩ := List.exists_mem_of_ne_nil _ (h.ne e (by simp))
    have := (h.at_iff e.1 j).mp ⟨e, by simp, rfl, hj⟩
    exact this (iff_of_false (h.high e.1 j (by simp)) (h.low (e.1 - 1) j (by simp)))
  | a :: b :: r, h =>
    have hs2 := sorted_cons.mp h.srt
    have hlow : ∀ i y, y < a.1 → ¬ L i y := fun i y hy => h.low y i (fun e he => by
      rcases List.mem_cons.mp he with rfl | he
      · exact hy
      · have := hs2.1 e he; omega)
    have hat : ∀ i, i ∈ a.2 ↔ L i a.1 := by
      intro i
      have h1 := h.at_iff a.1 i
      have h2 := hlow i (a.1 - 1) (by omega)
      constructor
      · intro hi
        have := h1.mp ⟨a, by simp, rfl, hi⟩
        tauto
      · intro hi
        obtain ⟨e, he, hk, hi⟩ := h1.mpr (by tauto)
        rwa [sorted_inj h.srt he (by simp : a ∈ a :: b :: r) hk] at hi
    obtain ⟨g', s', f1, f2, f3, f4, f5⟩ := eventGo_spec lead ((a :: b :: r).length + 1) [] a b r ⟨b :: r, a.1, b.1, a.2, false⟩ g s.advance
      h rfl (by simp; omega) (h.nd a (by simp)) hat (Or.inr ⟨rfl, rfl, rfl⟩) hs hz ⟨[], s.scan, rfl, rfl, by simp [KLt]⟩
      (fun hle i y _ h2 => hl hle i y h2) (fun hle i y _ h2 => ht hle i y h2)
    refine ⟨g', s', by simp [processEvent, Event.begin]; simpa using f1, f2, f3, fun i y => ?_, fun p => ?_⟩
    · rw [f4]
      unfold After
      show (if a.1 ≤ y then (if lead then i ∈ valD (0 : Ids) s.scan y ∨ L i y else i ∈ valD (0 : Ids) s.scan y ∧ ¬ L i y) else i ∈ valD (0 : Ids) s.scan y) ↔ _
      by_cases c : a.1 ≤ y
      · rw [if_pos c]
      · rw [if_neg c]
        simp [hlow i y (by omega)]
    · rw [f5]
      refine or_congr_right (and_congr_right fun _ => ?_)
      constructor
      · rintro ⟨c, d, y1, y2, h1, h2, h3, h4⟩
        refine ⟨c, d, y1, y2, h2, ?_, h4⟩
        rcases h3 with h3 | h3
        · exact Or.inl h3
        · exact Or.inr h3.2
      · rintro ⟨c, d, y1, y2, h2, h3, h4⟩
        refine ⟨c, d, y1, y2, ?_, h2, ?_, h4⟩
        · by_contra hc; exact hlow c y1 (by omega) h2
        · rcases h3 with h3 | h3
          · exact Or.inl h3
          · refine Or.inr ⟨?_, h3⟩
            by_contra hc; exact hlow d y2 (by omega) h3

end Verif.Touch
