import Verif.Proofs.FormWeb
/-!
# One point: `processPoint_`
-/
namespace Verif.ArbForm
open Verif.Arb Verif.Contains Verif.Spec.Arb

/-- From the top to the bottom the signs lead from the first value to the last one; all values are 0 or 1. -/
def Colors {α : Type} (s : α → Int) : Int → List α → Int → Prop
  | t, [], b => t = b ∧ (t = 0 ∨ t = 1)
  | t, a :: r, b => (t = 0 ∨ t = 1) ∧ s a ≠ 0 ∧ Colors s (t - s a) r b

/-- The members of pairs one after the other. -/
def flat {α : Type} (P : List (α × α)) : List α := P.flatMap (fun x => [x.1, x.2])

theorem flat_cons {α : Type} (x : α × α) (P : List (α × α)) : flat (x :: P) = x.1 :: x.2 :: flat P := rfl

theorem Colors.bounds {α : Type} {s : α → Int} : ∀ {L : List α} {t b : Int}, Colors s t L b → (t = 0 ∨ t = 1) ∧ (b = 0 ∨ b = 1)
  | [], t, b, h => ⟨h.2, h.1 ▸ h.2⟩
  | a :: r, t, b, h => ⟨h.1, (Colors.bounds h.2.2).2⟩

theorem colors_zero {α : Type} {s : α → Int} : ∀ (n : Nat) {L : List α} {b : Int}, L.length ≤ n → Colors s 0 L b →
    ∃ P : List (α × α), (∀ x ∈ P, s x.1 = -1 ∧ s x.2 = 1) ∧ ((b = 0 ∧ L = flat P) ∨ (b = 1 ∧ ∃ d, s d = -1 ∧ L = flat P ++ [d]))
  | n, [], b, _, h => ⟨[], by simp, Or.inl ⟨h.1.symm, rfl⟩⟩
  | 0, a :: L, b, hn, _ => by simp at hn
  | n, [a], b, _, h => by
    obtain ⟨_, h2, h3, h4⟩ := h
    refine ⟨[], by simp, Or.inr ⟨by omega, a, by omega, rfl⟩⟩
  | n + 1, a :: c :: L, b, hn, h => by
    obtain ⟨_, h2, h3, h4, h5⟩ := h
    have hb := h5.bounds.1
    have ha : s a = -1 := by omega
    have hc : s c = 1 := by omega
    rw [ha, hc] at h5
    obtain ⟨P, hP, h⟩ := colors_zero n (by simp at hn ⊢; omega) h5
    refine ⟨(a, c) :: P, ?_, ?_⟩
    · intro x hx
      rcases List.mem_cons.1 hx with rfl | hx
      · exact ⟨ha, hc⟩
      · exact hP x hx
    · rw [flat_cons]
      rcases h with ⟨rfl, rfl⟩ | ⟨rfl, d, hd, rfl⟩
      · exact Or.inl ⟨rfl, rfl⟩
      · exact Or.inr ⟨rfl, d, hd, rfl⟩

/-- The four shapes of a list of signs. -/
theorem colors_shape {α : Type} {s : α → Int} {L : List α} {t b : Int} (h : Colors s t L b) :
    (t = 1 ∧ b = 1 ∧ L = []) ∨ ∃ (u d : Option α) (P : List (α × α)), L = u.toList ++ (flat P ++ d.toList) ∧
      (∀ x ∈ P, s x.1 = -1 ∧ s x.2 = 1) ∧ (∀ a, u = some a → s a = 1) ∧ (∀ a, d = some a → s a = -1) ∧
      (t = if u.isSome then 1 else 0) ∧ (b = if d.isSome then 1 else 0) := by
  rcases h.bounds.1 with rfl | rfl
  · right
    obtain ⟨P, hP, ⟨rfl, rfl⟩ | ⟨rfl, d, hd, rfl⟩⟩ := colors_zero _ le_rfl h
    · exact ⟨none, none, P, by simp, hP, by simp, by simp, rfl, rfl⟩
    · exact ⟨none, some d, P, by simp, hP, by simp, by simpa using hd, rfl, rfl⟩
  · cases L with
    | nil => exact Or.inl ⟨rfl, h.1.symm, rfl⟩
    | cons a L =>
      right
      obtain ⟨_, h2, h3⟩ := h
      have hb := h3.bounds.1
      have ha : s a = 1 := by omega
      rw [ha] at h3
      obtain ⟨P, hP, ⟨rfl, rfl⟩ | ⟨rfl, d, hd, rfl⟩⟩ := colors_zero _ le_rfl h3
      · exact ⟨some a, none, P, by simp, hP, by simpa using ha, by simp, rfl, rfl⟩
      · exact ⟨some a, some d, P, by simp, hP, by simpa using ha, by simpa using hd, rfl, rfl⟩

/-! ### The first loop -/

/-- The open end of an element. -/
abbrev en (a : V × Nat) : End := (a.2, a.1.2, a.1.1.1)
/-- The side made when the element ends. -/
abbrev cl (p : Pt) (a : V × Nat) : Edge := dir a.1.1.1 p a.1.2
/-- The slot of an element. -/
abbrev cslot (a : V × Nat) : CSlot := (a.1.2, some a.2)

theorem nz_none {α : Type} : ∀ {Z : List (Int × α)}, (∀ z ∈ Z, z.1 = 0) → nz Z = none
  | [], _ => rfl
  | a :: Z, h => by
    rw [nz, if_neg (by simpa using h a List.mem_cons_self), nz_none (fun z hz => h z (List.mem_cons_of_mem _ hz))]; rfl

theorem nz_some {α : Type} {a : Int × α} (ha : a.1 ≠ 0) (r : List (Int × α)) : ∀ {Z : List (Int × α)}, (∀ z ∈ Z, z.1 = 0) → nz (Z ++ a :: r) = some (Z, a, r)
  | [], _ => by rw [List.nil_append, nz, if_pos ha]
  | b :: Z, h => by
    rw [List.cons_append, nz, if_neg (by simpa using h b List.mem_cons_self), nz_some ha r (fun z hz => h z (List.mem_cons_of_mem _ hz))]; rfl

/-- Empty slots. -/
abbrev zs (n : Nat) : List CSlot := List.replicate n (0, none)

theorem zs_zero (n : Nat) : ∀ z ∈ zs n, z.1 = 0 := fun z hz => by rw [List.eq_of_mem_replicate hz]

theorem closeSolid_spec (p : Pt) (R : Option (V × Nat)) (hR : ∀ a, R = some a → a.1.2 = -1) : ∀ (P : List ((V × Nat) × (V × Nat))) (n : Nat) (s : PS) (A : List End) (X : List Edge),
    2 * P.length + R.toList.length ≤ n + 1 → (∀ x ∈ P, x.1.1.2 = -1 ∧ x.2.1.2 = 1 ∧ x.1.1.1.1 ≠ p ∧ x.2.1.1.1 ≠ p) →
    Web s.H ((flat P).map en ++ A) none s.out X →
    ∃ H' out', closeSolid p n ((flat P ++ R.toList).map cslot) s = some (zs (2 * P.length) ++ R.toList.map cslot, { s with H := H', out := out' }) ∧
      Web H' A none out' ((flat P).map (cl p) ++ X)
  | [], n, s, A, X, _, _, w => by
    refine ⟨s.H, s.out, ?_, by simpa [flat] using w⟩
    cases R with
    | none => cases n <;> simp [closeSolid, flat]
    | some r =>
      have := hR r rfl
      cases n with
      | zero => simp [closeSolid, flat]
      | succ n => cases n <;> simp [closeSolid, flat, this, nz]
  | (a, b) :: P, n, s, A, X, hn, hP, w => by
    obtain ⟨a1, b1, ap, bp⟩ := hP (a, b) List.mem_cons_self
    dsimp only at a1 b1 ap bp
    simp only [List.length_cons] at hn
    obtain ⟨m, rfl⟩ : ∃ m, n = m + 1 := ⟨n - 1, by omega⟩
    rw [flat_cons] at w ⊢
    simp only [List.map_cons, List.cons_append] at w
    have w' : Web s.H ((a.2, -1, a.1.1.1) :: (b.2, - -1, b.1.1.1) :: ((flat P).map en ++ A)) none s.out X := by
      have : en a = (a.2, -1, a.1.1.1) := by unfold en; rw [a1]
      have h2 : en b = (b.2, - -1, b.1.1.1) := by unfold en; rw [b1]; rfl
      rw [← this, ← h2]; exact w
    obtain ⟨H', o, r, e, w1, hr⟩ := w'.joinChains (p := p) (Or.inr rfl) ap bp true
    obtain rfl := hr rfl
    have hcl : dir a.1.1.1 p (-1) = cl p a ∧ dir b.1.1.1 p (- -1) = cl p b := by unfold cl; rw [a1, b1]; exact ⟨rfl, rfl⟩
    rw [hcl.1, hcl.2] at w1
    obtain ⟨k, hk1, hk2⟩ : ∃ k, 2 * P.length + R.toList.length ≤ k + 1 ∧ (m = k + 1 ∨ (m = 0 ∧ P = [] ∧ R = none)) := by
      cases m with
      | zero =>
        refine ⟨0, by omega, Or.inr ⟨rfl, ?_, ?_⟩⟩
        · exact List.length_eq_zero_iff.1 (by omega)
        · have : R.toList.length = 0 := by omega
          cases R with
          | none => rfl
          | some r => simp at this
      | succ k => exact ⟨k, by omega, Or.inl rfl⟩
    obtain ⟨H2, out2, e2, w2⟩ := closeSolid_spec p R hR P k { s with H := H', out := s.out ++ o } A (cl p a :: cl p b :: X) hk1
      (fun x hx => hP x (List.mem_cons_of_mem _ hx)) w1
    have key : closeSolid p m ((0, none) :: (flat P ++ R.toList).map cslot) { s with H := H', out := s.out ++ o } =
        some ((0, none) :: (zs (2 * P.length) ++ R.toList.map cslot), { s with H := H2, out := out2 }) := by
      rcases hk2 with rfl | ⟨rfl, rfl, rfl⟩
      · rw [closeSolid, if_neg (by decide), e2]; rfl
      · rw [closeSolid]
        simp only [flat, List.flatMap_nil, Option.toList_none, List.append_nil, List.map_nil, List.length_nil, Nat.mul_zero, List.replicate_zero] at e2 ⊢
        cases k <;> simp [closeSolid] at e2 <;> simp [e2]
    refine ⟨H2, out2, ?_, ?_⟩
    · simp only [List.cons_append, List.map_cons]
      rw [closeSolid, if_pos (show (cslot a).1 = -1 from a1)]
      have : nz (cslot b :: (flat P ++ R.toList).map cslot) = some ([], cslot b, (flat P ++ R.toList).map cslot) :=
        nz_some (Z := []) (a := cslot b) (by show b.1.2 ≠ 0; omega) _ (by simp)
      rw [this]
      dsimp only
      rw [if_pos b1]
      simp only [Option.bind_eq_bind, Option.bind_some, e, List.nil_append, key]
      rw [List.length_cons, show 2 * (P.length + 1) = 2 * P.length + 1 + 1 by omega]
      rfl
    · refine w2.permX ?_
      rw [List.map_cons, List.map_cons, List.cons_append, List.cons_append]
      exact List.perm_middle.trans (List.Perm.cons _ List.perm_middle)

theorem closeAll {p : Pt} {u d : Option (V × Nat)} {P : List ((V × Nat) × (V × Nat))} {s : PS} {A : List End} {X : List Edge}
    (hu : ∀ a, u = some a → a.1.2 = 1) (hd : ∀ a, d = some a → a.1.2 = -1)
    (hP : ∀ x ∈ P, x.1.1.2 = -1 ∧ x.2.1.2 = 1 ∧ x.1.1.1.1 ≠ p ∧ x.2.1.1.1 ≠ p) (w : Web s.H ((flat P).map en ++ A) none s.out X) :
    ∃ H' out', closeSolid p (((u.toList ++ (flat P ++ d.toList)).map cslot).length - 1) ((u.toList ++ (flat P ++ d.toList)).map cslot) s =
        some (u.toList.map cslot ++ (zs (2 * P.length) ++ d.toList.map cslot), { s with H := H', out := out' }) ∧
      Web H' A none out' ((flat P).map (cl p) ++ X) := by
  have hl : ∀ P : List ((V × Nat) × (V × Nat)), (flat P).length = 2 * P.length := by
    intro P
    induction P with
    | nil => rfl
    | cons x P ih => rw [flat_cons]; simp [ih]; omega
  cases u with
  | none =>
    simp only [Option.toList_none, List.nil_append, List.map_nil]
    exact closeSolid_spec p d hd P _ s A X (by rw [List.length_map, List.length_append, hl]; omega) hP w
  | some a =>
    have ha := hu a rfl
    simp only [Option.toList_some, List.singleton_append, List.map_cons, List.length_cons, Nat.add_sub_cancel, List.map_nil, List.nil_append]
    cases hn : ((flat P ++ d.toList).map cslot).length with
    | zero =>
      have h0 : (flat P ++ d.toList).map cslot = [] := List.length_eq_zero_iff.1 hn
      rw [List.length_map, List.length_append, hl] at hn
      have hP0 : P = [] := by
        cases P with
        | nil => rfl
        | cons x P => simp at hn
      have hd0 : d = none := by
        cases d with
        | none => rfl
        | some x => simp at hn
      subst hP0 hd0
      refine ⟨s.H, s.out, ?_, by simpa [flat] using w⟩
      rw [closeSolid]; simp [flat]
    | succ n =>
      obtain ⟨H', out', e, w'⟩ := closeSolid_spec p d hd P n s A X (by rw [List.length_map, List.length_append, hl] at hn; omega) hP w
      refine ⟨H', out', ?_, w'⟩
      rw [closeSolid, if_neg (show (cslot a).1 ≠ -1 by show a.1.2 ≠ -1; omega), e]
      rfl

end Verif.ArbForm
