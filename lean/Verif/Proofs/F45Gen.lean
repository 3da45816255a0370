import Verif.Model.Form45
/-!
# The cases of a point, on slots that have counts

`processPoint_` of the two formations skips slots without count. Here are its cases on lists without such slots, for any operations.
-/
namespace Verif.F45
open Verif.ArbForm (CSlot nz)

variable {σ ι : Type}

/-- The slots with counts. -/
def nzs {α : Type} (L : List (Int × α)) : List (Int × α) := L.filter (fun a => decide (a.1 ≠ 0))

theorem nzs_pos {α : Type} {a : Int × α} {r : List (Int × α)} (h : a.1 ≠ 0) : nzs (a :: r) = a :: nzs r := List.filter_cons_of_pos (by simpa using h)
theorem nzs_neg {α : Type} {a : Int × α} {r : List (Int × α)} (h : a.1 = 0) : nzs (a :: r) = nzs r := List.filter_cons_of_neg (by simpa using h)
theorem nzs_append {α : Type} (l m : List (Int × α)) : nzs (l ++ m) = nzs l ++ nzs m := List.filter_append ..
theorem nzs_reverse {α : Type} (l : List (Int × α)) : nzs l.reverse = (nzs l).reverse := List.filter_reverse ..

theorem nz_cases {α : Type} : ∀ L : List (Int × α), (nz L = none ∧ nzs L = []) ∨
    ∃ r1 b r2, nz L = some (r1, b, r2) ∧ L = r1 ++ b :: r2 ∧ b.1 ≠ 0 ∧ nzs r1 = [] ∧ nzs L = b :: nzs r2
  | [] => Or.inl ⟨rfl, rfl⟩
  | a :: r => by
    by_cases h : a.1 ≠ 0
    · exact Or.inr ⟨[], a, r, by rw [nz, if_pos h], rfl, h, rfl, nzs_pos h⟩
    · have h0 : a.1 = 0 := by simpa using h
      rcases nz_cases r with ⟨h1, h2⟩ | ⟨r1, b, r2, h1, h2, h3, h4, h5⟩
      · exact Or.inl ⟨by rw [nz, if_neg h, h1]; rfl, by rw [nzs_neg h0, h2]⟩
      · exact Or.inr ⟨a :: r1, b, r2, by rw [nz, if_neg h, h1]; rfl, by rw [h2]; rfl, h3, by rw [nzs_neg h0, h4], by rw [nzs_neg h0, h5]⟩

/-! ### Case 1 -/

/-- The code of case 1. -/
def closeS (J : Nat → Nat → σ → Option σ) : Nat → List CSlot → σ → Option (List CSlot × σ)
  | 0, L, s => some (L, s)
  | _ + 1, [], s => some ([], s)
  | n + 1, a :: r, s =>
    if a.1 = -1 then
      match nz r with
      | some (r1, b, r2) =>
        if b.1 = 1 then
          match a.2, b.2 with
          | some t, some u => (J t u s).bind (fun s => (closeS J n (r1 ++ (0, none) :: r2) s).map (fun m => ((0, none) :: m.1, m.2)))
          | _, _ => none
        else (closeS J n r s).map (fun m => (a :: m.1, m.2))
      | none => (closeS J n r s).map (fun m => (a :: m.1, m.2))
    else (closeS J n r s).map (fun m => (a :: m.1, m.2))

/-- Case 1 without empty slots. -/
def closeG (J : Nat → Nat → σ → Option σ) : List CSlot → σ → Option (List CSlot × σ)
  | [], s => some ([], s)
  | [a], s => some ([a], s)
  | a :: b :: r, s =>
    if a.1 = -1 ∧ b.1 = 1 then
      match a.2, b.2 with
      | some t, some u => (J t u s).bind (fun s => closeG J r s)
      | _, _ => none
    else (closeG J (b :: r) s).map (fun m => (a :: m.1, m.2))

/-- Every slot is left or emptied. -/
def Zr (L M : List CSlot) : Prop := List.Forall₂ (fun a b => b = a ∨ (a.1 ≠ 0 ∧ b = (0, none))) L M

theorem Zr.refl (L : List CSlot) : Zr L L := List.forall₂_same.2 (fun _ _ => Or.inl rfl)

theorem Zr.trans {L M N : List CSlot} (h : Zr L M) (g : Zr M N) : Zr L N := by
  unfold Zr at *
  induction h generalizing N with
  | nil => exact g
  | cons h1 h2 ih =>
    rcases N with _ | ⟨c, N⟩
    · cases g
    · obtain ⟨g1, g2⟩ := List.forall₂_cons.1 g
      refine List.Forall₂.cons ?_ (ih g2)
      rcases h1 with rfl | ⟨h1, rfl⟩
      · exact g1
      · rcases g1 with rfl | ⟨g1, _⟩
        · exact Or.inr ⟨h1, rfl⟩
        · simp at g1

theorem Zr.mid {r1 r2 : List CSlot} {b : CSlot} (h : b.1 ≠ 0) : Zr (r1 ++ b :: r2) (r1 ++ (0, none) :: r2) := by
  unfold Zr
  induction r1 with
  | nil => exact List.Forall₂.cons (Or.inr ⟨h, rfl⟩) (Zr.refl _)
  | cons a r1 ih => exact List.Forall₂.cons (Or.inl rfl) ih

theorem Zr.cons {L M : List CSlot} {a b : CSlot} (h1 : b = a ∨ (a.1 ≠ 0 ∧ b = (0, none))) (h : Zr L M) : Zr (a :: L) (b :: M) := List.Forall₂.cons h1 h

theorem Zr.rev {L M : List CSlot} (h : Zr L M) : Zr L.reverse M.reverse := List.rel_reverse h

theorem closeS_spec (J : Nat → Nat → σ → Option σ) : ∀ (n : Nat) (L : List CSlot) (s : σ), L.length ≤ n + 1 →
    (closeS J n L s).map (fun m => (nzs m.1, m.2)) = closeG J (nzs L) s ∧ ∀ m, closeS J n L s = some m → Zr L m.1
  | 0, [], s, _ => ⟨rfl, fun m h => by cases h; exact Zr.refl _⟩
  | 0, [a], s, _ => by
    refine ⟨?_, fun m h => by cases h; exact Zr.refl _⟩
    by_cases h : a.1 = 0
    · rw [nzs_neg h]; simp [closeS, closeG, nzs, h]
    · rw [nzs_pos h]; simp [closeS, closeG, nzs, h]
  | 0, a :: b :: r, s, h => by simp at h
  | n + 1, [], s, _ => ⟨rfl, fun m h => by cases h; exact Zr.refl _⟩
  | n + 1, a :: r, s, hn => by
    simp only [List.length_cons] at hn
    have ih := closeS_spec J n r s (by omega)
    have hskip : (closeG J (nzs (a :: r)) s = (closeG J (nzs r) s).map (fun m => (if a.1 = 0 then m.1 else a :: m.1, m.2))) →
        ((closeS J n r s).map (fun m => (a :: m.1, m.2))).map (fun m => (nzs m.1, m.2)) = closeG J (nzs (a :: r)) s ∧
        ∀ m, (closeS J n r s).map (fun m => (a :: m.1, m.2)) = some m → Zr (a :: r) m.1 := by
      intro h
      constructor
      · rw [h, ← ih.1, Option.map_map, Option.map_map]
        congr 1
        funext m
        by_cases c : a.1 = 0
        · simp [Function.comp, nzs_neg c, c]
        · simp [Function.comp, nzs_pos c, c]
      · intro m hm
        obtain ⟨m', h1, rfl⟩ := Option.map_eq_some_iff.1 hm
        exact Zr.cons (Or.inl rfl) (ih.2 m' h1)
    unfold closeS
    by_cases ha : a.1 = -1
    · rw [if_pos ha]
      have ha0 : a.1 ≠ 0 := by omega
      rcases nz_cases r with ⟨h1, h2⟩ | ⟨r1, b, r2, h1, h2, h3, h4, h5⟩
      · rw [h1]
        apply hskip
        rw [nzs_pos ha0, h2]
        simp [closeG, ha0]
      · rw [h1]
        dsimp only
        have hzr : Zr (a :: r) ((0, none) :: (r1 ++ (0, none) :: r2)) := Zr.cons (Or.inr ⟨ha0, rfl⟩) (by rw [h2]; exact Zr.mid h3)
        by_cases hb : b.1 = 1
        · rw [if_pos hb, nzs_pos ha0, h5, closeG, if_pos ⟨ha, hb⟩]
          rcases a.2 with _ | t
          · exact ⟨rfl, fun m h => by simp at h⟩
          rcases b.2 with _ | u
          · exact ⟨rfl, fun m h => by simp at h⟩
          dsimp only
          rcases hJ : J t u s with _ | s1
          · exact ⟨rfl, fun m h => by simp at h⟩
          simp only [Option.bind_some]
          have ih2 := closeS_spec J n (r1 ++ (0, none) :: r2) s1 (by rw [h2] at hn; simp at hn ⊢; omega)
          have e : nzs (r1 ++ (0, none) :: r2) = nzs r2 := by rw [nzs_append, h4, nzs_neg rfl]; rfl
          rw [e] at ih2
          constructor
          · rw [← ih2.1, Option.map_map]
            congr 1
          · intro m hm
            obtain ⟨m', g1, rfl⟩ := Option.map_eq_some_iff.1 hm
            exact hzr.trans (Zr.cons (Or.inl rfl) (ih2.2 m' g1))
        · rw [if_neg hb]
          apply hskip
          rw [nzs_pos ha0, h5, closeG, if_neg (by tauto)]
          simp [ha0]
    · rw [if_neg ha]
      apply hskip
      by_cases h0 : a.1 = 0
      · rw [nzs_neg h0]; simp [h0]
      · rw [nzs_pos h0]
        rcases nzs r with _ | ⟨b, r'⟩
        · simp [closeG, h0]
        · rw [closeG, if_neg (by tauto)]
          simp [h0]

/-! ### Case 2 -/

/-- Only the last slot may be vertical. -/
def OLg (V : ι → Prop) : List (Int × ι) → Prop
  | [] => True
  | a :: r => (r = [] ∨ ¬ V a.2) ∧ OLg V r

theorem OLg.right {V : ι → Prop} : ∀ {A B : List (Int × ι)}, OLg V (A ++ B) → OLg V B
  | [], _, h => h
  | _ :: A, _, h => OLg.right (A := A) h.2

theorem OLg.change {V : ι → Prop} {c : Int} : ∀ {A B : List (Int × ι)} {b : Int × ι}, OLg V (A ++ b :: B) → OLg V (A ++ (c, b.2) :: B)
  | [], _, _, h => h
  | a :: A, B, b, h => ⟨Or.inr (h.1.resolve_left (by simp)), OLg.change (A := A) h.2⟩

theorem OLg.last {V : ι → Prop} : ∀ {A B : List (Int × ι)} {b : Int × ι}, OLg V (A ++ b :: B) → V b.2 → B = []
  | [], _, _, h, hv => h.1.resolve_right (fun g => g hv)
  | _ :: A, _, _, h, hv => OLg.last (A := A) h.2 hv

/-- The code of case 2. -/
def openS (K : Bool → ι → ι → σ → σ) : Nat → List (Int × ι) → σ → List (Int × ι) × σ
  | 0, L, s => (L, s)
  | _ + 1, [], s => ([], s)
  | n + 1, a :: r, s =>
    if a.1 = 1 then
      match nz r with
      | some (r1, b, r2) =>
        if b.1 = -1 then
          ((0, a.2) :: (openS K n (r1 ++ (0, b.2) :: r2) (K r2.isEmpty a.2 b.2 s)).1, (openS K n (r1 ++ (0, b.2) :: r2) (K r2.isEmpty a.2 b.2 s)).2)
        else (a :: (openS K n r s).1, (openS K n r s).2)
      | none => (a :: (openS K n r s).1, (openS K n r s).2)
    else (a :: (openS K n r s).1, (openS K n r s).2)

/-- Case 2 without empty slots. -/
def openG (K : ι → ι → σ → σ) : List (Int × ι) → σ → List (Int × ι) × σ
  | [], s => ([], s)
  | [a], s => ([a], s)
  | a :: b :: r, s => if a.1 = 1 ∧ b.1 = -1 then openG K r (K a.2 b.2 s) else (a :: (openG K (b :: r) s).1, (openG K (b :: r) s).2)

theorem openS_spec {V : ι → Prop} (K : Bool → ι → ι → σ → σ) (K' : ι → ι → σ → σ) (hK : ∀ l a b s, (l = false → ¬ V b) → K l a b s = K' a b s) :
    ∀ (n : Nat) (L : List (Int × ι)) (s : σ), L.length ≤ n + 1 → OLg V L →
      (nzs (openS K n L s).1, (openS K n L s).2) = openG K' (nzs L) s ∧ OLg V (openS K n L s).1
  | 0, [], s, _, _ => ⟨rfl, trivial⟩
  | 0, [a], s, _, h => by
    refine ⟨?_, h⟩
    by_cases h : a.1 = 0
    · rw [nzs_neg h]; simp [openS, openG, nzs, h]
    · rw [nzs_pos h]; simp [openS, openG, nzs, h]
  | 0, a :: b :: r, s, h, _ => by simp at h
  | n + 1, [], s, _, _ => ⟨rfl, trivial⟩
  | n + 1, a :: r, s, hn, hv => by
    simp only [List.length_cons] at hn
    have ih := openS_spec K K' hK n r s (by omega) hv.2
    have hlen : ∀ (n : Nat) (L : List (Int × ι)) (s : σ), (openS K n L s).1.length = L.length := by
      intro n
      induction n with
      | zero => intro L s; rfl
      | succ n ih =>
        intro L s
        rcases L with _ | ⟨a, r⟩
        · rfl
        · unfold openS
          by_cases ha : a.1 = 1
          · rw [if_pos ha]
            rcases nz_cases r with ⟨h1, h2⟩ | ⟨r1, b, r2, h1, h2, h3, h4, h5⟩
            · rw [h1]; simp [ih]
            · rw [h1]
              dsimp only
              split_ifs
              · simp [ih, h2]
              · simp [ih]
          · rw [if_neg ha]; simp [ih]
    have hskip : (openG K' (nzs (a :: r)) s = (if a.1 = 0 then (openG K' (nzs r) s).1 else a :: (openG K' (nzs r) s).1, (openG K' (nzs r) s).2)) →
        (nzs (a :: (openS K n r s).1), (openS K n r s).2) = openG K' (nzs (a :: r)) s ∧ OLg V (a :: (openS K n r s).1) := by
      intro h
      constructor
      · rw [h, ← ih.1]
        by_cases c : a.1 = 0
        · simp [nzs_neg c, c]
        · simp [nzs_pos c, c]
      · refine ⟨?_, ih.2⟩
        rcases hv.1 with h | h
        · left
          have := hlen n r s
          rw [h] at this ⊢
          exact List.length_eq_zero_iff.1 this
        · exact Or.inr h
    unfold openS
    by_cases ha : a.1 = 1
    · rw [if_pos ha]
      have ha0 : a.1 ≠ 0 := by omega
      rcases nz_cases r with ⟨h1, h2⟩ | ⟨r1, b, r2, h1, h2, h3, h4, h5⟩
      · rw [h1]
        apply hskip
        rw [nzs_pos ha0, h2]
        simp [openG, ha0]
      · rw [h1]
        dsimp only
        by_cases hb : b.1 = -1
        · rw [if_pos hb, nzs_pos ha0, h5, openG, if_pos ⟨ha, hb⟩]
          have hvb := hv.2
          rw [h2] at hvb
          rw [hK r2.isEmpty a.2 b.2 s (by
            intro hf hvb'
            rw [OLg.last hvb hvb'] at hf
            simp at hf)]
          have ih2 := openS_spec K K' hK n (r1 ++ (0, b.2) :: r2) (K' a.2 b.2 s) (by rw [h2] at hn; simp at hn ⊢; omega) (OLg.change hvb)
          have e : nzs (r1 ++ (0, b.2) :: r2) = nzs r2 := by rw [nzs_append, h4, nzs_neg rfl]; rfl
          rw [e] at ih2
          refine ⟨by rw [← ih2.1, nzs_neg rfl], Or.inr (hv.1.resolve_left ?_), ih2.2⟩
          rw [h2]; simp
        · rw [if_neg hb]
          apply hskip
          rw [nzs_pos ha0, h5, openG, if_neg (by tauto)]
          simp [ha0]
    · rw [if_neg ha]
      apply hskip
      by_cases h0 : a.1 = 0
      · rw [nzs_neg h0]; simp [h0]
      · rw [nzs_pos h0]
        rcases nzs r with _ | ⟨b, r'⟩
        · simp [openG, h0]
        · rw [openG, if_neg (by tauto)]
          simp [h0]

/-! ### Cases 3 and 4 -/

/-- The code of case 3. -/
def topS (T : Bool → Nat → ι → Int → Int → σ → σ) (cs : List CSlot) (is : List (Int × ι)) (s : σ) : Option (List CSlot × List (Int × ι) × σ) :=
  match nz cs, nz is.reverse with
  | some (l1, a, l2), some (r1, b, r2) =>
    if a.1 = 1 ∧ b.1 = 1 then a.2.map (fun t => (l1 ++ (0, none) :: l2, (r1 ++ (0, b.2) :: r2).reverse, T r1.isEmpty t b.2 b.1 (-1) s))
    else some (cs, is, s)
  | _, _ => some (cs, is, s)

/-- Case 3 without empty slots. -/
def topG (T : Nat → ι → Int → Int → σ → σ) (cs : List CSlot) (is : List (Int × ι)) (s : σ) : Option (List CSlot × List (Int × ι) × σ) :=
  match cs, is.reverse with
  | a :: l, b :: r => if a.1 = 1 ∧ b.1 = 1 then a.2.map (fun t => (l, r.reverse, T t b.2 b.1 (-1) s)) else some (cs, is, s)
  | _, _ => some (cs, is, s)

theorem topS_spec {V : ι → Prop} (T : Bool → Nat → ι → Int → Int → σ → σ) (T' : Nat → ι → Int → Int → σ → σ)
    (hT : ∀ l t o c r s, (l = false → ¬ V o) → T l t o c r s = T' t o c r s) (cs : List CSlot) (is : List (Int × ι)) (s : σ) (hv : OLg V is) :
    (topS T cs is s).map (fun m => (nzs m.1, nzs m.2.1, m.2.2)) = topG T' (nzs cs) (nzs is) s ∧ ∀ m, topS T cs is s = some m → Zr cs m.1 ∧ OLg V m.2.1 := by
  have hid : ∀ m, some (cs, is, s) = some m → Zr cs m.1 ∧ OLg V m.2.1 := fun m h => by cases h; exact ⟨Zr.refl _, hv⟩
  unfold topS topG
  rcases nz_cases cs with ⟨h1, h2⟩ | ⟨l1, a, l2, h1, h2, h3, h4, h5⟩
  · rw [h1, h2]
    exact ⟨by simp [h2], hid⟩
  rcases nz_cases is.reverse with ⟨g1, g2⟩ | ⟨r1, b, r2, g1, g2, g3, g4, g5⟩
  · rw [h1, g1, h5, ← nzs_reverse, g2]
    exact ⟨by simp [h5], hid⟩
  rw [h1, g1, h5, ← nzs_reverse, g5]
  dsimp only
  have hi : is = r2.reverse ++ b :: r1.reverse := by
    have := congrArg List.reverse g2
    simpa using this
  by_cases hc : a.1 = 1 ∧ b.1 = 1
  · rw [if_pos hc, if_pos hc]
    have e : T r1.isEmpty = T r1.isEmpty := rfl
    have hT' : ∀ t, T r1.isEmpty t b.2 b.1 (-1) s = T' t b.2 b.1 (-1) s := by
      intro t
      apply hT
      intro hf hb
      rw [hi] at hv
      have := OLg.last hv hb
      rw [List.reverse_eq_nil_iff] at this
      rw [this] at hf
      simp at hf
    constructor
    · rw [Option.map_map]
      congr 1
      funext t
      simp only [Function.comp, hT', nzs_append, nzs_reverse, h4, g4, nzs_neg, List.nil_append]
    · intro m hm
      obtain ⟨t, ht, rfl⟩ := Option.map_eq_some_iff.1 hm
      refine ⟨by rw [h2]; exact Zr.mid h3, ?_⟩
      rw [hi] at hv
      have := OLg.change (c := 0) hv
      simpa using this
  · rw [if_neg hc, if_neg hc]
    exact ⟨by simp [h5], hid⟩

/-- The code of case 4. -/
def botS (T : Bool → Nat → ι → Int → Int → σ → σ) (cs : List CSlot) (is : List (Int × ι)) (s : σ) : Option (List CSlot × List (Int × ι) × σ) :=
  match nz cs.reverse, nz is with
  | some (l1, a, l2), some (r1, b, r2) =>
    if a.1 = -1 ∧ b.1 = -1 then a.2.map (fun t => ((l1 ++ (0, none) :: l2).reverse, r1 ++ (0, b.2) :: r2, T r2.isEmpty t b.2 b.1 1 s))
    else some (cs, is, s)
  | _, _ => some (cs, is, s)

/-- Case 4 without empty slots. -/
def botG (T : Nat → ι → Int → Int → σ → σ) (cs : List CSlot) (is : List (Int × ι)) (s : σ) : Option (List CSlot × List (Int × ι) × σ) :=
  match cs.reverse, is with
  | a :: l, b :: r => if a.1 = -1 ∧ b.1 = -1 then a.2.map (fun t => (l.reverse, r, T t b.2 b.1 1 s)) else some (cs, is, s)
  | _, _ => some (cs, is, s)

theorem botS_spec {V : ι → Prop} (T : Bool → Nat → ι → Int → Int → σ → σ) (T' : Nat → ι → Int → Int → σ → σ)
    (hT : ∀ l t o c r s, (l = false → ¬ V o) → T l t o c r s = T' t o c r s) (cs : List CSlot) (is : List (Int × ι)) (s : σ) (hv : OLg V is) :
    (botS T cs is s).map (fun m => (nzs m.1, nzs m.2.1, m.2.2)) = botG T' (nzs cs) (nzs is) s ∧ ∀ m, botS T cs is s = some m → Zr cs m.1 ∧ OLg V m.2.1 := by
  have hid : ∀ m, some (cs, is, s) = some m → Zr cs m.1 ∧ OLg V m.2.1 := fun m h => by cases h; exact ⟨Zr.refl _, hv⟩
  unfold botS botG
  rcases nz_cases cs.reverse with ⟨h1, h2⟩ | ⟨l1, a, l2, h1, h2, h3, h4, h5⟩
  · rw [h1, ← nzs_reverse, h2]
    exact ⟨by simp, hid⟩
  rcases nz_cases is with ⟨g1, g2⟩ | ⟨r1, b, r2, g1, g2, g3, g4, g5⟩
  · rw [h1, g1, ← nzs_reverse, h5, g2]
    exact ⟨by simp [g2], hid⟩
  rw [h1, g1, g5, ← nzs_reverse, h5]
  dsimp only
  have hi : cs = (l1 ++ a :: l2).reverse := by
    have := congrArg List.reverse h2
    simpa using this
  by_cases hc : a.1 = -1 ∧ b.1 = -1
  · rw [if_pos hc, if_pos hc]
    have hT' : ∀ t, T r2.isEmpty t b.2 b.1 1 s = T' t b.2 b.1 1 s := by
      intro t
      apply hT
      intro hf hb
      rw [g2] at hv
      rw [OLg.last hv hb] at hf
      simp at hf
    constructor
    · rw [Option.map_map]
      congr 1
      funext t
      simp only [Function.comp, hT', nzs_append, nzs_reverse, h4, g4, nzs_neg, List.nil_append]
    · intro m hm
      obtain ⟨t, ht, rfl⟩ := Option.map_eq_some_iff.1 hm
      refine ⟨by rw [hi]; exact (Zr.mid h3).rev, ?_⟩
      rw [g2] at hv
      exact OLg.change (c := 0) hv
  · rw [if_neg hc, if_neg hc]
    exact ⟨by simp [g5], hid⟩

/-! ### Cases 5 and 6 -/

/-- The code of case 5. -/
def endS (E : Nat → Nat → σ → Option σ) (cs : List CSlot) (s : σ) : Option (List CSlot × σ) :=
  match nz cs with
  | none => some (cs, s)
  | some (l1, a, l2) =>
    match nz l2 with
    | none => some (cs, s)
    | some (m1, b, m2) =>
      match a.2, b.2 with
      | some t, some u => (E t u s).map (fun s => (l1 ++ (0, none) :: (m1 ++ (0, none) :: m2), s))
      | _, _ => none

/-- Case 5 without empty slots. -/
def endG (E : Nat → Nat → σ → Option σ) (cs : List CSlot) (s : σ) : Option (List CSlot × σ) :=
  match cs with
  | a :: b :: r =>
    match a.2, b.2 with
    | some t, some u => (E t u s).map (fun s => (r, s))
    | _, _ => none
  | _ => some (cs, s)

theorem endS_spec (E : Nat → Nat → σ → Option σ) (cs : List CSlot) (s : σ) :
    (endS E cs s).map (fun m => (nzs m.1, m.2)) = endG E (nzs cs) s ∧ ∀ m, endS E cs s = some m → Zr cs m.1 := by
  have hid : ∀ m, some (cs, s) = some m → Zr cs m.1 := fun m h => by cases h; exact Zr.refl _
  unfold endS endG
  rcases nz_cases cs with ⟨h1, h2⟩ | ⟨l1, a, l2, h1, h2, h3, h4, h5⟩
  · rw [h1, h2]
    exact ⟨by simp [h2], hid⟩
  rw [h1, h5]
  dsimp only
  rcases nz_cases l2 with ⟨g1, g2⟩ | ⟨m1, b, m2, g1, g2, g3, g4, g5⟩
  · rw [g1, g2]
    exact ⟨by simp [h5, g2], hid⟩
  rw [g1, g5]
  dsimp only
  rcases a.2 with _ | t
  · exact ⟨rfl, by simp⟩
  rcases b.2 with _ | u
  · exact ⟨rfl, by simp⟩
  dsimp only
  constructor
  · rw [Option.map_map]
    congr 1
    funext s
    simp only [Function.comp, nzs_append, h4, g4, nzs_neg, List.nil_append]
  · intro m hm
    obtain ⟨s', _, rfl⟩ := Option.map_eq_some_iff.1 hm
    refine (h2 ▸ Zr.mid (r1 := l1) (r2 := l2) h3).trans ?_
    rw [g2]
    have := Zr.mid (r1 := l1 ++ (0, none) :: m1) (r2 := m2) g3
    simpa using this

/-- The code of case 6. -/
def begS (B : Bool → Int × ι → Int × ι → σ → σ) (is : List (Int × ι)) (s : σ) : σ :=
  match nz is with
  | none => s
  | some (_, a, r) =>
    match nz r with
    | none => s
    | some (_, b, r2) => B r2.isEmpty a b s

/-- Case 6 without empty slots. -/
def begG (B : Int × ι → Int × ι → σ → σ) (is : List (Int × ι)) (s : σ) : σ :=
  match is with
  | a :: b :: _ => B a b s
  | _ => s

theorem begS_spec {V : ι → Prop} (B : Bool → Int × ι → Int × ι → σ → σ) (B' : Int × ι → Int × ι → σ → σ)
    (hB : ∀ l a b s, (l = false → ¬ V b.2) → B l a b s = B' a b s) (is : List (Int × ι)) (s : σ) (hv : OLg V is) :
    begS B is s = begG B' (nzs is) s := by
  unfold begS begG
  rcases nz_cases is with ⟨h1, h2⟩ | ⟨l1, a, l2, h1, h2, h3, h4, h5⟩
  · rw [h1, h2]
  rw [h1, h5]
  dsimp only
  rcases nz_cases l2 with ⟨g1, g2⟩ | ⟨m1, b, m2, g1, g2, g3, g4, g5⟩
  · rw [g1, g2]
  rw [g1, g5]
  dsimp only
  apply hB
  intro hf hb
  rw [h2, g2] at hv
  have hv : OLg V ((l1 ++ a :: m1) ++ b :: m2) := by simpa using hv
  rw [OLg.last hv hb] at hf
  simp at hf

/-! ### All cases -/

/-- What the cases do to the state. -/
structure Ops (σ ι : Type) where
  join : Nat → Nat → σ → Option σ
  pair : ι → ι → σ → σ
  pass : Nat → ι → Int → Int → σ → σ
  hend : Nat → Nat → σ → Option σ
  hbeg : Int × ι → Int × ι → σ → σ

/-- A point, without empty slots. -/
def pointG (o : Ops σ ι) (cs : List CSlot) (is : List (Int × ι)) (s : σ) : Option σ :=
  (closeG o.join cs s).bind fun a =>
  (topG o.pass a.1 (openG o.pair is a.2).1 (openG o.pair is a.2).2).bind fun b =>
  (botG o.pass b.1 b.2.1 b.2.2).bind fun c =>
  (endG o.hend c.1 c.2.2).map fun d => begG o.hbeg c.2.1 d.2

end Verif.F45
