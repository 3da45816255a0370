import Verif.Proofs.F45Gen
/-!
# One point of the two formations
-/
namespace Verif.F45
open Verif.ArbForm (CSlot nz)

variable {σ ι σ' ι' : Type}

/-- The operations keep a relation of the states. -/
structure Ops.Rel (ρ : ι → ι') (R : σ' → σ → Prop) (o' : Ops σ' ι') (o : Ops σ ι) : Prop where
  join : ∀ {t u s' s s1}, R s' s → o.join t u s = some s1 → ∃ s1', o'.join t u s' = some s1' ∧ R s1' s1
  pair : ∀ {a b s' s}, R s' s → R (o'.pair (ρ a) (ρ b) s') (o.pair a b s)
  pass : ∀ {t a c r s' s}, R s' s → R (o'.pass t (ρ a) c r s') (o.pass t a c r s)
  hend : ∀ {t u s' s s1}, R s' s → o.hend t u s = some s1 → ∃ s1', o'.hend t u s' = some s1' ∧ R s1' s1
  hbeg : ∀ {a b : Int × ι} {s' s}, R s' s → R (o'.hbeg (a.1, ρ a.2) (b.1, ρ b.2) s') (o.hbeg a b s)

theorem closeG_rel {R : σ' → σ → Prop} {J' : Nat → Nat → σ' → Option σ'} {J : Nat → Nat → σ → Option σ}
    (h : ∀ {t u s' s s1}, R s' s → J t u s = some s1 → ∃ s1', J' t u s' = some s1' ∧ R s1' s1) :
    ∀ (L : List CSlot) (s' : σ') (s : σ) (m : List CSlot × σ), R s' s → closeG J L s = some m → ∃ s1', closeG J' L s' = some (m.1, s1') ∧ R s1' m.2
  | [], s', s, m, hR, hm => by cases hm; exact ⟨s', rfl, hR⟩
  | [a], s', s, m, hR, hm => by cases hm; exact ⟨s', rfl, hR⟩
  | a :: b :: r, s', s, m, hR, hm => by
    unfold closeG at hm ⊢
    by_cases c : a.1 = -1 ∧ b.1 = 1
    · rw [if_pos c] at hm ⊢
      rcases ea : a.2 with _ | t
      · rw [ea] at hm; cases hm
      rcases eb : b.2 with _ | u
      · rw [ea, eb] at hm; cases hm
      rw [ea, eb] at hm
      dsimp only at hm ⊢
      obtain ⟨s1, h1, h2⟩ := Option.bind_eq_some_iff.1 hm
      obtain ⟨s1', h3, h4⟩ := h hR h1
      rw [h3]
      exact closeG_rel h r s1' s1 m h4 h2
    · rw [if_neg c] at hm ⊢
      obtain ⟨m', h1, rfl⟩ := Option.map_eq_some_iff.1 hm
      obtain ⟨s1', h3, h4⟩ := closeG_rel h (b :: r) s' s m' hR h1
      rw [h3]
      exact ⟨s1', rfl, h4⟩

/-- The slots with the other names of directions. -/
def ren (ρ : ι → ι') (L : List (Int × ι)) : List (Int × ι') := L.map (fun a => (a.1, ρ a.2))

theorem openG_rel {ρ : ι → ι'} {R : σ' → σ → Prop} {K' : ι' → ι' → σ' → σ'} {K : ι → ι → σ → σ}
    (h : ∀ a b s' s, R s' s → R (K' (ρ a) (ρ b) s') (K a b s)) :
    ∀ (L : List (Int × ι)) (s' : σ') (s : σ), R s' s → (openG K' (ren ρ L) s').1 = ren ρ (openG K L s).1 ∧ R (openG K' (ren ρ L) s').2 (openG K L s).2
  | [], s', s, hR => ⟨rfl, hR⟩
  | [a], s', s, hR => ⟨rfl, hR⟩
  | a :: b :: r, s', s, hR => by
    have e : ren ρ (a :: b :: r) = (a.1, ρ a.2) :: (b.1, ρ b.2) :: ren ρ r := rfl
    rw [e]
    unfold openG
    dsimp only
    by_cases c : a.1 = 1 ∧ b.1 = -1
    · rw [if_pos c, if_pos c]
      exact openG_rel h r _ _ (h _ _ _ _ hR)
    · rw [if_neg c, if_neg c]
      have := openG_rel h (b :: r) s' s hR
      have e2 : ren ρ (b :: r) = (b.1, ρ b.2) :: ren ρ r := rfl
      rw [e2] at this
      exact ⟨by rw [this.1]; rfl, this.2⟩

theorem ren_cons (ρ : ι → ι') (b : Int × ι) (r : List (Int × ι)) : ren ρ (b :: r) = (b.1, ρ b.2) :: ren ρ r := rfl

theorem ren_reverse (ρ : ι → ι') (L : List (Int × ι)) : (ren ρ L).reverse = ren ρ L.reverse := by unfold ren; rw [List.map_reverse]

theorem topG_rel {ρ : ι → ι'} {R : σ' → σ → Prop} {T' : Nat → ι' → Int → Int → σ' → σ'} {T : Nat → ι → Int → Int → σ → σ}
    (h : ∀ {t a c r s' s}, R s' s → R (T' t (ρ a) c r s') (T t a c r s)) {cs : List CSlot} {is : List (Int × ι)} {s' : σ'} {s : σ} (hR : R s' s)
    {m : List CSlot × List (Int × ι) × σ} (hm : topG T cs is s = some m) :
    ∃ s1', topG T' cs (ren ρ is) s' = some (m.1, ren ρ m.2.1, s1') ∧ R s1' m.2.2 := by
  unfold topG at hm ⊢
  rw [ren_reverse]
  rcases cs with _ | ⟨a, l⟩
  · cases hm; exact ⟨s', rfl, hR⟩
  rcases hi : is.reverse with _ | ⟨b, r⟩
  · rw [hi] at hm; cases hm; exact ⟨s', rfl, hR⟩
  · rw [hi] at hm
    rw [ren_cons]
    dsimp only at hm ⊢
    by_cases c : a.1 = 1 ∧ b.1 = 1
    · rw [if_pos c] at hm ⊢
      obtain ⟨t, ht, rfl⟩ := Option.map_eq_some_iff.1 hm
      rw [ht]
      exact ⟨_, by rw [ren_reverse]; rfl, h hR⟩
    · rw [if_neg c] at hm ⊢
      cases hm; exact ⟨s', rfl, hR⟩

theorem botG_rel {ρ : ι → ι'} {R : σ' → σ → Prop} {T' : Nat → ι' → Int → Int → σ' → σ'} {T : Nat → ι → Int → Int → σ → σ}
    (h : ∀ {t a c r s' s}, R s' s → R (T' t (ρ a) c r s') (T t a c r s)) {cs : List CSlot} {is : List (Int × ι)} {s' : σ'} {s : σ} (hR : R s' s)
    {m : List CSlot × List (Int × ι) × σ} (hm : botG T cs is s = some m) :
    ∃ s1', botG T' cs (ren ρ is) s' = some (m.1, ren ρ m.2.1, s1') ∧ R s1' m.2.2 := by
  unfold botG at hm ⊢
  rcases hc : cs.reverse with _ | ⟨a, l⟩
  · rw [hc] at hm; cases hm; exact ⟨s', rfl, hR⟩
  rcases is with _ | ⟨b, r⟩
  · rw [hc] at hm; cases hm; exact ⟨s', rfl, hR⟩
  · rw [hc] at hm
    rw [ren_cons]
    dsimp only at hm ⊢
    by_cases c : a.1 = -1 ∧ b.1 = -1
    · rw [if_pos c] at hm ⊢
      obtain ⟨t, ht, rfl⟩ := Option.map_eq_some_iff.1 hm
      rw [ht]
      exact ⟨_, rfl, h hR⟩
    · rw [if_neg c] at hm ⊢
      cases hm; exact ⟨s', rfl, hR⟩

theorem endG_rel {R : σ' → σ → Prop} {E' : Nat → Nat → σ' → Option σ'} {E : Nat → Nat → σ → Option σ}
    (h : ∀ {t u s' s s1}, R s' s → E t u s = some s1 → ∃ s1', E' t u s' = some s1' ∧ R s1' s1) {cs : List CSlot} {s' : σ'} {s : σ} (hR : R s' s)
    {m : List CSlot × σ} (hm : endG E cs s = some m) : ∃ s1', endG E' cs s' = some (m.1, s1') ∧ R s1' m.2 := by
  unfold endG at hm ⊢
  rcases cs with _ | ⟨a, _ | ⟨b, r⟩⟩
  · cases hm; exact ⟨s', rfl, hR⟩
  · cases hm; exact ⟨s', rfl, hR⟩
  · dsimp only at hm ⊢
    rcases ea : a.2 with _ | t
    · rw [ea] at hm; cases hm
    rcases eb : b.2 with _ | u
    · rw [ea, eb] at hm; cases hm
    rw [ea, eb] at hm
    dsimp only at hm ⊢
    obtain ⟨s1, h1, rfl⟩ := Option.map_eq_some_iff.1 hm
    obtain ⟨s1', h3, h4⟩ := h hR h1
    rw [h3]
    exact ⟨s1', rfl, h4⟩

theorem pointG_rel {ρ : ι → ι'} {R : σ' → σ → Prop} {o' : Ops σ' ι'} {o : Ops σ ι} (h : Ops.Rel ρ R o' o) {cs : List CSlot} {is : List (Int × ι)} {s' : σ'} {s s1 : σ}
    (hR : R s' s) (h1 : pointG o cs is s = some s1) : ∃ s1', pointG o' cs (ren ρ is) s' = some s1' ∧ R s1' s1 := by
  unfold pointG at h1 ⊢
  obtain ⟨a, ha, h1⟩ := Option.bind_eq_some_iff.1 h1
  obtain ⟨b, hb, h1⟩ := Option.bind_eq_some_iff.1 h1
  obtain ⟨c, hc, h1⟩ := Option.bind_eq_some_iff.1 h1
  obtain ⟨d, hd, rfl⟩ := Option.map_eq_some_iff.1 h1
  obtain ⟨a', ea, ra⟩ := closeG_rel h.join cs s' s a hR ha
  obtain ⟨eo, ro⟩ := openG_rel (K' := o'.pair) (K := o.pair) (fun _ _ _ _ => h.pair) is a' a.2 ra
  obtain ⟨b', eb, rb⟩ := topG_rel (T' := o'.pass) (T := o.pass) h.pass ro hb
  obtain ⟨c', ec, rc⟩ := botG_rel (T' := o'.pass) (T := o.pass) h.pass rb hc
  obtain ⟨d', ed, rd⟩ := endG_rel (E' := o'.hend) (E := o.hend) h.hend rc hd
  refine ⟨begG o'.hbeg (ren ρ c.2.1) d', ?_, ?_⟩
  · rw [ea, Option.bind_some]
    dsimp only
    rw [eo, eb, Option.bind_some]
    dsimp only
    rw [ec, Option.bind_some]
    dsimp only
    rw [ed]
    rfl
  · rcases hi : c.2.1 with _ | ⟨a, _ | ⟨b, r⟩⟩
    · exact rd
    · exact rd
    · exact h.hbeg rd

/-! ### The 45-degree code -/

/-- The tail in the last slot if it has no count. -/
def pend (cs : List CSlot) : Option Nat := match cs.getLast? with | some c => if c.1 = 0 then c.2 else none | none => none

theorem Zr.pend {L M : List CSlot} (h : Zr L M) : pend M = pend L := by
  have key : ∀ {L M : List CSlot}, List.Forall₂ (fun a b => b = a ∨ (a.1 ≠ 0 ∧ b = (0, none))) L M →
      (match M.head? with | some c => if c.1 = 0 then c.2 else none | none => none) = (match L.head? with | some c => if c.1 = 0 then c.2 else none | none => none) := by
    intro L M h
    rcases h with _ | ⟨h1, h2⟩
    · rfl
    · rcases h1 with rfl | ⟨h1, rfl⟩
      · rfl
      · simp [h1]
  unfold F45.pend
  rw [← List.head?_reverse, ← List.head?_reverse]
  exact key h.rev

open Form45 in
/-- The operations of the 45-degree formation. -/
def ops45 (p : Deg45.P) (h : Option Nat) : Ops Form45.PS Int where
  join t u s := some { s with H := (joinChains s.H p t u true).1, out := s.out ++ (joinChains s.H p t u true).2.1 }
  pair a b s :=
    { ({ s with H := (createPair s.H p true none).1 }.put p b (-1) 1 (createPair s.H p true none).2.1) with
      els := ({ s with H := (createPair s.H p true none).1 }.put p b (-1) 1 (createPair s.H p true none).2.1).els ++ [(⟨p, a, 1⟩, (createPair s.H p true none).2.2)] }
  pass t o c r s := { s with H := push s.H t p }.put p o c r t
  hend t u s := some { s with H := (joinChains s.H p t u false).1, out := s.out ++ (joinChains s.H p t u false).2.1, ret := (joinChains s.H p t u false).2.2 }
  hbeg a b s :=
    { ({ s with H := (createPair s.H p false h).1 }.put p b.2 b.1 (-1) (createPair s.H p false h).2.1) with
      els := ({ s with H := (createPair s.H p false h).1 }.put p b.2 b.1 (-1) (createPair s.H p false h).2.1).els ++ [(⟨p, a.2, a.1⟩, (createPair s.H p false h).2.2)] }

theorem close45 (p : Deg45.P) (h : Option Nat) : ∀ (n : Nat) (L : List CSlot) (s : Form45.PS), Form45.closeSolid p n L s = closeS (ops45 p h).join n L s
  | 0, L, s => rfl
  | n + 1, [], s => rfl
  | n + 1, a :: r, s => by
    unfold Form45.closeSolid closeS
    rw [close45 p h n r s]
    by_cases c : a.1 = -1
    · rw [if_pos c, if_pos c]
      rcases nz r with _ | ⟨r1, b, r2⟩
      · rfl
      · dsimp only
        by_cases d : b.1 = 1
        · rw [if_pos d, if_pos d]
          rcases a.2 with _ | t
          · rfl
          rcases b.2 with _ | u
          · rfl
          simp only [Option.bind_eq_bind, Option.bind_some, ops45]
          rw [close45 p h n]
          simp only [ops45]
          rcases closeS _ n (r1 ++ (0, none) :: r2) _ with _ | m
          · rfl
          · rfl
        · rw [if_neg d, if_neg d]
    · rw [if_neg c, if_neg c]

theorem open45 (p : Deg45.P) (h : Option Nat) : ∀ (n : Nat) (L : List (Int × Int)) (s : Form45.PS),
    Form45.openSolid p n L s = openS (fun _ => (ops45 p h).pair) n L s
  | 0, L, s => rfl
  | n + 1, [], s => rfl
  | n + 1, a :: r, s => by
    unfold Form45.openSolid openS
    by_cases c : a.1 = 1
    · rw [if_pos c, if_pos c]
      rcases nz r with _ | ⟨r1, b, r2⟩
      · rw [open45 p h n r s]
      · dsimp only
        by_cases d : b.1 = -1
        · rw [if_pos d, if_pos d]
          rw [open45 p h n]
          rfl
        · rw [if_neg d, if_neg d, open45 p h n r s]
    · rw [if_neg c, if_neg c, open45 p h n r s]

theorem top45 (p : Deg45.P) (h : Option Nat) (cs : List CSlot) (is : List (Int × Int)) (s : Form45.PS) :
    Form45.passTop p cs is s = topS (fun _ => (ops45 p h).pass) cs is s := by
  unfold Form45.passTop topS
  rcases nz cs with _ | ⟨l1, a, l2⟩
  · rfl
  rcases nz is.reverse with _ | ⟨r1, b, r2⟩
  · rfl
  dsimp only
  by_cases c : a.1 = 1 ∧ b.1 = 1
  · rw [if_pos c, if_pos c]
    rcases a.2 with _ | t
    · rfl
    · rfl
  · rw [if_neg c, if_neg c]

theorem bot45 (p : Deg45.P) (h : Option Nat) (cs : List CSlot) (is : List (Int × Int)) (s : Form45.PS) :
    Form45.passBottom p cs is s = botS (fun _ => (ops45 p h).pass) cs is s := by
  unfold Form45.passBottom botS
  rcases nz cs.reverse with _ | ⟨l1, a, l2⟩
  · rfl
  rcases nz is with _ | ⟨r1, b, r2⟩
  · rfl
  dsimp only
  by_cases c : a.1 = -1 ∧ b.1 = -1
  · rw [if_pos c, if_pos c]
    rcases a.2 with _ | t
    · rfl
    · rfl
  · rw [if_neg c, if_neg c]

theorem end45 (p : Deg45.P) (h : Option Nat) (cs : List CSlot) (s : Form45.PS) : Form45.holeEnd p cs s = endS (ops45 p h).hend cs s := by
  unfold Form45.holeEnd endS
  rcases nz cs with _ | ⟨l1, a, l2⟩
  · rfl
  dsimp only
  rcases nz l2 with _ | ⟨m1, b, m2⟩
  · rfl
  dsimp only
  rcases a.2 with _ | t
  · rfl
  rcases b.2 with _ | u
  · rfl
  rfl

theorem beg45 (p : Deg45.P) (cs : List CSlot) (is : List (Int × Int)) (s : Form45.PS) :
    Form45.holeBegin p cs is s = begS (fun _ => (ops45 p (pend cs)).hbeg) is s := by
  unfold Form45.holeBegin begS
  rcases nz is with _ | ⟨l1, a, l2⟩
  · rfl
  dsimp only
  rcases nz l2 with _ | ⟨m1, b, m2⟩
  · rfl
  rfl

theorem olg_false : ∀ L : List (Int × ι), OLg (fun _ => False) L
  | [] => trivial
  | _ :: r => ⟨Or.inr id, olg_false r⟩

theorem point45 (p : Deg45.P) {cs : List CSlot} {is : List (Int × Int)} (hc : cs.length = 4) (hi : is.length = 4) (H : ArbForm.Heap) (out : List ArbForm.Poly)
    (els : List (Deg45.V45 × Nat)) :
    Form45.processPoint p cs is H out els = pointG (ops45 p (pend cs)) (nzs cs) (nzs is) ⟨H, out, els, none, 0⟩ := by
  unfold Form45.processPoint pointG
  dsimp only
  rw [close45 p (pend cs)]
  obtain ⟨e1, z1⟩ := closeS_spec (ops45 p (pend cs)).join 3 cs ⟨H, out, els, none, 0⟩ (by omega)
  rw [← e1]
  rcases hz1 : closeS (ops45 p (pend cs)).join 3 cs ⟨H, out, els, none, 0⟩ with _ | ⟨c1, s1⟩
  · rfl
  have z1 := z1 _ hz1
  simp only [Option.map_some, Option.bind_some, Option.bind_eq_bind]
  rw [open45 p (pend cs)]
  obtain ⟨e2, -⟩ := openS_spec (V := fun _ => False) (fun _ => (ops45 p (pend cs)).pair) (ops45 p (pend cs)).pair (fun _ _ _ _ _ => rfl) 3 is s1 (by omega) (olg_false _)
  rw [← e2]
  dsimp only
  generalize openS (fun _ => (ops45 p (pend cs)).pair) 3 is s1 = o2
  rw [top45 p (pend cs)]
  obtain ⟨e3, z3⟩ := topS_spec (V := fun _ => False) (fun _ => (ops45 p (pend cs)).pass) (ops45 p (pend cs)).pass (fun _ _ _ _ _ _ _ => rfl) c1 o2.1 o2.2 (olg_false _)
  rw [← e3]
  rcases hz3 : topS (fun _ => (ops45 p (pend cs)).pass) c1 o2.1 o2.2 with _ | ⟨c3, i3, s3⟩
  · rfl
  have z3 := (z3 _ hz3).1
  simp only [Option.map_some, Option.bind_some]
  rw [bot45 p (pend cs)]
  obtain ⟨e4, z4⟩ := botS_spec (V := fun _ => False) (fun _ => (ops45 p (pend cs)).pass) (ops45 p (pend cs)).pass (fun _ _ _ _ _ _ _ => rfl) c3 i3 s3 (olg_false _)
  rw [← e4]
  rcases hz4 : botS (fun _ => (ops45 p (pend cs)).pass) c3 i3 s3 with _ | ⟨c4, i4, s4⟩
  · rfl
  have z4 := (z4 _ hz4).1
  simp only [Option.map_some, Option.bind_some]
  rw [end45 p (pend cs)]
  obtain ⟨e5, z5⟩ := endS_spec (ops45 p (pend cs)).hend c4 s4
  rw [← e5]
  rcases hz5 : endS (ops45 p (pend cs)).hend c4 s4 with _ | ⟨c5, s5⟩
  · rfl
  have z5 := z5 _ hz5
  simp only [Option.map_some, Option.bind_some, Option.some_inj]
  rw [beg45]
  have : pend c5 = pend cs := (((z1.trans z3).trans z4).trans z5).pend
  rw [this]
  exact begS_spec (V := fun _ => False) (fun _ => (ops45 p (pend cs)).hbeg) (ops45 p (pend cs)).hbeg (fun _ _ _ _ _ => rfl) i4 s5 (olg_false _)

end Verif.F45
