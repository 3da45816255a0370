import Verif.Proofs.FormJoin
import Verif.Proofs.FormOpen
/-!
# One point, with the ends in their order
-/
namespace Verif.ArbForm
open Verif.Arb Verif.Contains Verif.Spec.Arb

variable {ω : Edge → Int} {g : Nat} {lo hi : List (V × Nat)} {X : List Edge} {p : Pt}

theorem flat_len {α : Type} : ∀ P : List (α × α), (flat P).length = 2 * P.length
  | [] => rfl
  | x :: P => by rw [flat_cons]; simp [flat_len P]; omega

theorem flat_append {α : Type} (P Q : List (α × α)) : flat (P ++ Q) = flat P ++ flat Q := by unfold flat; rw [List.flatMap_append]

/-! ### The first loop -/

theorem closeSolid_gen (p : Pt) (R : Option (V × Nat)) (hR : ∀ a, R = some a → a.1.2 = -1) {I : List ((V × Nat) × (V × Nat)) → Heap → List Poly → Prop}
    (step : ∀ a b P H out, I ((a, b) :: P) H out → ∃ H' o, H.joinChains p a.2 b.2 true = some (H', o, none) ∧ I P H' (out ++ o)) :
    ∀ (P : List ((V × Nat) × (V × Nat))) (n : Nat) (s : PS), 2 * P.length + R.toList.length ≤ n + 1 → (∀ x ∈ P, x.1.1.2 = -1 ∧ x.2.1.2 = 1) → I P s.H s.out →
    ∃ H' out', closeSolid p n ((flat P ++ R.toList).map cslot) s = some (zs (2 * P.length) ++ R.toList.map cslot, { s with H := H', out := out' }) ∧ I [] H' out'
  | [], n, s, _, _, w => by
    refine ⟨s.H, s.out, ?_, w⟩
    cases R with
    | none => cases n <;> simp [closeSolid, flat]
    | some r =>
      have := hR r rfl
      cases n with
      | zero => simp [closeSolid, flat]
      | succ n => cases n <;> simp [closeSolid, flat, this, nz]
  | (a, b) :: P, n, s, hn, hP, w => by
    obtain ⟨a1, b1⟩ := hP (a, b) List.mem_cons_self
    dsimp only at a1 b1
    simp only [List.length_cons] at hn
    obtain ⟨m, rfl⟩ : ∃ m, n = m + 1 := ⟨n - 1, by omega⟩
    rw [flat_cons]
    obtain ⟨H', o, e, w1⟩ := step a b P s.H s.out w
    obtain ⟨k, hk1, hk2⟩ : ∃ k, 2 * P.length + R.toList.length ≤ k + 1 ∧ (m = k + 1 ∨ (m = 0 ∧ P = [] ∧ R = none)) := by
      cases m with
      | zero =>
        refine ⟨0, by omega, Or.inr ⟨rfl, ?_, ?_⟩⟩
        · exact List.length_eq_zero_iff.1 (by omega)
        · have : R.toList.length = 0 := by omega
          cases R with
          | none => rfl
          | some r => simp at this
      | succ k => exact ⟨k, by omega, Or.inl rfl⟩
    obtain ⟨H2, out2, e2, w2⟩ := closeSolid_gen p R hR step P k { s with H := H', out := s.out ++ o } hk1 (fun x hx => hP x (List.mem_cons_of_mem _ hx)) w1
    have key : closeSolid p m ((0, none) :: (flat P ++ R.toList).map cslot) { s with H := H', out := s.out ++ o } =
        some ((0, none) :: (zs (2 * P.length) ++ R.toList.map cslot), { s with H := H2, out := out2 }) := by
      rcases hk2 with rfl | ⟨rfl, rfl, rfl⟩
      · rw [closeSolid, if_neg (by decide), e2]; rfl
      · rw [closeSolid]
        simp only [flat, List.flatMap_nil, Option.toList_none, List.append_nil, List.map_nil, List.length_nil, Nat.mul_zero, List.replicate_zero] at e2 ⊢
        cases k <;> simp [closeSolid] at e2 <;> simp [e2]
    refine ⟨H2, out2, ?_, w2⟩
    simp only [List.cons_append, List.map_cons]
    rw [closeSolid, if_pos (show (cslot a).1 = -1 from a1)]
    have : nz (cslot b :: (flat P ++ R.toList).map cslot) = some ([], cslot b, (flat P ++ R.toList).map cslot) :=
      nz_some (Z := []) (a := cslot b) (by show b.1.2 ≠ 0; omega) _ (by simp)
    rw [this]
    dsimp only
    rw [if_pos b1]
    simp only [Option.bind_eq_bind, Option.bind_some, e, List.nil_append, key]
    rw [List.length_cons, show 2 * (P.length + 1) = 2 * P.length + 1 + 1 by omega]
    rfl

theorem closeAll_ord {u d : Option (V × Nat)} {P : List ((V × Nat) × (V × Nat))} {s : PS}
    (hu : ∀ a, u = some a → a.1.2 = 1) (hd : ∀ a, d = some a → a.1.2 = -1)
    (hP : ∀ x ∈ P, x.1.1.2 = -1 ∧ x.2.1.2 = 1 ∧ x.1.1.1.1 ≠ p ∧ x.2.1.1.1 ≠ p ∧ x.1.1.1.2 = p ∧ x.2.1.1.2 = p) (h0 : ω (p, p) = 0) (hlo : (lo.length : Int) % 2 = 0)
    (w : WebS ω s.H (lo ++ ((flat P).reverse ++ hi)) none g s.out X) :
    ∃ H' out', closeSolid p (((u.toList ++ (flat P ++ d.toList)).map cslot).length - 1) ((u.toList ++ (flat P ++ d.toList)).map cslot) s =
        some (u.toList.map cslot ++ (zs (2 * P.length) ++ d.toList.map cslot), { s with H := H', out := out' }) ∧
      WebS ω H' (lo ++ hi) none g out' ((flat P).map (cl p) ++ X) := by
  have gen : ∀ n, 2 * P.length + d.toList.length ≤ n + 1 → ∃ H' out', closeSolid p n ((flat P ++ d.toList).map cslot) s =
      some (zs (2 * P.length) ++ d.toList.map cslot, { s with H := H', out := out' }) ∧ WebS ω H' (lo ++ hi) none g out' ((flat P).map (cl p) ++ X) := by
    intro n hn
    obtain ⟨H', out', e, done, hdn, w'⟩ := closeSolid_gen (p := p) d hd (I := fun Q H out => ∃ done, P = done ++ Q ∧
      WebS ω H (lo ++ ((flat Q).reverse ++ hi)) none g out ((flat done).map (cl p) ++ X)) (by
        rintro a b Q H out ⟨done, hdn, w⟩
        obtain ⟨a1, b1, a2, b2, a3, b3⟩ := hP (a, b) (by rw [hdn]; simp)
        have e1 : lo ++ ((flat ((a, b) :: Q)).reverse ++ hi) = (lo ++ (flat Q).reverse) ++ b :: a :: hi := by rw [flat_cons]; simp
        rw [e1] at w
        obtain ⟨H', o, ej, wj⟩ := w.joinSolid b1 a1 (by rw [List.length_append, List.length_reverse, flat_len]; push_cast; omega) b3 a3 b2 a2 h0
        refine ⟨H', o, ej, done ++ [(a, b)], by rw [hdn]; simp, ?_⟩
        rw [List.append_assoc] at wj
        refine wj.permX ?_
        rw [flat_append]
        show (cl p a :: cl p b :: ((flat done).map (cl p) ++ X)).Perm ((flat done ++ [a, b]).map (cl p) ++ X)
        rw [List.perm_iff_count]; intro z
        simp only [List.map_append, List.map_cons, List.map_nil, List.count_append, List.count_cons, List.count_nil]
        omega) P n s hn (fun x hx => ⟨(hP x hx).1, (hP x hx).2.1⟩) ⟨[], rfl, by simpa [flat] using w⟩
    refine ⟨H', out', e, ?_⟩
    rw [List.append_nil] at hdn
    subst hdn
    exact w'
  cases u with
  | none =>
    simp only [Option.toList_none, List.nil_append, List.map_nil]
    exact gen _ (by rw [List.length_map, List.length_append, flat_len]; omega)
  | some a =>
    have ha := hu a rfl
    simp only [Option.toList_some, List.singleton_append, List.map_cons, List.length_cons, Nat.add_sub_cancel, List.map_nil]
    cases hn : ((flat P ++ d.toList).map cslot).length with
    | zero =>
      rw [List.length_map, List.length_append, flat_len] at hn
      have hP0 : P = [] := List.length_eq_zero_iff.1 (by omega)
      have hd0 : d = none := by
        cases d with
        | none => rfl
        | some x => simp at hn
      subst hP0 hd0
      refine ⟨s.H, s.out, ?_, by simpa [flat] using w⟩
      rw [closeSolid]; simp [flat]
    | succ n =>
      obtain ⟨H', out', e, w'⟩ := gen n (by rw [List.length_map, List.length_append, flat_len] at hn; omega)
      refine ⟨H', out', ?_, w'⟩
      rw [closeSolid, if_neg (show (cslot a).1 ≠ -1 by show a.1.2 ≠ -1; omega), e]
      rfl

/-! ### The second loop -/

theorem openSolid_gen (p : Pt) (R : Option (Pt × Int)) (hR : ∀ a, R = some a → a.2 = 1) {I : List ((Pt × Int) × (Pt × Int)) → Heap → List (V × Nat) → Prop}
    (step : ∀ a b Q H N, I ((a, b) :: Q) H N → I Q (H.newPair p true) (N ++ [(((p, b.1), -1), H.ft)] ++ [(((p, a.1), 1), H.ft + 1)])) :
    ∀ (Q : List ((Pt × Int) × (Pt × Int))) (n : Nat) (s : PS) (els N : List (V × Nat)),
    2 * Q.length + R.toList.length ≤ n + 1 → (∀ x ∈ Q, x.1.2 = 1 ∧ x.2.2 = -1) → OL p.1 (flat Q ++ R.toList) → Mt p els N s → I Q s.H N →
    ∃ s' N', openSolid p n ((flat Q ++ R.toList).map islot) s = ((flat Q).map zslot ++ R.toList.map islot, s') ∧ Mt p els N' s' ∧ I [] s'.H N' ∧ s'.out = s.out
  | [], n, s, els, N, _, _, _, hm, w => by
    refine ⟨s, N, ?_, hm, w, rfl⟩
    cases R with
    | none => cases n <;> simp [openSolid, flat]
    | some r =>
      have := hR r rfl
      cases n with
      | zero => simp [openSolid, flat]
      | succ n => cases n <;> simp [openSolid, flat, this, nz]
  | (a, b) :: Q, n, s, els, N, hn, hQ, hol, hm, w => by
    obtain ⟨a1, b1⟩ := hQ (a, b) List.mem_cons_self
    dsimp only at a1 b1
    simp only [List.length_cons] at hn
    obtain ⟨m, rfl⟩ : ∃ m, n = m + 1 := ⟨n - 1, by omega⟩
    rw [flat_cons] at hol
    simp only [List.cons_append] at hol
    obtain ⟨ho1, ho2, ho3⟩ := hol
    have ho1 := ho1.resolve_left (by simp)
    have e : s.H.createPair p true none = (s.H.newPair p true, s.H.ft, s.H.ft + 1) := rfl
    have w1 := step a b Q s.H N w
    generalize s.H.newPair p true = H' at *
    generalize s.H.ft = t at *
    generalize t + 1 = u at *
    obtain ⟨m1, h1, h2⟩ := (hm.heap H' s.out).put (last := ((flat Q ++ R.toList).map islot).isEmpty) (o := b.1) (σ := -1) (r := 1) (t := t) (by
      intro hc
      refine ho2.resolve_left ?_
      intro h0; rw [h0] at hc; simp at hc) (by omega)
    have m2 := m1.put' (o := a.1) (σ := 1) (t := u) ho1
    generalize hs2 : PS.put { s with H := H' } p ((flat Q ++ R.toList).map islot).isEmpty b.1 (-1) 1 t = s1 at m1 m2 h1 h2
    generalize hs3 : ({ s1 with els := s1.els ++ [(((p, a.1), 1), u)] } : PS) = s2 at m2
    have w2 : I Q s2.H (N ++ [(((p, b.1), -1), t)] ++ [(((p, a.1), 1), u)]) := by
      rw [← hs3]
      dsimp only
      rw [h1]
      exact w1
    obtain ⟨k, hk1, hk2⟩ : ∃ k, 2 * Q.length + R.toList.length ≤ k + 1 ∧ (m = k + 1 ∨ (m = 0 ∧ Q = [] ∧ R = none)) := by
      cases m with
      | zero =>
        refine ⟨0, by omega, Or.inr ⟨rfl, ?_, ?_⟩⟩
        · exact List.length_eq_zero_iff.1 (by omega)
        · have : R.toList.length = 0 := by omega
          cases R with
          | none => rfl
          | some r => simp at this
      | succ k => exact ⟨k, by omega, Or.inl rfl⟩
    obtain ⟨s', N', e2, m3, w3, ho⟩ := openSolid_gen p R hR step Q k s2 els _ hk1 (fun x hx => hQ x (List.mem_cons_of_mem _ hx)) ho3 m2 w2
    have hkey : openSolid p m ((0, b.1) :: (flat Q ++ R.toList).map islot) s2 = ((0, b.1) :: ((flat Q).map zslot ++ R.toList.map islot), s') := by
      rcases hk2 with rfl | ⟨rfl, rfl, rfl⟩
      · rw [openSolid, if_neg (by simp), e2]
      · rw [openSolid]
        simp only [flat, List.flatMap_nil, Option.toList_none, List.append_nil, List.map_nil] at e2 ⊢
        cases k <;> simp [openSolid] at e2 <;> simp [e2]
    refine ⟨s', N', ?_, m3, w3, ?_⟩
    · rw [flat_cons]
      simp only [List.cons_append, List.map_cons]
      rw [openSolid, if_pos (show (islot a).1 = 1 from a1)]
      have : nz (islot b :: (flat Q ++ R.toList).map islot) = some ([], islot b, (flat Q ++ R.toList).map islot) :=
        nz_some (Z := []) (a := islot b) (by show b.2 ≠ 0; omega) _ (by simp)
      rw [this]
      dsimp only
      rw [if_pos b1]
      simp only [e]
      rw [hs2, hs3, List.nil_append, hkey]
    · rw [ho, ← hs3]; exact h2

theorem openAll_ord {F : Option Nat} {u d : Option (Pt × Int)} {Q : List ((Pt × Int) × (Pt × Int))} {s : PS} {els : List (V × Nat)}
    (hu : ∀ a, u = some a → a.2 = 1) (hd : ∀ a, d = some a → a.2 = -1)
    (hQ : ∀ x ∈ Q, x.1.2 = 1 ∧ x.2.2 = -1) (hol : OL p.1 (d.toList ++ (flat Q ++ u.toList))) (hm : Mt p els [] s)
    (hz : ∀ a ∈ flat Q, ω (dir p a.1 a.2) = 0) (hg : F = none ∨ g ≤ lo.length) (w : WebS ω s.H (lo ++ hi) F g s.out X) :
    ∃ s' M Pr, openSolid p (((d.toList ++ (flat Q ++ u.toList)).map islot).length - 1) ((d.toList ++ (flat Q ++ u.toList)).map islot) s =
        (d.toList.map islot ++ ((flat Q).map zslot ++ u.toList.map islot), s') ∧
      Mt p els M s' ∧ WebS ω s'.H (lo ++ (flat Pr ++ hi)) F g s'.out X ∧ (flat Pr).Perm M ∧ (flat Pr).map key = flat Q ∧ ∀ z ∈ Pr, Fresh ω s'.H z := by
  have gen : ∀ n, 2 * Q.length + u.toList.length ≤ n + 1 → OL p.1 (flat Q ++ u.toList) →
      ∃ s' M Pr, openSolid p n ((flat Q ++ u.toList).map islot) s = ((flat Q).map zslot ++ u.toList.map islot, s') ∧
      Mt p els M s' ∧ WebS ω s'.H (lo ++ (flat Pr ++ hi)) F g s'.out X ∧ (flat Pr).Perm M ∧ (flat Pr).map key = flat Q ∧ ∀ z ∈ Pr, Fresh ω s'.H z := by
    intro n hn hol
    obtain ⟨s', M, e, m', ⟨done, Pr, hdn, w', i1, i2, i3⟩, ho⟩ := openSolid_gen p u hu (I := fun Q' H N => ∃ done Pr, Q = done ++ Q' ∧ WebS ω H (lo ++ (flat Pr ++ hi)) F g s.out X ∧
        (flat Pr).Perm N ∧ (flat Pr).map key = flat done ∧ ∀ z ∈ Pr, Fresh ω H z) (by
      rintro a b Q' H N ⟨done, Pr, hdn, w, i1, i2, i3⟩
      have hab := hQ (a, b) (by rw [hdn]; simp)
      dsimp only at hab
      have ma : a ∈ flat Q := List.mem_flatMap.2 ⟨(a, b), by rw [hdn]; simp, by simp⟩
      have mb : b ∈ flat Q := List.mem_flatMap.2 ⟨(a, b), by rw [hdn]; simp, by simp⟩
      have za := hz a ma
      have zb := hz b mb
      rw [hab.1] at za
      rw [hab.2] at zb
      rw [← List.append_assoc] at w
      obtain ⟨-, w', f1, f2⟩ := w.open (x := (((p, a.1), 1), H.ft + 1)) (y := (((p, b.1), -1), H.ft)) (p := p) rfl rfl rfl rfl rfl rfl za zb (by
        rcases hg with h | h
        · exact Or.inl h
        · right; rw [List.length_append]; omega)
      refine ⟨done ++ [(a, b)], Pr ++ [((((p, a.1), 1), H.ft + 1), (((p, b.1), -1), H.ft))], by rw [hdn]; simp, ?_, ?_, ?_, ?_⟩
      · rw [flat_append, List.append_assoc, ← List.append_assoc]; exact w'
      · rw [flat_append, List.append_assoc]
        exact i1.append (List.Perm.swap _ _ _)
      · rw [flat_append, flat_append, List.map_append, i2]
        congr 1
        show [(a.1, (1 : Int)), (b.1, (-1 : Int))] = [a, b]
        rw [← hab.2, ← hab.1]
      · intro z hz
        rcases List.mem_append.1 hz with hz | hz
        · have m1 : z.1 ∈ flat Pr := List.mem_flatMap.2 ⟨z, hz, by simp⟩
          have m2 : z.2 ∈ flat Pr := List.mem_flatMap.2 ⟨z, hz, by simp⟩
          exact f2 z (by simp [m1]) (by simp [m2]) (i3 z hz)
        · rw [List.mem_singleton] at hz; rw [hz]; exact f1) Q n s els [] hn hQ hol hm ⟨[], [], rfl, w, List.Perm.refl _, rfl, by simp⟩
    rw [List.append_nil] at hdn
    subst hdn
    exact ⟨s', M, Pr, e, m', by rw [ho]; exact w', i1, i2, i3⟩
  cases d with
  | none =>
    simp only [Option.toList_none, List.nil_append, List.map_nil] at hol ⊢
    exact gen _ (by rw [List.length_map, List.length_append, flat_len]; omega) hol
  | some a =>
    have ha := hd a rfl
    simp only [Option.toList_some, List.singleton_append, List.map_cons, List.length_cons, Nat.add_sub_cancel, List.map_nil] at hol ⊢
    cases hn : ((flat Q ++ u.toList).map islot).length with
    | zero =>
      rw [List.length_map, List.length_append, flat_len] at hn
      have hQ0 : Q = [] := List.length_eq_zero_iff.1 (by omega)
      have hu0 : u = none := by
        cases u with
        | none => rfl
        | some x => simp at hn
      subst hQ0 hu0
      refine ⟨s, [], [], ?_, hm, by simpa [flat] using w, by simp [flat], by simp [flat], by simp⟩
      rw [openSolid]; simp [flat]
    | succ n =>
      obtain ⟨s', M, Pr, e, h⟩ := gen n (by rw [List.length_map, List.length_append, flat_len] at hn; omega) hol.2
      refine ⟨s', M, Pr, ?_, h⟩
      rw [openSolid, if_neg (show (islot a).1 ≠ 1 by show a.2 ≠ 1; omega), e]

/-! ### All cases -/

theorem en_mid {N N' : List (V × Nat)} (h : N.Perm N') : ((lo ++ (N ++ hi)).map en).Perm (N'.map en ++ (lo ++ hi).map en) := by
  refine List.Perm.trans ?_ ((h.map en).append_right _)
  rw [List.perm_iff_count]; intro a
  simp only [List.map_append, List.count_append]; omega

theorem toList_reverse {α : Type} (o : Option α) : o.toList.reverse = o.toList := by cases o <;> rfl

/-- An end that goes on. -/
theorem WebS.goOn {H : Heap} {out : List Poly} {A B : List (V × Nat)} {u : Option (V × Nat)} {u' : Option (Pt × Int)} (w : WebS ω H (A ++ (u.toList ++ B)) none g out X)
    (huu : u.isSome = u'.isSome) (hs : ∀ a, u = some a → a.1.1.2 = p ∧ a.1.1.1 ≠ p) (hs' : ∀ a b, u = some a → u' = some b → b.2 = a.1.2)
    (hz : ∀ b, u' = some b → ω (dir p b.1 b.2) = 0) :
    WebS ω (pushO H p u) (A ++ (goOn p u u' ++ B)) none g out (u.toList.map (cl p) ++ X) ∧ (goOn p u u').map key = u'.toList := by
  cases u with
  | none =>
    cases u' with
    | none => exact ⟨w, rfl⟩
    | some b => simp at huu
  | some a =>
    cases u' with
    | none => simp at huu
    | some b =>
      have e := hs' a b rfl rfl
      refine ⟨w.push (a' := (((p, b.1), a.1.2), a.2)) rfl rfl (hs a rfl).1 rfl (hs a rfl).2 ?_, ?_⟩
      · unfold we
        dsimp only
        rw [← e]; exact hz b rfl
      · show [(b.1, a.1.2)] = [b]
        rw [← e]

/-- A hole begins. -/
theorem holeBegin_ord {H : Heap} {out : List Poly} {Fl : Option Nat} {Pr : List ((V × Nat) × (V × Nat))} {a c : Pt × Int} (ha : a.2 = 1) (hc : c.2 = -1)
    (w : WebS ω H (lo ++ (flat Pr ++ hi)) Fl lo.length out X) (hf : ∀ z ∈ Pr, Fresh ω H z) (hlo : (lo.length : Int) % 2 = 1)
    (za : ω (dir p a.1 a.2) = 0) (zc : ω (dir p c.1 c.2) = 0) :
    ∃ H', H.createPair p false Fl = (H', H.ft, H.ft + 1) ∧
      WebS ω H' (lo ++ (((((p, c.1), -1), H.ft + 1) :: (flat Pr ++ [(((p, a.1), 1), H.ft)])) ++ hi)) none lo.length out X := by
  rw [ha] at za
  rw [hc] at zc
  have w' := w.wrap hf (x := (((p, c.1), -1), H.ft + 1)) (y := (((p, a.1), 1), H.ft)) (p := p) rfl rfl rfl rfl rfl rfl zc za
  have e1 : lo ++ (((((p, c.1), -1), H.ft + 1) :: (flat Pr ++ [(((p, a.1), 1), H.ft)])) ++ hi) = lo ++ (((p, c.1), -1), H.ft + 1) :: (flat Pr ++ (((p, a.1), 1), H.ft) :: hi) := by simp
  rw [e1]
  cases Fl with
  | none => exact ⟨_, rfl, w'⟩
  | some h => exact ⟨_, rfl, w'.addHole hlo⟩

theorem processPoint_ord {from_ : List (V × Nat)} {inc : List (Pt × Int)} {H : Heap} {out : List Poly} {els : List (V × Nat)}
    {t b : Int} (hc : Colors (fun a : V × Nat => a.1.2) t from_ b) (hi' : Colors (fun a : Pt × Int => a.2) t inc.reverse b)
    (hf : ∀ a ∈ from_, a.1.1.1 ≠ p) (hfe : ∀ a ∈ from_, a.1.1.2 = p) (hl : ∀ a ∈ inc, lessPoint a.1 p = false) (hol : OL p.1 inc)
    (h0 : ω (p, p) = 0) (hz : ∀ a ∈ inc, ω (dir p a.1 a.2) = 0) (hlo : (lo.length : Int) % 2 = b)
    (w : WebS ω H (lo ++ (from_.reverse ++ hi)) none g out X) :
    ∃ s N' F, processPoint p from_ inc H out els = some s ∧ After p from_ inc els ((lo ++ hi).map en) X t s N' F ∧
      ∃ N, N.Perm N' ∧ N.map key = inc ∧ WebS ω s.H (lo ++ (N ++ hi)) F lo.length s.out (from_.map (cl p) ++ X) := by
  unfold processPoint
  dsimp only
  rw [inc_slots hl]
  have hm0 : ∀ H out, Mt p els [] ⟨H, out, els, none, ((0, 0), 0)⟩ := fun H out => ⟨by simp, by simp, Or.inl ⟨by simp, rfl, rfl⟩⟩
  rcases colors_shape hc with ⟨ht, hb, rfl⟩ | ⟨u, d, P, rfl, hP, hu, hd, ht, hb⟩
  · -- nothing ends here
    have w : WebS ω H (lo ++ hi) none lo.length out X := w.gap
    have e1 : closeSolid p (([] : List CSlot).length - 1) [] ⟨H, out, els, none, ((0, 0), 0)⟩ = some ([], ⟨H, out, els, none, ((0, 0), 0)⟩) := rfl
    rcases inc_shape hi' with ⟨_, _, rfl⟩ | ⟨u', d', Q, rfl, hQ, hu', hd', ht', hb'⟩
    · refine ⟨⟨H, out, els, none, ((0, 0), 0)⟩, [], none, ?_, ⟨by simp, by simp, by simp, by simpa using w.web, Or.inl ⟨rfl, Or.inl ⟨by simp, rfl⟩⟩⟩,
        [], List.Perm.refl _, rfl, w⟩
      simp only [List.map_nil, e1, Option.bind_eq_bind, Option.bind_some]
      have e2 : openSolid p (([] : List ISlot).length - 1) [] ⟨H, out, els, none, ((0, 0), 0)⟩ = ([], ⟨H, out, els, none, ((0, 0), 0)⟩) := rfl
      simp only [e2, passTop_skip', passBottom_skip', Option.bind_some, holeEnd_skip (cs := []) (by simp), holeBegin_skip (inc := []) (by simp),
        lastTail_skip (cs := []) (by simp)]
    · obtain ⟨s2, M, Pr, e2, m2, w2, k1, k2, k3⟩ := openAll_ord (s := ⟨H, out, els, none, ((0, 0), 0)⟩) hu' hd' hQ hol (hm0 H out)
        (fun a ha => hz a (by simp [ha])) (Or.inl rfl) w
      obtain ⟨a, rfl⟩ : ∃ a, u' = some a := by cases u' with
        | none => rw [ht] at ht'; simp at ht'
        | some a => exact ⟨a, rfl⟩
      obtain ⟨c, rfl⟩ : ∃ a, d' = some a := by cases d' with
        | none => rw [hb] at hb'; simp at hb'
        | some a => exact ⟨a, rfl⟩
      have ha := hu' a rfl
      have hcc := hd' c rfl
      obtain ⟨H', e3, w3⟩ := holeBegin_ord ha hcc w2 k3 (by rw [hlo]; exact hb) (hz a (by simp)) (hz c (by simp))
      generalize s2.H.ft = t1 at *
      generalize t1 + 1 = t2 at *
      obtain ⟨m3, g1, g2⟩ := (m2.heap H' s2.out).put (last := true) (o := a.1) (σ := 1) (r := -1) (t := t1) (by simp) rfl
      have hcv : c.1.1 ≠ p.1 := OL.head (A := [c]) (B := flat Q ++ [a]) hol (by simp) c (by simp)
      have m4 := m3.put' (o := c.1) (σ := -1) (t := t2) hcv
      generalize hs3 : PS.put { s2 with H := H' } p true a.1 1 (-1) t1 = s3 at m3 m4 g1 g2
      generalize hs4 : ({ s3 with els := s3.els ++ [(((p, c.1), -1), t2)] } : PS) = s4 at m4
      have hb6 : ∀ vb, holeBegin p vb [] ([islot c] ++ ((flat Q).map zslot ++ [islot a])) s2 = ([], false, s4) := by
        intro vb
        unfold holeBegin
        have n1 : nz ([islot c] ++ ((flat Q).map zslot ++ [islot a])) = some ([], islot c, (flat Q).map zslot ++ [islot a]) :=
          nz_some (Z := []) (a := islot c) (by show c.2 ≠ 0; omega) _ (by simp)
        have n2 : nz ((flat Q).map zslot ++ [islot a]) = some ((flat Q).map zslot, islot a, []) :=
          nz_some (a := islot a) (by show a.2 ≠ 0; omega) _ (by intro z hz; obtain ⟨x, _, rfl⟩ := List.mem_map.1 hz; rfl)
        rw [n1]
        dsimp only
        rw [n2]
        have hh : (if vb = true then ([] : List CSlot).getLast?.bind Prod.snd else none) = none := by cases vb <;> rfl
        dsimp only
        rw [hh, e3]
        simp only [List.isEmpty_nil, ha, hcc, hs3, hs4]
        simp
      have hH4 : s4.H = H' ∧ s4.out = s2.out := by rw [← hs4]; exact ⟨g1, g2⟩
      have hNp : ((((p, c.1), -1), t2) :: (flat Pr ++ [(((p, a.1), 1), t1)])).Perm (M ++ [(((p, a.1), 1), t1)] ++ [(((p, c.1), -1), t2)]) :=
        ((k1.append_right _).cons _).trans (List.perm_append_singleton _ _).symm
      have e5 : key (((p, a.1), 1), t1) = a := by rw [← ha]
      have e6 : key (((p, c.1), -1), t2) = c := by rw [← hcc]
      have hkey : ((((p, c.1), -1), t2) :: (flat Pr ++ [(((p, a.1), 1), t1)])).map key = (some c).toList ++ (flat Q ++ (some a).toList) := by
        rw [List.map_cons, List.map_append, k2, List.map_cons, e5, e6]; rfl
      have w4 : WebS ω s4.H (lo ++ (((((p, c.1), -1), t2) :: (flat Pr ++ [(((p, a.1), 1), t1)])) ++ hi)) none lo.length s4.out X := by rw [hH4.1, hH4.2]; exact w3
      refine ⟨s4, M ++ [(((p, a.1), 1), t1)] ++ [(((p, c.1), -1), t2)], none, ?_, ⟨m4.els, m4.at_, ?_, ?_, Or.inl ⟨rfl, ?_⟩⟩, _, hNp, hkey, w4⟩
      · simp only [Option.toList_some, List.map_cons, List.map_nil] at e2
        simp only [List.map_nil, e1, Option.bind_eq_bind, Option.bind_some, Option.toList_some, e2]
        rw [passTop_skip (cs := []) (by simp [nz])]
        simp only [Option.bind_some]
        rw [passBottom_skip (cs := []) (by simp [nz])]
        simp only [Option.bind_some, holeEnd_skip (cs := []) (by simp)]
        rw [hb6]
        dsimp only
        rw [lastTail_skip (cs := []) (by simp)]
      · exact ((hNp.map key).symm.trans (List.Perm.of_eq hkey))
      · exact w4.web.permA (en_mid hNp)
      · rcases m4.ret with ⟨h1, h2, h3⟩ | h
        · exact Or.inl ⟨h1, h2⟩
        · exact Or.inr h
  · -- some edges end here
    have hPp : ∀ x ∈ P, x.1.1.2 = -1 ∧ x.2.1.2 = 1 ∧ x.1.1.1.1 ≠ p ∧ x.2.1.1.1 ≠ p ∧ x.1.1.1.2 = p ∧ x.2.1.1.2 = p := by
      intro x hx
      have h1 : x.1 ∈ flat P := List.mem_flatMap.2 ⟨x, hx, by simp⟩
      have h2 : x.2 ∈ flat P := List.mem_flatMap.2 ⟨x, hx, by simp⟩
      exact ⟨(hP x hx).1, (hP x hx).2, hf _ (by simp [h1]), hf _ (by simp [h2]), hfe _ (by simp [h1]), hfe _ (by simp [h2])⟩
    have hu2 : ∀ a, u = some a → a.1.2 = 1 ∧ a.1.1.1 ≠ p := fun a ha => ⟨hu a ha, hf a (by simp [ha])⟩
    have hd2 : ∀ a, d = some a → a.1.2 = -1 ∧ a.1.1.1 ≠ p := fun a ha => ⟨hd a ha, hf a (by simp [ha])⟩
    have hu3 : ∀ a, u = some a → a.1.1.2 = p := fun a ha => hfe a (by simp [ha])
    have hd3 : ∀ a, d = some a → a.1.1.2 = p := fun a ha => hfe a (by simp [ha])
    have e0 : lo ++ ((u.toList ++ (flat P ++ d.toList)).reverse ++ hi) = (lo ++ d.toList) ++ ((flat P).reverse ++ (u.toList ++ hi)) := by
      simp only [List.reverse_append, toList_reverse, List.append_assoc]
    rw [e0] at w
    have hpar : ((lo ++ d.toList).length : Int) % 2 = 0 := by
      rw [List.length_append]
      cases d with
      | none => simp at hb; rw [hb] at hlo; simpa using hlo
      | some a => simp at hb; rw [hb] at hlo; simp only [Option.toList_some, List.length_singleton]; push_cast; omega
    obtain ⟨H1, out1, e1, w1⟩ := closeAll_ord (s := ⟨H, out, els, none, ((0, 0), 0)⟩) hu hd hPp h0 hpar w
    dsimp only at e1
    rcases inc_shape hi' with ⟨ht', hb', rfl⟩ | ⟨u', d', Q, rfl, hQ, hu', hd', ht', hb'⟩
    · -- a hole ends
      obtain ⟨a, rfl⟩ : ∃ a, u = some a := by cases u with
        | none => rw [ht'] at ht; simp at ht
        | some a => exact ⟨a, rfl⟩
      obtain ⟨c, rfl⟩ : ∃ a, d = some a := by cases d with
        | none => rw [hb'] at hb; simp at hb
        | some a => exact ⟨a, rfl⟩
      obtain ⟨ha, hap⟩ := hu2 a rfl
      obtain ⟨hcc, hcp⟩ := hd2 c rfl
      have e3 : (lo ++ (some c).toList) ++ ((some a).toList ++ hi) = lo ++ c :: a :: hi := by simp
      rw [e3] at w1
      obtain ⟨H2, o, r, e2, w2⟩ := w1.joinHole hcc ha (by rw [hlo]; exact hb') (hd3 c rfl) (hu3 a rfl) hcp hap h0
      have h5 : holeEnd p (cslot a :: (zs (2 * P.length) ++ [cslot c])) ⟨H1, out1, els, none, ((0, 0), 0)⟩ =
          some ((0, none) :: (zs (2 * P.length) ++ [(0, none)]), ⟨H2, out1 ++ o, els, r, if r.isSome then (p, 0) else ((0, 0), 0)⟩) := by
        unfold holeEnd
        have n1 : nz (cslot a :: (zs (2 * P.length) ++ [cslot c])) = some ([], cslot a, zs (2 * P.length) ++ [cslot c]) :=
          nz_some (Z := []) (a := cslot a) (by show a.1.2 ≠ 0; omega) _ (by simp)
        have n2 : nz (zs (2 * P.length) ++ [cslot c]) = some (zs (2 * P.length), cslot c, []) :=
          nz_some (a := cslot c) (by show c.1.2 ≠ 0; omega) _ (zs_zero _)
        rw [n1]
        dsimp only
        rw [n2]
        simp only [Option.bind_eq_bind, Option.bind_some, e2]
        rfl
      have w3 : WebS ω H2 (lo ++ ([] ++ hi)) r lo.length (out1 ++ o) (((some a).toList ++ (flat P ++ (some c).toList)).map (cl p) ++ X) := by
        refine w2.permX ?_
        rw [List.perm_iff_count]; intro x
        simp only [Option.toList_some, List.map_append, List.map_cons, List.map_nil, List.count_append, List.count_cons, List.count_nil]
        omega
      refine ⟨⟨H2, out1 ++ o, els, r, if r.isSome then (p, 0) else ((0, 0), 0)⟩, [], r, ?_, ⟨by simp, by simp, by simp, w3.web, ?_⟩, [], List.Perm.refl _, rfl, w3⟩
      · have e2' : openSolid p (([] : List ISlot).length - 1) [] ⟨H1, out1, els, none, ((0, 0), 0)⟩ = ([], ⟨H1, out1, els, none, ((0, 0), 0)⟩) := rfl
        rw [e1]
        simp only [List.map_nil, Option.toList_some, List.map_cons, List.singleton_append, Option.bind_eq_bind, Option.bind_some, e2', passTop_skip', passBottom_skip']
        rw [h5]
        simp only [Option.bind_some]
        rw [holeBegin_skip (inc := []) (by simp)]
        dsimp only
        rw [lastTail_skip]
        intro z hz
        simp only [List.mem_cons, List.mem_append, List.mem_replicate, List.not_mem_nil, or_false] at hz
        rcases hz with h | ⟨_, h⟩ | h <;> exact h
      · cases r with
        | none => exact Or.inl ⟨rfl, Or.inl ⟨by simp, rfl⟩⟩
        | some h => exact Or.inr ⟨h, rfl, rfl, ht', rfl, rfl⟩
    · -- the general case
      obtain ⟨s2, M, Pr, e2, m2, w2, k1, k2, k3⟩ := openAll_ord (s := ⟨H1, out1, els, none, ((0, 0), 0)⟩) hu' hd' hQ hol (hm0 H1 out1)
        (fun a ha => hz a (by simp [ha])) (Or.inl rfl) w1
      have huu : u.isSome = u'.isSome := by
        rw [ht] at ht'
        revert ht'
        cases u.isSome <;> cases u'.isSome <;> simp
      have hdd : d.isSome = d'.isSome := by
        rw [hb] at hb'
        revert hb'
        cases d.isSome <;> cases d'.isSome <;> simp
      have wM : Web s2.H (M.map en ++ (u.toList.map en ++ (d.toList.map en ++ (lo ++ hi).map en))) none s2.out ((flat P).map (cl p) ++ X) := by
        refine w2.web.permA ?_
        refine List.Perm.trans ?_ ((k1.map en).append_right _)
        rw [List.perm_iff_count]; intro x
        simp only [List.map_append, List.count_append]
        omega
      have kM : (M.map key).Perm (flat Q) := (k1.map key).symm.trans (List.Perm.of_eq k2)
      obtain ⟨s3, s4, N', cs1, cs2, is1, is2, e3, e4, z1, z2, m4, w4, k4, q1, q2, q3⟩ := bothPass (k := 2 * P.length) hu2 hd2 hu' hd' huu hdd hol m2 wM kM
      have x1 : (lo ++ d.toList) ++ (flat Pr ++ (u.toList ++ hi)) = (lo ++ d.toList ++ flat Pr) ++ (u.toList ++ hi) := by simp
      rw [x1] at w2
      obtain ⟨w5, y1⟩ := w2.goOn (p := p) (u' := u') huu (fun a ha => ⟨hu3 a ha, (hu2 a ha).2⟩) (fun a b ha hb => by rw [(hu2 a ha).1, hu' b hb])
        (fun b hb => hz b (by simp [hb]))
      have x2 : (lo ++ d.toList ++ flat Pr) ++ (goOn p u u' ++ hi) = lo ++ (d.toList ++ (flat Pr ++ (goOn p u u' ++ hi))) := by simp
      rw [x2] at w5
      obtain ⟨w6, y2⟩ := w5.goOn (p := p) (u' := d') hdd (fun a ha => ⟨hd3 a ha, (hd2 a ha).2⟩) (fun a b ha hb => by rw [(hd2 a ha).1, hd' b hb])
        (fun b hb => hz b (by simp [hb]))
      have x3 : lo ++ (goOn p d d' ++ (flat Pr ++ (goOn p u u' ++ hi))) = lo ++ ((goOn p d d' ++ (flat Pr ++ goOn p u u')) ++ hi) := by simp
      rw [x3] at w6
      have hNp : (goOn p d d' ++ (flat Pr ++ goOn p u u')).Perm N' := by
        rw [q1]
        refine List.perm_append_comm.trans ?_
        rw [List.append_assoc]
        exact k1.append_right _
      have hkey : (goOn p d d' ++ (flat Pr ++ goOn p u u')).map key = d'.toList ++ (flat Q ++ u'.toList) := by
        rw [List.map_append, List.map_append, y1, y2, k2]
      have w7 : WebS ω s4.H (lo ++ ((goOn p d d' ++ (flat Pr ++ goOn p u u')) ++ hi)) none lo.length s4.out ((u.toList ++ (flat P ++ d.toList)).map (cl p) ++ X) := by
        rw [q2, q3]
        refine WebS.gap (w6.permX ?_)
        rw [List.perm_iff_count]; intro x
        simp only [List.map_append, List.count_append]
        omega
      refine ⟨s4, N', none, ?_, ⟨m4.els, m4.at_, k4, w7.web.permA (en_mid hNp), Or.inl ⟨rfl, ?_⟩⟩, _, hNp, hkey, w7⟩
      · rw [e1]
        simp only [Option.bind_eq_bind, Option.bind_some, e2, e3, e4]
        rw [holeEnd_skip (fun z hz => by rw [z1 z hz])]
        simp only [Option.bind_some]
        rw [holeBegin_skip z2]
        dsimp only
        rw [lastTail_skip z1]
      · rcases m4.ret with ⟨h1, h2, h3⟩ | h
        · exact Or.inl ⟨h1, h2⟩
        · exact Or.inr h

/-- A closed hole comes to a point where another hole begins. -/
theorem processPoint_float_ord {f : V × Nat} {inc : List (Pt × Int)} {H : Heap} {out : List Poly} {els : List (V × Nat)}
    (hf : f.1.2 = 0) (hv : isVertical f.1.1 = true) (hi' : Colors (fun a : Pt × Int => a.2) 1 inc.reverse 1) (hne : inc ≠ [])
    (hl : ∀ a ∈ inc, lessPoint a.1 p = false) (hol : OL p.1 inc) (hz : ∀ a ∈ inc, ω (dir p a.1 a.2) = 0) (hlo : (lo.length : Int) % 2 = 1)
    (w : WebS ω H (lo ++ hi) (some f.2) lo.length out X) :
    ∃ s N', processPoint p [f] inc H out els = some s ∧ After p [] inc els ((lo ++ hi).map en) X 1 s N' none ∧
      ∃ N, N.Perm N' ∧ N.map key = inc ∧ WebS ω s.H (lo ++ (N ++ hi)) none lo.length s.out X := by
  unfold processPoint
  dsimp only
  rw [inc_slots hl]
  have hm0 : ∀ H out, Mt p els [] ⟨H, out, els, none, ((0, 0), 0)⟩ := fun H out => ⟨by simp, by simp, Or.inl ⟨by simp, rfl, rfl⟩⟩
  rcases inc_shape hi' with ⟨_, _, h⟩ | ⟨u', d', Q, rfl, hQ, hu', hd', ht', hb'⟩
  · exact absurd h hne
  obtain ⟨s2, M, Pr, e2, m2, w2, k1, k2, k3⟩ := openAll_ord (s := ⟨H, out, els, none, ((0, 0), 0)⟩) hu' hd' hQ hol (hm0 H out)
    (fun a ha => hz a (by simp [ha])) (Or.inr le_rfl) w
  obtain ⟨a, rfl⟩ : ∃ a, u' = some a := by cases u' with
    | none => simp at ht'
    | some a => exact ⟨a, rfl⟩
  obtain ⟨c, rfl⟩ : ∃ a, d' = some a := by cases d' with
    | none => simp at hb'
    | some a => exact ⟨a, rfl⟩
  have ha := hu' a rfl
  have hcc := hd' c rfl
  obtain ⟨H', e3, w3⟩ := holeBegin_ord ha hcc w2 k3 hlo (hz a (by simp)) (hz c (by simp))
  generalize s2.H.ft = t1 at *
  generalize t1 + 1 = t2 at *
  obtain ⟨m3, g1, g2⟩ := (m2.heap H' s2.out).put (last := true) (o := a.1) (σ := 1) (r := -1) (t := t1) (by simp) rfl
  have hcv : c.1.1 ≠ p.1 := OL.head (A := [c]) (B := flat Q ++ [a]) hol (by simp) c (by simp)
  have m4 := m3.put' (o := c.1) (σ := -1) (t := t2) hcv
  generalize hs3 : PS.put { s2 with H := H' } p true a.1 1 (-1) t1 = s3 at m3 m4 g1 g2
  generalize hs4 : ({ s3 with els := s3.els ++ [(((p, c.1), -1), t2)] } : PS) = s4 at m4
  have hb6 : holeBegin p true [(0, some f.2)] ([islot c] ++ ((flat Q).map zslot ++ [islot a])) s2 = ([(0, none)], false, s4) := by
    unfold holeBegin
    have n1 : nz ([islot c] ++ ((flat Q).map zslot ++ [islot a])) = some ([], islot c, (flat Q).map zslot ++ [islot a]) :=
      nz_some (Z := []) (a := islot c) (by show c.2 ≠ 0; omega) _ (by simp)
    have n2 : nz ((flat Q).map zslot ++ [islot a]) = some ((flat Q).map zslot, islot a, []) :=
      nz_some (a := islot a) (by show a.2 ≠ 0; omega) _ (by intro z hz; obtain ⟨x, _, rfl⟩ := List.mem_map.1 hz; rfl)
    rw [n1]
    dsimp only
    rw [n2]
    have hh : (if true = true then ([(0, some f.2)] : List CSlot).getLast?.bind Prod.snd else none) = some f.2 := rfl
    dsimp only
    rw [hh, e3]
    simp only [List.isEmpty_nil, ha, hcc, hs3, hs4]
    simp
  have hH4 : s4.H = H' ∧ s4.out = s2.out := by rw [← hs4]; exact ⟨g1, g2⟩
  have hNp : ((((p, c.1), -1), t2) :: (flat Pr ++ [(((p, a.1), 1), t1)])).Perm (M ++ [(((p, a.1), 1), t1)] ++ [(((p, c.1), -1), t2)]) :=
    ((k1.append_right _).cons _).trans (List.perm_append_singleton _ _).symm
  have e5 : key (((p, a.1), 1), t1) = a := by rw [← ha]
  have e6 : key (((p, c.1), -1), t2) = c := by rw [← hcc]
  have hkey : ((((p, c.1), -1), t2) :: (flat Pr ++ [(((p, a.1), 1), t1)])).map key = (some c).toList ++ (flat Q ++ (some a).toList) := by
    rw [List.map_cons, List.map_append, k2, List.map_cons, e5, e6]; rfl
  have w4 : WebS ω s4.H (lo ++ (((((p, c.1), -1), t2) :: (flat Pr ++ [(((p, a.1), 1), t1)])) ++ hi)) none lo.length s4.out X := by rw [hH4.1, hH4.2]; exact w3
  refine ⟨s4, M ++ [(((p, a.1), 1), t1)] ++ [(((p, c.1), -1), t2)], ?_, ⟨m4.els, m4.at_, ?_, ?_, Or.inl ⟨rfl, ?_⟩⟩, _, hNp, hkey, w4⟩
  · have e1 : closeSolid p (([(0, some f.2)] : List CSlot).length - 1) [(0, some f.2)] ⟨H, out, els, none, ((0, 0), 0)⟩ =
        some ([(0, some f.2)], ⟨H, out, els, none, ((0, 0), 0)⟩) := rfl
    have z0 : nz ([(0, some f.2)] : List CSlot) = none := nz_none (by simp)
    simp only [Option.toList_some, List.map_cons, List.map_nil] at e2
    simp only [List.map_cons, List.map_nil, hf, e1, Option.bind_eq_bind, Option.bind_some, Option.toList_some, e2, List.getLast?_singleton, hv]
    rw [passTop_skip (cs := [(0, some f.2)]) (by rw [z0]; simp)]
    simp only [Option.bind_some]
    rw [passBottom_skip (cs := [(0, some f.2)]) (by rw [List.reverse_singleton, z0]; simp)]
    simp only [Option.bind_some]
    rw [holeEnd_skip (cs := [(0, some f.2)]) (by simp)]
    simp only [Option.bind_some]
    rw [hb6]
    dsimp only
    rw [lastTail_skip (cs := [(0, none)]) (by simp)]
  · exact ((hNp.map key).symm.trans (List.Perm.of_eq hkey))
  · exact w4.web.permA (en_mid hNp)
  · rcases m4.ret with ⟨h1, h2, h3⟩ | h
    · exact Or.inl ⟨h1, h2⟩
    · exact Or.inr h

end Verif.ArbForm
