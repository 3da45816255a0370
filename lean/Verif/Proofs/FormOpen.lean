import Verif.Proofs.FormPoint
/-!
# One point: new edges, and all cases together
-/
namespace Verif.ArbForm
open Verif.Arb Verif.Contains Verif.Spec.Arb

/-- Only the last edge may be vertical. -/
def OL (x : Int) : List (Pt × Int) → Prop
  | [] => True
  | a :: r => (r = [] ∨ a.1.1 ≠ x) ∧ OL x r

theorem OL.tail {x : Int} : ∀ {A B : List (Pt × Int)}, OL x (A ++ B) → OL x B
  | [], _, h => h
  | _ :: A, B, h => OL.tail (A := A) h.2

theorem OL.head {x : Int} : ∀ {A B : List (Pt × Int)}, OL x (A ++ B) → B ≠ [] → ∀ a ∈ A, a.1.1 ≠ x
  | [], _, _, _, a, ha => by simp at ha
  | c :: A, B, h, hB, a, ha => by
    rcases List.mem_cons.1 ha with rfl | ha
    · exact h.1.resolve_left (by simp [hB])
    · exact OL.head (A := A) h.2 hB a ha

/-- The slot of a new edge. -/
abbrev islot (a : Pt × Int) : ISlot := (a.2, a.1)
/-- The slot when the edge has its tail. -/
abbrev zslot (a : Pt × Int) : ISlot := (0, a.1)
/-- Other end and sign of a new element. -/
abbrev key (a : V × Nat) : Pt × Int := (a.1.1.2, a.1.2)

/-- What `elements`, `returnValue` and `returnCount` say of the new edges. -/
structure Mt (p : Pt) (els : List (V × Nat)) (N : List (V × Nat)) (s : PS) : Prop where
  els : s.els = els ++ N.filter (fun a => decide (a.1.1.2.1 ≠ p.1))
  at_ : ∀ a ∈ N, a.1.1.1 = p
  ret : ((∀ a ∈ N, a.1.1.2.1 ≠ p.1) ∧ s.ret = none ∧ s.rc = ((0, 0), 0)) ∨ ∃ a ∈ N, a.1.1.2.1 = p.1 ∧ s.ret = some a.2 ∧ s.rc = (p, -a.1.2)

theorem Mt.put {p : Pt} {els N : List (V × Nat)} {s : PS} (h : Mt p els N s) {last : Bool} {o : Pt} {σ r : Int} {t : Nat} (hl : last = false → o.1 ≠ p.1) (hr : r = -σ) :
    Mt p els (N ++ [(((p, o), σ), t)]) (s.put p last o σ r t) ∧ (s.put p last o σ r t).H = s.H ∧ (s.put p last o σ r t).out = s.out := by
  unfold PS.put
  by_cases ho : o.1 = p.1
  · have hlast : last = true := by cases last; exact absurd ho (hl rfl); rfl
    rw [hlast, if_pos (by simpa using ho)]
    refine ⟨⟨?_, ?_, Or.inr ⟨(((p, o), σ), t), by simp, ho, rfl, by rw [hr]⟩⟩, rfl, rfl⟩
    · rw [List.filter_append]; simp [ho, h.els]
    · intro a ha
      rcases List.mem_append.1 ha with ha | ha
      · exact h.at_ a ha
      · rw [List.mem_singleton] at ha; rw [ha]
  · rw [if_neg (by simp [ho])]
    refine ⟨⟨?_, ?_, ?_⟩, rfl, rfl⟩
    · rw [List.filter_append]; simp [ho, h.els]
    · intro a ha
      rcases List.mem_append.1 ha with ha | ha
      · exact h.at_ a ha
      · rw [List.mem_singleton] at ha; rw [ha]
    · rcases h.ret with ⟨h1, h2, h3⟩ | ⟨a, h1, h2, h3, h4⟩
      · refine Or.inl ⟨?_, h2, h3⟩
        intro a ha
        rcases List.mem_append.1 ha with ha | ha
        · exact h1 a ha
        · rw [List.mem_singleton] at ha; rw [ha]; exact ho
      · exact Or.inr ⟨a, List.mem_append_left _ h1, h2, h3, h4⟩

theorem Mt.put' {p : Pt} {els N : List (V × Nat)} {s : PS} (h : Mt p els N s) {o : Pt} {σ : Int} {t : Nat} (ho : o.1 ≠ p.1) :
    Mt p els (N ++ [(((p, o), σ), t)]) { s with els := s.els ++ [(((p, o), σ), t)] } := by
  have := (h.put (last := false) (o := o) (σ := σ) (t := t) (fun _ => ho) rfl).1
  unfold PS.put at this
  rw [if_neg (by simp)] at this
  exact this

theorem Mt.heap {p : Pt} {els N : List (V × Nat)} {s : PS} (h : Mt p els N s) (H : Heap) (out : List Poly) : Mt p els N { s with H := H, out := out } :=
  ⟨h.els, h.at_, h.ret⟩

theorem openSolid_spec (p : Pt) (F : Option Nat) (R : Option (Pt × Int)) (hR : ∀ a, R = some a → a.2 = 1) : ∀ (Q : List ((Pt × Int) × (Pt × Int))) (n : Nat) (s : PS) (els N : List (V × Nat))
    (A : List End) (X : List Edge),
    2 * Q.length + R.toList.length ≤ n + 1 → (∀ x ∈ Q, x.1.2 = 1 ∧ x.2.2 = -1) → OL p.1 (flat Q ++ R.toList) →
    Mt p els N s → Web s.H (N.map en ++ A) F s.out X →
    ∃ s' M, openSolid p n ((flat Q ++ R.toList).map islot) s = ((flat Q).map zslot ++ R.toList.map islot, s') ∧
      Mt p els (N ++ M) s' ∧ Web s'.H ((N ++ M).map en ++ A) F s'.out X ∧ (M.map key).Perm (flat Q)
  | [], n, s, els, N, A, X, _, _, _, hm, w => by
    refine ⟨s, [], ?_, by simpa using hm, by simpa using w, by simp [flat]⟩
    cases R with
    | none => cases n <;> simp [openSolid, flat]
    | some r =>
      have := hR r rfl
      cases n with
      | zero => simp [openSolid, flat]
      | succ n => cases n <;> simp [openSolid, flat, this, nz]
  | (a, b) :: Q, n, s, els, N, A, X, hn, hQ, hol, hm, w => by
    obtain ⟨a1, b1⟩ := hQ (a, b) List.mem_cons_self
    dsimp only at a1 b1
    simp only [List.length_cons] at hn
    obtain ⟨m, rfl⟩ : ∃ m, n = m + 1 := ⟨n - 1, by omega⟩
    rw [flat_cons] at hol
    simp only [List.cons_append] at hol
    obtain ⟨ho1, ho2, ho3⟩ := hol
    have ho1 := ho1.resolve_left (by simp)
    obtain ⟨e, w1⟩ := w.create0 p true
    generalize s.H.newPair p true = H' at *
    generalize s.H.ft = t at *
    generalize t + 1 = u at *
    simp only [if_true] at w1
    obtain ⟨m1, h1, h2⟩ := (hm.heap H' s.out).put (last := ((flat Q ++ R.toList).map islot).isEmpty) (o := b.1) (σ := -1) (r := 1) (t := t) (by
      intro hc
      refine ho2.resolve_left ?_
      intro h0; rw [h0] at hc; simp at hc) (by omega)
    have m2 := m1.put' (o := a.1) (σ := 1) (t := u) ho1
    generalize hs2 : PS.put { s with H := H' } p ((flat Q ++ R.toList).map islot).isEmpty b.1 (-1) 1 t = s1 at m1 m2 h1 h2
    generalize hs3 : ({ s1 with els := s1.els ++ [(((p, a.1), 1), u)] } : PS) = s2 at m2
    have w2 : Web s2.H ((N ++ [(((p, b.1), -1), t)] ++ [(((p, a.1), 1), u)]).map en ++ A) F s2.out X := by
      rw [← hs3]
      dsimp only
      rw [h1, h2]
      refine w1.permA ?_
      simp only [List.map_append, List.map_cons, List.map_nil]
      rw [List.perm_iff_count]
      intro x
      simp only [List.count_append, List.count_cons, List.count_nil, en]
      omega
    obtain ⟨k, hk1, hk2⟩ : ∃ k, 2 * Q.length + R.toList.length ≤ k + 1 ∧ (m = k + 1 ∨ (m = 0 ∧ Q = [] ∧ R = none)) := by
      cases m with
      | zero =>
        refine ⟨0, by omega, Or.inr ⟨rfl, ?_, ?_⟩⟩
        · exact List.length_eq_zero_iff.1 (by omega)
        · have : R.toList.length = 0 := by omega
          cases R with
          | none => rfl
          | some r => simp at this
      | succ k => exact ⟨k, by omega, Or.inl rfl⟩
    obtain ⟨s', M, e2, m3, w3, hp⟩ := openSolid_spec p F R hR Q k s2 els _ A X hk1 (fun x hx => hQ x (List.mem_cons_of_mem _ hx)) ho3 m2 w2
    have hkey : openSolid p m ((0, b.1) :: (flat Q ++ R.toList).map islot) s2 = ((0, b.1) :: ((flat Q).map zslot ++ R.toList.map islot), s') := by
      rcases hk2 with rfl | ⟨rfl, rfl, rfl⟩
      · rw [openSolid, if_neg (by simp), e2]
      · rw [openSolid]
        simp only [flat, List.flatMap_nil, Option.toList_none, List.append_nil, List.map_nil] at e2 ⊢
        cases k <;> simp [openSolid] at e2 <;> simp [e2]
    refine ⟨s', (((p, b.1), -1), t) :: (((p, a.1), 1), u) :: M, ?_, ?_, ?_, ?_⟩
    · rw [flat_cons]
      simp only [List.cons_append, List.map_cons]
      rw [openSolid, if_pos (show (islot a).1 = 1 from a1)]
      have : nz (islot b :: (flat Q ++ R.toList).map islot) = some ([], islot b, (flat Q ++ R.toList).map islot) :=
        nz_some (Z := []) (a := islot b) (by show b.2 ≠ 0; omega) _ (by simp)
      rw [this]
      dsimp only
      rw [if_pos b1]
      simp only [e]
      rw [hs2, hs3, List.nil_append, hkey]
    · rw [show N ++ (((p, b.1), -1), t) :: (((p, a.1), 1), u) :: M = N ++ [(((p, b.1), -1), t)] ++ [(((p, a.1), 1), u)] ++ M by simp]; exact m3
    · rw [show N ++ (((p, b.1), -1), t) :: (((p, a.1), 1), u) :: M = N ++ [(((p, b.1), -1), t)] ++ [(((p, a.1), 1), u)] ++ M by simp]; exact w3
    · rw [flat_cons, List.map_cons, List.map_cons]
      have e1 : key (((p, b.1), -1), t) = b := by rw [← b1]
      have e2 : key (((p, a.1), 1), u) = a := by rw [← a1]
      rw [e1, e2]
      exact (List.Perm.swap _ _ _).trans ((hp.cons _).cons _)

theorem openAll {p : Pt} {F : Option Nat} {u d : Option (Pt × Int)} {Q : List ((Pt × Int) × (Pt × Int))} {s : PS} {els : List (V × Nat)} {A : List End} {X : List Edge}
    (hu : ∀ a, u = some a → a.2 = 1) (hd : ∀ a, d = some a → a.2 = -1)
    (hQ : ∀ x ∈ Q, x.1.2 = 1 ∧ x.2.2 = -1) (hol : OL p.1 (d.toList ++ (flat Q ++ u.toList))) (hm : Mt p els [] s) (w : Web s.H A F s.out X) :
    ∃ s' M, openSolid p (((d.toList ++ (flat Q ++ u.toList)).map islot).length - 1) ((d.toList ++ (flat Q ++ u.toList)).map islot) s =
        (d.toList.map islot ++ ((flat Q).map zslot ++ u.toList.map islot), s') ∧
      Mt p els M s' ∧ Web s'.H (M.map en ++ A) F s'.out X ∧ (M.map key).Perm (flat Q) := by
  have hl : ∀ P : List ((Pt × Int) × (Pt × Int)), (flat P).length = 2 * P.length := by
    intro P
    induction P with
    | nil => rfl
    | cons x P ih => rw [flat_cons]; simp [ih]; omega
  cases d with
  | none =>
    simp only [Option.toList_none, List.nil_append, List.map_nil] at hol ⊢
    exact openSolid_spec p F u hu Q _ s els [] A X (by rw [List.length_map, List.length_append, hl]; omega) hQ hol hm w
  | some a =>
    have ha := hd a rfl
    simp only [Option.toList_some, List.singleton_append, List.map_cons, List.length_cons, Nat.add_sub_cancel, List.map_nil] at hol ⊢
    cases hn : ((flat Q ++ u.toList).map islot).length with
    | zero =>
      rw [List.length_map, List.length_append, hl] at hn
      have hQ0 : Q = [] := List.length_eq_zero_iff.1 (by omega)
      have hu0 : u = none := by
        cases u with
        | none => rfl
        | some x => simp at hn
      subst hQ0 hu0
      refine ⟨s, [], ?_, hm, by simpa using w, by simp [flat]⟩
      rw [openSolid]; simp [flat]
    | succ n =>
      obtain ⟨s', M, e, m', w', hp⟩ := openSolid_spec p F u hu Q n s els [] A X (by rw [List.length_map, List.length_append, hl] at hn; omega) hQ hol.2 hm w
      refine ⟨s', M, ?_, m', w', hp⟩
      rw [openSolid, if_neg (show (islot a).1 ≠ 1 by show a.2 ≠ 1; omega), e]

/-! ### The other cases -/

theorem passTop_skip {p : Pt} {cs : List CSlot} {inc : List ISlot} {s : PS} (h : ∀ m, nz cs = some m → m.2.1.1 ≠ 1) :
    passTop p cs inc s = some (cs, inc, s) := by
  unfold passTop
  cases h1 : nz cs with
  | none => rfl
  | some m =>
    obtain ⟨l1, a, l2⟩ := m
    cases h2 : nz inc.reverse with
    | none => rfl
    | some m' =>
      obtain ⟨r1, b, r2⟩ := m'
      dsimp only
      rw [if_neg]
      rintro ⟨h3, _⟩
      exact h _ h1 h3

theorem passTop_skip' {p : Pt} {cs : List CSlot} {s : PS} : passTop p cs [] s = some (cs, [], s) := by
  unfold passTop
  cases h1 : nz cs with
  | none => rfl
  | some m => rfl

theorem passBottom_skip {p : Pt} {cs : List CSlot} {inc : List ISlot} {s : PS} (h : ∀ m, nz cs.reverse = some m → m.2.1.1 ≠ -1) :
    passBottom p cs inc s = some (cs, inc, s) := by
  unfold passBottom
  cases h1 : nz cs.reverse with
  | none => rfl
  | some m =>
    obtain ⟨l1, a, l2⟩ := m
    cases h2 : nz inc with
    | none => rfl
    | some m' =>
      obtain ⟨r1, b, r2⟩ := m'
      dsimp only
      rw [if_neg]
      rintro ⟨h3, _⟩
      exact h _ h1 h3

theorem passBottom_skip' {p : Pt} {cs : List CSlot} {s : PS} : passBottom p cs [] s = some (cs, [], s) := by
  unfold passBottom
  cases h1 : nz cs.reverse with
  | none => rfl
  | some m => rfl

theorem passTop_go {p : Pt} {a : V × Nat} {b : Pt × Int} (ha : a.1.2 = 1) (hb : b.2 = 1) (Z : List CSlot) (I : List ISlot) (s : PS) :
    passTop p (cslot a :: Z) (I ++ [islot b]) s =
      some ((0, none) :: Z, I ++ [(0, b.1)], PS.put { s with H := s.H.push a.2 p } p true b.1 1 (-1) a.2) := by
  unfold passTop
  have h1 : nz (cslot a :: Z) = some ([], cslot a, Z) := nz_some (Z := []) (a := cslot a) (by show a.1.2 ≠ 0; omega) _ (by simp)
  have h2 : nz (I ++ [islot b]).reverse = some ([], islot b, I.reverse) := by
    rw [List.reverse_append]
    exact nz_some (Z := []) (a := islot b) (by show b.2 ≠ 0; omega) _ (by simp)
  rw [h1, h2]
  dsimp only
  rw [if_pos ⟨ha, hb⟩]
  simp [hb]

theorem passBottom_go {p : Pt} {a : V × Nat} {b : Pt × Int} (ha : a.1.2 = -1) (hb : b.2 = -1) (Z : List CSlot) (I : List ISlot) (s : PS) :
    passBottom p (Z ++ [cslot a]) (islot b :: I) s =
      some (Z ++ [(0, none)], (0, b.1) :: I, PS.put { s with H := s.H.push a.2 p } p I.isEmpty b.1 (-1) 1 a.2) := by
  unfold passBottom
  have h1 : nz (islot b :: I) = some ([], islot b, I) := nz_some (Z := []) (a := islot b) (by show b.2 ≠ 0; omega) _ (by simp)
  have h2 : nz (Z ++ [cslot a]).reverse = some ([], cslot a, Z.reverse) := by
    rw [List.reverse_append]
    exact nz_some (Z := []) (a := cslot a) (by show a.1.2 ≠ 0; omega) _ (by simp)
  rw [h1, h2]
  dsimp only
  rw [if_pos ⟨ha, hb⟩]
  simp [hb]

theorem holeEnd_skip {p : Pt} {cs : List CSlot} {s : PS} (h : ∀ z ∈ cs, z.1 = 0) : holeEnd p cs s = some (cs, s) := by
  unfold holeEnd; rw [nz_none h]

theorem holeBegin_skip {p : Pt} {vb : Bool} {cs : List CSlot} {inc : List ISlot} {s : PS} (h : ∀ z ∈ inc, z.1 = 0) : holeBegin p vb cs inc s = (cs, vb, s) := by
  unfold holeBegin; rw [nz_none h]

theorem lastTail_skip {p : Pt} {vb : Bool} {cs : List CSlot} {s : PS} (h : ∀ z ∈ cs, z = (0, none)) : lastTail p vb cs s = s := by
  unfold lastTail
  cases vb with
  | false => rfl
  | true =>
    rw [if_pos rfl]
    cases hl : cs.getLast? with
    | none => rfl
    | some z =>
      rw [h z (List.mem_of_getLast? hl)]

/-- What is known when a point has been processed. -/
structure After (p : Pt) (from_ : List (V × Nat)) (inc : List (Pt × Int)) (els : List (V × Nat)) (A : List End) (X : List Edge) (t : Int) (s : PS) (N : List (V × Nat))
    (F : Option Nat) : Prop where
  els : s.els = els ++ N.filter (fun a => decide (a.1.1.2.1 ≠ p.1))
  at_ : ∀ a ∈ N, a.1.1.1 = p
  keys : (N.map key).Perm inc
  web : Web s.H (N.map en ++ A) F s.out (from_.map (cl p) ++ X)
  ret : (F = none ∧ (((∀ a ∈ N, a.1.1.2.1 ≠ p.1) ∧ s.ret = none) ∨ ∃ a ∈ N, a.1.1.2.1 = p.1 ∧ s.ret = some a.2 ∧ s.rc = (p, -a.1.2))) ∨
    ∃ h, F = some h ∧ inc = [] ∧ t = 1 ∧ s.ret = some h ∧ s.rc = (p, 0)

theorem flat_reverse {α : Type} : ∀ P : List (α × α), (flat P).reverse = flat (P.reverse.map Prod.swap)
  | [] => rfl
  | x :: P => by
    rw [flat_cons, List.reverse_cons, List.reverse_cons, flat_reverse P, List.reverse_cons, List.map_append]
    unfold flat
    simp [List.flatMap_append]

theorem inc_shape {inc : List (Pt × Int)} {t b : Int} (h : Colors (fun a : Pt × Int => a.2) t inc.reverse b) :
    (t = 1 ∧ b = 1 ∧ inc = []) ∨ ∃ (u d : Option (Pt × Int)) (Q : List ((Pt × Int) × (Pt × Int))), inc = d.toList ++ (flat Q ++ u.toList) ∧
      (∀ x ∈ Q, x.1.2 = 1 ∧ x.2.2 = -1) ∧ (∀ a, u = some a → a.2 = 1) ∧ (∀ a, d = some a → a.2 = -1) ∧
      (t = if u.isSome then 1 else 0) ∧ (b = if d.isSome then 1 else 0) := by
  rcases colors_shape h with ⟨h1, h2, h3⟩ | ⟨u, d, P, h1, h2, h3, h4, h5, h6⟩
  · exact Or.inl ⟨h1, h2, List.reverse_eq_nil_iff.1 h3⟩
  · refine Or.inr ⟨u, d, P.reverse.map Prod.swap, ?_, ?_, h3, h4, h5, h6⟩
    · rw [← flat_reverse, ← List.reverse_reverse inc, h1, List.reverse_append, List.reverse_append]
      have : ∀ o : Option (Pt × Int), o.toList.reverse = o.toList := by intro o; cases o <;> rfl
      rw [this, this, List.append_assoc]
    · intro x hx
      obtain ⟨y, hy, rfl⟩ := List.mem_map.1 hx
      have := h2 y (List.mem_reverse.1 hy)
      exact ⟨this.2, this.1⟩

theorem inc_slots {p : Pt} {inc : List (Pt × Int)} (h : ∀ a ∈ inc, lessPoint a.1 p = false) :
    inc.map (fun a => ((if lessPoint a.1 p then 0 else a.2, a.1) : ISlot)) = inc.map islot := by
  apply List.map_congr_left
  intro a ha
  rw [h a ha]; rfl

/-- An end that goes on along a new edge. -/
def goOn (p : Pt) : Option (V × Nat) → Option (Pt × Int) → List (V × Nat)
  | some a, some b => [(((p, b.1), a.1.2), a.2)]
  | _, _ => []

/-- The point is added to a line. -/
def pushO (H : Heap) (p : Pt) : Option (V × Nat) → Heap
  | some a => H.push a.2 p
  | none => H

theorem bothPass {p : Pt} {els : List (V × Nat)} {A : List End} {X : List Edge} {u d : Option (V × Nat)} {u' d' : Option (Pt × Int)}
    {k : Nat} {Q : List ((Pt × Int) × (Pt × Int))} {s : PS} {M : List (V × Nat)}
    (hu : ∀ a, u = some a → a.1.2 = 1 ∧ a.1.1.1 ≠ p) (hd : ∀ a, d = some a → a.1.2 = -1 ∧ a.1.1.1 ≠ p)
    (hu' : ∀ a, u' = some a → a.2 = 1) (hd' : ∀ a, d' = some a → a.2 = -1) (huu : u.isSome = u'.isSome) (hdd : d.isSome = d'.isSome)
    (hol : OL p.1 (d'.toList ++ (flat Q ++ u'.toList))) (hm : Mt p els M s)
    (w : Web s.H (M.map en ++ (u.toList.map en ++ (d.toList.map en ++ A))) none s.out X) (hk : (M.map key).Perm (flat Q)) :
    ∃ s1 s2 N, ∃ cs1 cs2 : List CSlot, ∃ is1 is2 : List ISlot,
      passTop p (u.toList.map cslot ++ (zs k ++ d.toList.map cslot)) (d'.toList.map islot ++ ((flat Q).map zslot ++ u'.toList.map islot)) s = some (cs1, is1, s1) ∧
      passBottom p cs1 is1 s1 = some (cs2, is2, s2) ∧ (∀ z ∈ cs2, z = (0, none)) ∧ (∀ z ∈ is2, z.1 = 0) ∧
      Mt p els N s2 ∧ Web s2.H (N.map en ++ A) none s2.out (u.toList.map (cl p) ++ (d.toList.map (cl p) ++ X)) ∧
      (N.map key).Perm (d'.toList ++ (flat Q ++ u'.toList)) ∧ N = M ++ (goOn p u u' ++ goOn p d d') ∧ s2.H = pushO (pushO s.H p u) p d ∧ s2.out = s.out := by
  have hzs : ∀ z ∈ zs k, z = (0, none) := fun z hz => List.eq_of_mem_replicate hz
  -- the upper one
  obtain ⟨s1, N1, cs0, is0, e1, c1, i1, i2, m1, w1, k1, q1, q2, q3⟩ : ∃ s1 N1, ∃ cs0 : List CSlot, ∃ is0 : List ISlot,
      passTop p (u.toList.map cslot ++ (zs k ++ d.toList.map cslot)) (d'.toList.map islot ++ ((flat Q).map zslot ++ u'.toList.map islot)) s =
        some (cs0 ++ d.toList.map cslot, d'.toList.map islot ++ is0, s1) ∧ (∀ z ∈ cs0, z = (0, none)) ∧
      (∀ z ∈ is0, z.1 = 0) ∧ is0.length = (flat Q ++ u'.toList).length ∧ Mt p els N1 s1 ∧
      Web s1.H (N1.map en ++ (d.toList.map en ++ A)) none s1.out (u.toList.map (cl p) ++ X) ∧ (N1.map key).Perm (flat Q ++ u'.toList) ∧
      N1 = M ++ goOn p u u' ∧ s1.H = pushO s.H p u ∧ s1.out = s.out := by
    cases u with
    | none =>
      have h' : u' = none := by cases u' with
        | none => rfl
        | some a => simp at huu
      subst h'
      refine ⟨s, M, zs k, (flat Q).map zslot, ?_, hzs, ?_, by simp, hm, by simpa using w, by simpa using hk, by simp [goOn], rfl, rfl⟩
      · rw [passTop_skip]
        · simp
        · intro m hm'
          cases d with
          | none =>
            simp only [Option.toList_none, List.map_nil, List.append_nil, List.nil_append] at hm'
            rw [nz_none (zs_zero k)] at hm'; simp at hm'
          | some a =>
            simp only [Option.toList_none, Option.toList_some, List.map_nil, List.nil_append, List.map_cons] at hm'
            have ha := (hd a rfl).1
            rw [nz_some (a := cslot a) (by show a.1.2 ≠ 0; omega) [] (zs_zero k)] at hm'
            rw [← Option.some_inj.1 hm']
            show a.1.2 ≠ 1
            omega
      · intro z hz; obtain ⟨a, _, rfl⟩ := List.mem_map.1 hz; rfl
    | some a =>
      obtain ⟨b, rfl⟩ : ∃ b, u' = some b := by cases u' with
        | none => simp at huu
        | some b => exact ⟨b, rfl⟩
      obtain ⟨ha, hap⟩ := hu a rfl
      have hb := hu' b rfl
      have w' : Web s.H ((a.2, a.1.2, a.1.1.1) :: (M.map en ++ (d.toList.map en ++ A))) none s.out X := by
        refine w.permA ?_
        simp only [Option.toList_some, List.map_cons, List.map_nil, List.singleton_append]
        exact List.perm_middle
      have w2 := w'.push hap
      obtain ⟨m2, h1, h2⟩ := (hm.heap (s.H.push a.2 p) s.out).put (last := true) (o := b.1) (σ := 1) (r := -1) (t := a.2) (by simp) rfl
      refine ⟨_, M ++ [(((p, b.1), 1), a.2)], (0, none) :: zs k, (flat Q).map zslot ++ [(0, b.1)], ?_, ?_, ?_, by simp, m2, ?_, ?_, by simp [goOn, ha], h1, h2⟩
      · have := passTop_go (p := p) ha hb (zs k ++ d.toList.map cslot) (d'.toList.map islot ++ (flat Q).map zslot) s
        simp only [Option.toList_some, List.map_cons, List.map_nil, List.singleton_append, List.append_assoc, List.cons_append] at this ⊢
        exact this
      · intro z hz
        rcases List.mem_cons.1 hz with rfl | hz
        · rfl
        · exact hzs z hz
      · intro z hz
        rcases List.mem_append.1 hz with hz | hz
        · obtain ⟨a, _, rfl⟩ := List.mem_map.1 hz; rfl
        · rw [List.mem_singleton] at hz; rw [hz]
      · rw [h1, h2]
        have : (s.H.push a.2 p) = ({ s with H := s.H.push a.2 p, out := s.out } : PS).H := rfl
        refine (w2.permA ?_)
        rw [ha, List.map_append, List.map_cons, List.map_nil, List.append_assoc, List.singleton_append]
        exact List.perm_middle.symm
      · rw [List.map_append]
        refine hk.append ?_
        have : key (((p, b.1), 1), a.2) = b := by rw [← hb]
        rw [List.map_cons, this]; rfl
  refine ⟨s1, ?_⟩
  cases d with
  | none =>
    have h' : d' = none := by cases d' with
      | none => rfl
      | some a => simp at hdd
    subst h'
    refine ⟨s1, N1, cs0 ++ (none : Option (V × Nat)).toList.map cslot, cs0 ++ (none : Option (V × Nat)).toList.map cslot,
      (none : Option (Pt × Int)).toList.map islot ++ is0, (none : Option (Pt × Int)).toList.map islot ++ is0, e1, ?_, by simpa using c1, by simpa using i1, m1,
      by simpa using w1, by simpa using k1, by rw [q1]; simp [goOn], q2, q3⟩
    rw [passBottom_skip]
    intro m hm'
    rw [nz_none] at hm'
    · simp at hm'
    · intro z hz
      rw [List.mem_reverse] at hz
      simp only [Option.toList_none, List.map_nil, List.append_nil] at hz
      rw [c1 z hz]
  | some a =>
    obtain ⟨b, rfl⟩ : ∃ b, d' = some b := by cases d' with
      | none => simp at hdd
      | some b => exact ⟨b, rfl⟩
    obtain ⟨ha, hap⟩ := hd a rfl
    have hb := hd' b rfl
    have w' : Web s1.H ((a.2, a.1.2, a.1.1.1) :: (N1.map en ++ A)) none s1.out (u.toList.map (cl p) ++ X) := by
      refine w1.permA ?_
      simp only [Option.toList_some, List.map_cons, List.map_nil, List.singleton_append]
      exact List.perm_middle
    have w2 := w'.push hap
    obtain ⟨m2, h1, h2⟩ := (m1.heap (s1.H.push a.2 p) s1.out).put (last := is0.isEmpty) (o := b.1) (σ := -1) (r := 1) (t := a.2) (by
      intro hc
      refine hol.1.resolve_left ?_
      intro h0
      have h1 : flat Q ++ u'.toList = [] := h0
      rw [h1] at i2
      rw [List.length_eq_zero_iff.1 i2] at hc
      simp at hc) rfl
    refine ⟨_, N1 ++ [(((p, b.1), -1), a.2)], _, cs0 ++ [(0, none)], _, (0, b.1) :: is0, e1, ?_, ?_, ?_, m2, ?_, ?_, by rw [q1]; simp [goOn, ha], by rw [h1]; show s1.H.push a.2 p = (pushO s.H p u).push a.2 p; rw [q2], by rw [h2]; exact q3⟩
    · exact passBottom_go (p := p) ha hb cs0 is0 s1
    · intro z hz
      rcases List.mem_append.1 hz with hz | hz
      · exact c1 z hz
      · exact List.mem_singleton.1 hz
    · intro z hz
      rcases List.mem_cons.1 hz with rfl | hz
      · rfl
      · exact i1 z hz
    · rw [h1, h2]
      refine (w2.permA ?_).permX ?_
      · rw [ha, List.map_append, List.map_cons, List.map_nil, List.append_assoc, List.singleton_append]
        exact List.perm_middle.symm
      · simp only [Option.toList_some, List.map_cons, List.map_nil, List.singleton_append]
        exact List.perm_middle.symm
    · rw [List.map_append]
      have : key (((p, b.1), -1), a.2) = b := by rw [← hb]
      rw [List.map_cons, this]
      exact (k1.append_right _).trans List.perm_append_comm

theorem processPoint_spec {p : Pt} {from_ : List (V × Nat)} {inc : List (Pt × Int)} {H : Heap} {out : List Poly} {els : List (V × Nat)} {A : List End} {X : List Edge}
    {t b : Int} (hc : Colors (fun a : V × Nat => a.1.2) t from_ b) (hi : Colors (fun a : Pt × Int => a.2) t inc.reverse b)
    (hf : ∀ a ∈ from_, a.1.1.1 ≠ p) (hl : ∀ a ∈ inc, lessPoint a.1 p = false) (hol : OL p.1 inc) (w : Web H (from_.map en ++ A) none out X) :
    ∃ s N F, processPoint p from_ inc H out els = some s ∧ After p from_ inc els A X t s N F := by
  unfold processPoint
  dsimp only
  rw [inc_slots hl]
  have hm0 : ∀ H out, Mt p els [] ⟨H, out, els, none, ((0, 0), 0)⟩ := fun H out => ⟨by simp, by simp, Or.inl ⟨by simp, rfl, rfl⟩⟩
  rcases colors_shape hc with ⟨ht, hb, rfl⟩ | ⟨u, d, P, rfl, hP, hu, hd, ht, hb⟩
  · -- nothing ends here
    have e1 : closeSolid p (([] : List CSlot).length - 1) [] ⟨H, out, els, none, ((0, 0), 0)⟩ = some ([], ⟨H, out, els, none, ((0, 0), 0)⟩) := rfl
    rcases inc_shape hi with ⟨_, _, rfl⟩ | ⟨u', d', Q, rfl, hQ, hu', hd', ht', hb'⟩
    · refine ⟨⟨H, out, els, none, ((0, 0), 0)⟩, [], none, ?_, ⟨by simp, by simp, by simp, by simpa using w, Or.inl ⟨rfl, Or.inl ⟨by simp, rfl⟩⟩⟩⟩
      simp only [List.map_nil, e1, Option.bind_eq_bind, Option.bind_some]
      have e2 : openSolid p (([] : List ISlot).length - 1) [] ⟨H, out, els, none, ((0, 0), 0)⟩ = ([], ⟨H, out, els, none, ((0, 0), 0)⟩) := rfl
      simp only [e2, passTop_skip', passBottom_skip', Option.bind_some, holeEnd_skip (cs := []) (by simp), holeBegin_skip (inc := []) (by simp),
        lastTail_skip (cs := []) (by simp)]
    · obtain ⟨s2, M, e2, m2, w2, k2⟩ := openAll (s := ⟨H, out, els, none, ((0, 0), 0)⟩) hu' hd' hQ hol (hm0 H out) w
      obtain ⟨a, rfl⟩ : ∃ a, u' = some a := by cases u' with
        | none => rw [ht] at ht'; simp at ht'
        | some a => exact ⟨a, rfl⟩
      obtain ⟨c, rfl⟩ : ∃ a, d' = some a := by cases d' with
        | none => rw [hb] at hb'; simp at hb'
        | some a => exact ⟨a, rfl⟩
      have ha := hu' a rfl
      have hcc := hd' c rfl
      obtain ⟨H', t1, t2, e3, w3⟩ := w2.create p false
      simp only [Bool.false_eq_true, if_false] at w3
      obtain ⟨m3, g1, g2⟩ := (m2.heap H' s2.out).put (last := true) (o := a.1) (σ := 1) (r := -1) (t := t1) (by simp) rfl
      have hcv : c.1.1 ≠ p.1 := OL.head (A := [c]) (B := flat Q ++ [a]) hol (by simp) c (by simp)
      have m4 := m3.put' (o := c.1) (σ := -1) (t := t2) hcv
      generalize hs3 : PS.put { s2 with H := H' } p true a.1 1 (-1) t1 = s3 at m3 m4 g1 g2
      generalize hs4 : ({ s3 with els := s3.els ++ [(((p, c.1), -1), t2)] } : PS) = s4 at m4
      have hb6 : ∀ vb, holeBegin p vb [] ([islot c] ++ ((flat Q).map zslot ++ [islot a])) s2 = ([], false, s4) := by
        intro vb
        unfold holeBegin
        have n1 : nz ([islot c] ++ ((flat Q).map zslot ++ [islot a])) = some ([], islot c, (flat Q).map zslot ++ [islot a]) :=
          nz_some (Z := []) (a := islot c) (by show c.2 ≠ 0; omega) _ (by simp)
        have n2 : nz ((flat Q).map zslot ++ [islot a]) = some ((flat Q).map zslot, islot a, []) :=
          nz_some (a := islot a) (by show a.2 ≠ 0; omega) _ (by intro z hz; obtain ⟨x, _, rfl⟩ := List.mem_map.1 hz; rfl)
        rw [n1]
        dsimp only
        rw [n2]
        have hh : (if vb = true then ([] : List CSlot).getLast?.bind Prod.snd else none) = none := by cases vb <;> rfl
        dsimp only
        rw [hh, e3]
        simp only [List.isEmpty_nil, ha, hcc, hs3, hs4]
        simp
      refine ⟨s4, M ++ [(((p, a.1), 1), t1)] ++ [(((p, c.1), -1), t2)], none, ?_, ⟨m4.els, m4.at_, ?_, ?_, Or.inl ⟨rfl, ?_⟩⟩⟩
      · simp only [Option.toList_some, List.map_cons, List.map_nil] at e2
        simp only [List.map_nil, e1, Option.bind_eq_bind, Option.bind_some, Option.toList_some, e2]
        rw [passTop_skip (cs := []) (by simp [nz])]
        simp only [Option.bind_some]
        rw [passBottom_skip (cs := []) (by simp [nz])]
        simp only [Option.bind_some, holeEnd_skip (cs := []) (by simp)]
        rw [hb6]
        dsimp only
        rw [lastTail_skip (cs := []) (by simp)]
      · have e5 : key (((p, a.1), 1), t1) = a := by rw [← ha]
        have e6 : key (((p, c.1), -1), t2) = c := by rw [← hcc]
        rw [List.map_append, List.map_append, List.map_cons, List.map_cons, e5, e6]
        refine ((k2.append_right _).append_right _).trans ?_
        exact List.perm_append_comm
      · rw [← hs4]
        dsimp only
        rw [g1, g2]
        refine w3.permA ?_
        rw [List.perm_iff_count]; intro x
        simp only [List.map_append, List.map_cons, List.map_nil, List.count_append, List.count_cons, List.count_nil, en]
        omega
      · rcases m4.ret with ⟨h1, h2, h3⟩ | h
        · exact Or.inl ⟨h1, h2⟩
        · exact Or.inr h
  · -- some edges end here
    have hPp : ∀ x ∈ P, x.1.1.2 = -1 ∧ x.2.1.2 = 1 ∧ x.1.1.1.1 ≠ p ∧ x.2.1.1.1 ≠ p := by
      intro x hx
      have h1 : x.1 ∈ flat P := List.mem_flatMap.2 ⟨x, hx, by simp⟩
      have h2 : x.2 ∈ flat P := List.mem_flatMap.2 ⟨x, hx, by simp⟩
      exact ⟨(hP x hx).1, (hP x hx).2, hf _ (by simp [h1]), hf _ (by simp [h2])⟩
    have hu2 : ∀ a, u = some a → a.1.2 = 1 ∧ a.1.1.1 ≠ p := fun a ha => ⟨hu a ha, hf a (by simp [ha])⟩
    have hd2 : ∀ a, d = some a → a.1.2 = -1 ∧ a.1.1.1 ≠ p := fun a ha => ⟨hd a ha, hf a (by simp [ha])⟩
    obtain ⟨H1, out1, e1, w1⟩ := closeAll (s := ⟨H, out, els, none, ((0, 0), 0)⟩) (A := u.toList.map en ++ (d.toList.map en ++ A)) (X := X) hu hd hPp (by
      dsimp only
      refine w.permA ?_
      rw [List.map_append, List.map_append]
      rw [List.perm_iff_count]; intro x
      simp only [List.count_append]
      omega)
    dsimp only at e1
    rcases inc_shape hi with ⟨ht', hb', rfl⟩ | ⟨u', d', Q, rfl, hQ, hu', hd', ht', hb'⟩
    · -- a hole ends
      obtain ⟨a, rfl⟩ : ∃ a, u = some a := by cases u with
        | none => rw [ht'] at ht; simp at ht
        | some a => exact ⟨a, rfl⟩
      obtain ⟨c, rfl⟩ : ∃ a, d = some a := by cases d with
        | none => rw [hb'] at hb; simp at hb
        | some a => exact ⟨a, rfl⟩
      obtain ⟨ha, hap⟩ := hu2 a rfl
      obtain ⟨hcc, hcp⟩ := hd2 c rfl
      simp only [Option.toList_some, List.map_cons, List.map_nil, List.singleton_append, List.cons_append, List.nil_append] at w1
      have w1' : Web H1 ((a.2, 1, a.1.1.1) :: (c.2, -1, c.1.1.1) :: A) none out1 ((flat P).map (cl p) ++ X) := by
        have x1 : en a = (a.2, 1, a.1.1.1) := by unfold en; rw [ha]
        have x2 : en c = (c.2, -1, c.1.1.1) := by unfold en; rw [hcc]
        rw [← x1, ← x2]; exact w1
      obtain ⟨H2, o, r, e2, w2, _⟩ := w1'.joinChains (p := p) (Or.inl rfl) hap hcp false
      have h5 : holeEnd p (cslot a :: (zs (2 * P.length) ++ [cslot c])) ⟨H1, out1, els, none, ((0, 0), 0)⟩ =
          some ((0, none) :: (zs (2 * P.length) ++ [(0, none)]), ⟨H2, out1 ++ o, els, r, if r.isSome then (p, 0) else ((0, 0), 0)⟩) := by
        unfold holeEnd
        have n1 : nz (cslot a :: (zs (2 * P.length) ++ [cslot c])) = some ([], cslot a, zs (2 * P.length) ++ [cslot c]) :=
          nz_some (Z := []) (a := cslot a) (by show a.1.2 ≠ 0; omega) _ (by simp)
        have n2 : nz (zs (2 * P.length) ++ [cslot c]) = some (zs (2 * P.length), cslot c, []) :=
          nz_some (a := cslot c) (by show c.1.2 ≠ 0; omega) _ (zs_zero _)
        rw [n1]
        dsimp only
        rw [n2]
        simp only [Option.bind_eq_bind, Option.bind_some, e2]
        rfl
      refine ⟨⟨H2, out1 ++ o, els, r, if r.isSome then (p, 0) else ((0, 0), 0)⟩, [], r, ?_, ⟨by simp, by simp, by simp, ?_, ?_⟩⟩
      · have e2' : openSolid p (([] : List ISlot).length - 1) [] ⟨H1, out1, els, none, ((0, 0), 0)⟩ = ([], ⟨H1, out1, els, none, ((0, 0), 0)⟩) := rfl
        rw [e1]
        simp only [List.map_nil, Option.toList_some, List.map_cons, List.singleton_append, Option.bind_eq_bind, Option.bind_some, e2', passTop_skip', passBottom_skip']
        rw [h5]
        simp only [Option.bind_some]
        rw [holeBegin_skip (inc := []) (by simp)]
        dsimp only
        rw [lastTail_skip]
        intro z hz
        simp only [List.mem_cons, List.mem_append, List.mem_replicate, List.not_mem_nil, or_false] at hz
        rcases hz with h | ⟨_, h⟩ | h <;> exact h
      · dsimp only
        rw [List.map_nil, List.nil_append]
        refine w2.permX ?_
        have x1 : cl p a = dir a.1.1.1 p 1 := by unfold cl; rw [ha]
        have x2 : cl p c = dir c.1.1.1 p (-1) := by unfold cl; rw [hcc]
        simp only [Option.toList_some, List.map_append, List.map_cons, List.map_nil, List.singleton_append, x1, x2]
        rw [List.perm_iff_count]; intro x
        simp only [List.count_append, List.count_cons, List.count_nil]
        omega
      · cases r with
        | none => exact Or.inl ⟨rfl, Or.inl ⟨by simp, rfl⟩⟩
        | some h => exact Or.inr ⟨h, rfl, rfl, ht', rfl, rfl⟩
    · -- the general case
      obtain ⟨s2, M, e2, m2, w2, k2⟩ := openAll (s := ⟨H1, out1, els, none, ((0, 0), 0)⟩) hu' hd' hQ hol (hm0 H1 out1) w1
      have huu : u.isSome = u'.isSome := by
        rw [ht] at ht'
        revert ht'
        cases u.isSome <;> cases u'.isSome <;> simp
      have hdd : d.isSome = d'.isSome := by
        rw [hb] at hb'
        revert hb'
        cases d.isSome <;> cases d'.isSome <;> simp
      obtain ⟨s3, s4, N, cs1, cs2, is1, is2, e3, e4, z1, z2, m4, w4, k4, -⟩ := bothPass (k := 2 * P.length) hu2 hd2 hu' hd' huu hdd hol m2 w2 k2
      refine ⟨s4, N, none, ?_, ⟨m4.els, m4.at_, k4, ?_, Or.inl ⟨rfl, ?_⟩⟩⟩
      · rw [e1]
        simp only [Option.bind_eq_bind, Option.bind_some, e2, e3, e4]
        rw [holeEnd_skip (fun z hz => by rw [z1 z hz])]
        simp only [Option.bind_some]
        rw [holeBegin_skip z2]
        dsimp only
        rw [lastTail_skip z1]
      · refine w4.permX ?_
        rw [List.perm_iff_count]; intro x
        simp only [List.map_append, List.count_append]
        omega
      · rcases m4.ret with ⟨h1, h2, h3⟩ | h
        · exact Or.inl ⟨h1, h2⟩
        · exact Or.inr h

/-- A closed hole comes to a point where another hole begins. -/
theorem processPoint_float {p : Pt} {f : V × Nat} {inc : List (Pt × Int)} {H : Heap} {out : List Poly} {els : List (V × Nat)} {A : List End} {X : List Edge}
    (hf : f.1.2 = 0) (hv : isVertical f.1.1 = true) (hi : Colors (fun a : Pt × Int => a.2) 1 inc.reverse 1) (hne : inc ≠ [])
    (hl : ∀ a ∈ inc, lessPoint a.1 p = false) (hol : OL p.1 inc) (w : Web H A (some f.2) out X) :
    ∃ s N, processPoint p [f] inc H out els = some s ∧ After p [] inc els A X 1 s N none := by
  unfold processPoint
  dsimp only
  rw [inc_slots hl]
  have hm0 : ∀ H out, Mt p els [] ⟨H, out, els, none, ((0, 0), 0)⟩ := fun H out => ⟨by simp, by simp, Or.inl ⟨by simp, rfl, rfl⟩⟩
  rcases inc_shape hi with ⟨_, _, h⟩ | ⟨u', d', Q, rfl, hQ, hu', hd', ht', hb'⟩
  · exact absurd h hne
  obtain ⟨s2, M, e2, m2, w2, k2⟩ := openAll (s := ⟨H, out, els, none, ((0, 0), 0)⟩) hu' hd' hQ hol (hm0 H out) w
  obtain ⟨a, rfl⟩ : ∃ a, u' = some a := by cases u' with
    | none => simp at ht'
    | some a => exact ⟨a, rfl⟩
  obtain ⟨c, rfl⟩ : ∃ a, d' = some a := by cases d' with
    | none => simp at hb'
    | some a => exact ⟨a, rfl⟩
  have ha := hu' a rfl
  have hcc := hd' c rfl
  obtain ⟨H', t1, t2, e3, w3⟩ := w2.create p false
  simp only [Bool.false_eq_true, if_false] at w3
  obtain ⟨m3, g1, g2⟩ := (m2.heap H' s2.out).put (last := true) (o := a.1) (σ := 1) (r := -1) (t := t1) (by simp) rfl
  have hcv : c.1.1 ≠ p.1 := OL.head (A := [c]) (B := flat Q ++ [a]) hol (by simp) c (by simp)
  have m4 := m3.put' (o := c.1) (σ := -1) (t := t2) hcv
  generalize hs3 : PS.put { s2 with H := H' } p true a.1 1 (-1) t1 = s3 at m3 m4 g1 g2
  generalize hs4 : ({ s3 with els := s3.els ++ [(((p, c.1), -1), t2)] } : PS) = s4 at m4
  have hb6 : holeBegin p true [(0, some f.2)] ([islot c] ++ ((flat Q).map zslot ++ [islot a])) s2 = ([(0, none)], false, s4) := by
    unfold holeBegin
    have n1 : nz ([islot c] ++ ((flat Q).map zslot ++ [islot a])) = some ([], islot c, (flat Q).map zslot ++ [islot a]) :=
      nz_some (Z := []) (a := islot c) (by show c.2 ≠ 0; omega) _ (by simp)
    have n2 : nz ((flat Q).map zslot ++ [islot a]) = some ((flat Q).map zslot, islot a, []) :=
      nz_some (a := islot a) (by show a.2 ≠ 0; omega) _ (by intro z hz; obtain ⟨x, _, rfl⟩ := List.mem_map.1 hz; rfl)
    rw [n1]
    dsimp only
    rw [n2]
    have hh : (if true = true then ([(0, some f.2)] : List CSlot).getLast?.bind Prod.snd else none) = some f.2 := rfl
    dsimp only
    rw [hh, e3]
    simp only [List.isEmpty_nil, ha, hcc, hs3, hs4]
    simp
  refine ⟨s4, M ++ [(((p, a.1), 1), t1)] ++ [(((p, c.1), -1), t2)], ?_, ⟨m4.els, m4.at_, ?_, ?_, Or.inl ⟨rfl, ?_⟩⟩⟩
  · have e1 : closeSolid p (([(0, some f.2)] : List CSlot).length - 1) [(0, some f.2)] ⟨H, out, els, none, ((0, 0), 0)⟩ =
        some ([(0, some f.2)], ⟨H, out, els, none, ((0, 0), 0)⟩) := rfl
    have z0 : nz ([(0, some f.2)] : List CSlot) = none := nz_none (by simp)
    simp only [Option.toList_some, List.map_cons, List.map_nil] at e2
    simp only [List.map_cons, List.map_nil, hf, e1, Option.bind_eq_bind, Option.bind_some, Option.toList_some, e2, List.getLast?_singleton, hv]
    rw [passTop_skip (cs := [(0, some f.2)]) (by rw [z0]; simp)]
    simp only [Option.bind_some]
    rw [passBottom_skip (cs := [(0, some f.2)]) (by rw [List.reverse_singleton, z0]; simp)]
    simp only [Option.bind_some]
    rw [holeEnd_skip (cs := [(0, some f.2)]) (by simp)]
    simp only [Option.bind_some]
    rw [hb6]
    dsimp only
    rw [lastTail_skip (cs := [(0, none)]) (by simp)]
  · have e5 : key (((p, a.1), 1), t1) = a := by rw [← ha]
    have e6 : key (((p, c.1), -1), t2) = c := by rw [← hcc]
    rw [List.map_append, List.map_append, List.map_cons, List.map_cons, e5, e6]
    refine ((k2.append_right _).append_right _).trans ?_
    exact List.perm_append_comm
  · rw [← hs4]
    dsimp only
    rw [g1, g2]
    refine w3.permA ?_
    rw [List.perm_iff_count]; intro x
    simp only [List.map_append, List.map_cons, List.map_nil, List.count_append, List.count_cons, List.count_nil, en]
    omega
  · rcases m4.ret with ⟨h1, h2, h3⟩ | h
    · exact Or.inl ⟨h1, h2⟩
    · exact Or.inr h

end Verif.ArbForm
