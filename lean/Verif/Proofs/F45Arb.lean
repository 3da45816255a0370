import Verif.Proofs.F45Rel
import Verif.Proofs.F45Heap
/-!
# One point of the formation at any angle, by the cases without empty slots
-/
namespace Verif.F45
open Verif.ArbForm
open Verif.Arb (Pt isVertical)
open Verif.Contains (lessPoint)

/-- The operations of the formation at any angle. -/
def opsA (p : Pt) (h : Option Nat) : Ops PS Pt where
  join t u s := (s.H.joinChains p t u true).map (fun j => { s with H := j.1, out := s.out ++ j.2.1 })
  pair a b s :=
    { ({ s with H := (s.H.createPair p true none).1 }.put p true b (-1) 1 (s.H.createPair p true none).2.1) with
      els := ({ s with H := (s.H.createPair p true none).1 }.put p true b (-1) 1 (s.H.createPair p true none).2.1).els ++ [(((p, a), 1), (s.H.createPair p true none).2.2)] }
  pass t o c r s := { s with H := s.H.push t p }.put p true o c r t
  hend t u s := (s.H.joinChains p t u false).map (fun j =>
    { s with H := j.1, out := s.out ++ j.2.1, ret := j.2.2, rc := if j.2.2.isSome then (p, s.rc.2) else s.rc })
  hbeg a b s :=
    { ({ s with H := (s.H.createPair p false h).1 }.put p true b.2 b.1 (-1) (s.H.createPair p false h).2.1) with
      els := ({ s with H := (s.H.createPair p false h).1 }.put p true b.2 b.1 (-1) (s.H.createPair p false h).2.1).els ++ [(((p, a.2), a.1), (s.H.createPair p false h).2.2)] }

/-- The case of new pairs with the flag of the last slot. -/
def pairA (p : Pt) (l : Bool) (a b : Pt) (s : PS) : PS :=
  { ({ s with H := (s.H.createPair p true none).1 }.put p l b (-1) 1 (s.H.createPair p true none).2.1) with
      els := ({ s with H := (s.H.createPair p true none).1 }.put p l b (-1) 1 (s.H.createPair p true none).2.1).els ++ [(((p, a), 1), (s.H.createPair p true none).2.2)] }

/-- The case of a line that goes on, with the flag of the last slot. -/
def passA (p : Pt) (l : Bool) (t : Nat) (o : Pt) (c r : Int) (s : PS) : PS := { s with H := s.H.push t p }.put p l o c r t

/-- The case of a new hole with the flag of the last slot. -/
def hbegA (p : Pt) (h : Option Nat) (l : Bool) (a b : Int × Pt) (s : PS) : PS :=
  { ({ s with H := (s.H.createPair p false h).1 }.put p l b.2 b.1 (-1) (s.H.createPair p false h).2.1) with
      els := ({ s with H := (s.H.createPair p false h).1 }.put p l b.2 b.1 (-1) (s.H.createPair p false h).2.1).els ++ [(((p, a.2), a.1), (s.H.createPair p false h).2.2)] }

theorem put_flag {p o : Pt} {l : Bool} (h : l = false → ¬ o.1 = p.1) (s : PS) (c r : Int) (t : Nat) : s.put p l o c r t = s.put p true o c r t := by
  cases l with
  | true => rfl
  | false =>
    unfold PS.put
    simp [h rfl]

theorem closeA (p : Pt) (h : Option Nat) : ∀ (n : Nat) (L : List CSlot) (s : PS), ArbForm.closeSolid p n L s = closeS (opsA p h).join n L s
  | 0, L, s => rfl
  | n + 1, [], s => rfl
  | n + 1, a :: r, s => by
    unfold ArbForm.closeSolid closeS
    rw [closeA p h n r s]
    by_cases c : a.1 = -1
    · rw [if_pos c, if_pos c]
      rcases nz r with _ | ⟨r1, b, r2⟩
      · rfl
      · dsimp only
        by_cases d : b.1 = 1
        · rw [if_pos d, if_pos d]
          rcases a.2 with _ | t
          · rfl
          rcases b.2 with _ | u
          · rfl
          simp only [Option.bind_eq_bind, Option.bind_some, opsA]
          rcases s.H.joinChains p t u true with _ | j
          · rfl
          · simp only [Option.bind_some, Option.map_some]
            rw [closeA p h n]
            simp only [opsA]
            rcases closeS _ n (r1 ++ (0, none) :: r2) _ with _ | m
            · rfl
            · rfl
        · rw [if_neg d, if_neg d]
    · rw [if_neg c, if_neg c]

theorem openA (p : Pt) : ∀ (n : Nat) (L : List (Int × Pt)) (s : PS), ArbForm.openSolid p n L s = openS (pairA p) n L s
  | 0, L, s => rfl
  | n + 1, [], s => rfl
  | n + 1, a :: r, s => by
    unfold ArbForm.openSolid openS
    by_cases c : a.1 = 1
    · rw [if_pos c, if_pos c]
      rcases nz r with _ | ⟨r1, b, r2⟩
      · rw [openA p n r s]
      · dsimp only
        by_cases d : b.1 = -1
        · rw [if_pos d, if_pos d]
          rw [openA p n]
          rfl
        · rw [if_neg d, if_neg d, openA p n r s]
    · rw [if_neg c, if_neg c, openA p n r s]

theorem topA (p : Pt) (cs : List CSlot) (is : List (Int × Pt)) (s : PS) : ArbForm.passTop p cs is s = topS (passA p) cs is s := by
  unfold ArbForm.passTop topS
  rcases nz cs with _ | ⟨l1, a, l2⟩
  · rfl
  rcases nz is.reverse with _ | ⟨r1, b, r2⟩
  · rfl
  dsimp only
  by_cases c : a.1 = 1 ∧ b.1 = 1
  · rw [if_pos c, if_pos c]
    rcases a.2 with _ | t
    · rfl
    · rfl
  · rw [if_neg c, if_neg c]

theorem botA (p : Pt) (cs : List CSlot) (is : List (Int × Pt)) (s : PS) : ArbForm.passBottom p cs is s = botS (passA p) cs is s := by
  unfold ArbForm.passBottom botS
  rcases nz cs.reverse with _ | ⟨l1, a, l2⟩
  · rfl
  rcases nz is with _ | ⟨r1, b, r2⟩
  · rfl
  dsimp only
  by_cases c : a.1 = -1 ∧ b.1 = -1
  · rw [if_pos c, if_pos c]
    rcases a.2 with _ | t
    · rfl
    · rfl
  · rw [if_neg c, if_neg c]

theorem endA (p : Pt) (h : Option Nat) (cs : List CSlot) (s : PS) : ArbForm.holeEnd p cs s = endS (opsA p h).hend cs s := by
  unfold ArbForm.holeEnd endS
  rcases nz cs with _ | ⟨l1, a, l2⟩
  · rfl
  dsimp only
  rcases nz l2 with _ | ⟨m1, b, m2⟩
  · rfl
  dsimp only
  rcases a.2 with _ | t
  · rfl
  rcases b.2 with _ | u
  · rfl
  simp only [Option.bind_eq_bind, Option.bind_some, opsA]
  rcases s.H.joinChains p t u false with _ | j
  · rfl
  · rfl

/-- The new hole and the tail left over. -/
theorem begA (p : Pt) (vb : Bool) (cs : List CSlot) (is : List (Int × Pt)) (s : PS)
    (h : vb = true → (cs.getLast?.bind Prod.snd) = none ∨ 2 ≤ (nzs is).length) :
    lastTail p (ArbForm.holeBegin p vb cs is s).2.1 (ArbForm.holeBegin p vb cs is s).1 (ArbForm.holeBegin p vb cs is s).2.2 =
      begS (hbegA p (if vb then cs.getLast?.bind Prod.snd else none)) is s := by
  have hskip : (vb = true → (cs.getLast?.bind Prod.snd) = none) → lastTail p vb cs s = s := by
    intro g
    unfold lastTail
    cases vb with
    | false => rfl
    | true =>
      rw [if_pos rfl]
      rcases e : cs.getLast? with _ | ⟨c, _ | t⟩
      · rfl
      · rfl
      · have := g rfl
        rw [e] at this
        simp at this
  unfold ArbForm.holeBegin begS
  rcases nz_cases is with ⟨h1, h2⟩ | ⟨l1, a, l2, h1, h2, h3, h4, h5⟩
  · rw [h1]
    exact hskip (fun v => (h v).resolve_right (by rw [h2]; simp))
  rw [h1]
  dsimp only
  rcases nz_cases l2 with ⟨g1, g2⟩ | ⟨m1, b, m2, g1, g2, g3, g4, g5⟩
  · rw [g1]
    exact hskip (fun v => (h v).resolve_right (by rw [h5, g2]; simp))
  rw [g1]
  rfl

/-! ### What is left of the slots -/

theorem closeG_pairs {J : Nat → Nat → PS → Option PS} : ∀ (P : List ((V × Nat) × (V × Nat))) (d : Option (V × Nat)), (∀ x ∈ P, x.1.1.2 = -1 ∧ x.2.1.2 = 1) →
    ∀ (s : PS) (m : List CSlot × PS), closeG J ((flat P).map cslot ++ d.toList.map cslot) s = some m → m.1 = d.toList.map cslot
  | [], none, _, s, m, h => by cases h; rfl
  | [], some d, _, s, m, h => by cases h; rfl
  | x :: P, d, hP, s, m, h => by
    rw [flat_cons, List.map_cons, List.map_cons, List.cons_append, List.cons_append] at h
    unfold closeG at h
    rw [if_pos (hP x List.mem_cons_self)] at h
    dsimp only at h
    obtain ⟨s1, _, h2⟩ := Option.bind_eq_some_iff.1 h
    exact closeG_pairs P d (fun y hy => hP y (List.mem_cons_of_mem _ hy)) s1 m h2

theorem closeG_left {J : Nat → Nat → PS → Option PS} {u d : Option (V × Nat)} {P : List ((V × Nat) × (V × Nat))} (hP : ∀ x ∈ P, x.1.1.2 = -1 ∧ x.2.1.2 = 1)
    (hu : ∀ a, u = some a → a.1.2 = 1) {s : PS} {m : List CSlot × PS} (h : closeG J ((u.toList ++ (flat P ++ d.toList)).map cslot) s = some m) :
    m.1 = u.toList.map cslot ++ d.toList.map cslot := by
  cases u with
  | none =>
    rw [Option.toList_none, List.nil_append, List.map_append] at h
    rw [closeG_pairs P d hP s m h]; rfl
  | some a =>
    have ha := hu a rfl
    rw [Option.toList_some, List.singleton_append, List.map_cons, List.map_append] at h
    rw [Option.toList_some]
    rcases e : (flat P).map cslot ++ d.toList.map cslot with _ | ⟨b, r⟩
    · rw [e] at h
      cases h
      have : d.toList.map cslot = [] := (List.append_eq_nil_iff.1 e).2
      rw [this]; rfl
    · rw [e] at h
      unfold closeG at h
      rw [if_neg (by rintro ⟨g, -⟩; have : (cslot a).1 = 1 := ha; omega)] at h
      obtain ⟨m', h1, rfl⟩ := Option.map_eq_some_iff.1 h
      rw [← e] at h1
      rw [closeG_pairs P d hP s m' h1]; rfl

theorem openG_pairs {K : Pt → Pt → PS → PS} : ∀ (Q : List ((Pt × Int) × (Pt × Int))) (u : Option (Pt × Int)), (∀ x ∈ Q, x.1.2 = 1 ∧ x.2.2 = -1) →
    ∀ (s : PS), (openG K ((flat Q).map islot ++ u.toList.map islot) s).1 = u.toList.map islot
  | [], none, _, s => rfl
  | [], some d, _, s => rfl
  | x :: Q, u, hQ, s => by
    rw [flat_cons, List.map_cons, List.map_cons, List.cons_append, List.cons_append]
    unfold openG
    rw [if_pos (hQ x List.mem_cons_self)]
    exact openG_pairs Q u (fun y hy => hQ y (List.mem_cons_of_mem _ hy)) _

theorem openG_left {K : Pt → Pt → PS → PS} {u d : Option (Pt × Int)} {Q : List ((Pt × Int) × (Pt × Int))} (hQ : ∀ x ∈ Q, x.1.2 = 1 ∧ x.2.2 = -1)
    (hd : ∀ a, d = some a → a.2 = -1) (s : PS) : (openG K ((d.toList ++ (flat Q ++ u.toList)).map islot) s).1 = d.toList.map islot ++ u.toList.map islot := by
  cases d with
  | none =>
    rw [Option.toList_none, List.nil_append, List.map_append]
    exact openG_pairs Q u hQ s
  | some a =>
    have ha := hd a rfl
    rw [Option.toList_some, List.singleton_append, List.map_cons, List.map_append]
    rcases e : (flat Q).map islot ++ u.toList.map islot with _ | ⟨b, r⟩
    · have : u.toList.map islot = [] := (List.append_eq_nil_iff.1 e).2
      rw [this]; rfl
    · unfold openG
      rw [if_neg (by rintro ⟨g, -⟩; have : (islot a).1 = -1 := ha; omega)]
      have := openG_pairs (K := K) Q u hQ s
      rw [e] at this
      dsimp only
      rw [this]; rfl

theorem topG_nil {σ ι : Type} (T : Nat → ι → Int → Int → σ → σ) (cs : List CSlot) (s : σ) : topG T cs [] s = some (cs, [], s) := by
  unfold topG
  cases cs <;> rfl

theorem botG_nil {σ ι : Type} (T : Nat → ι → Int → Int → σ → σ) (cs : List CSlot) (s : σ) : botG T cs [] s = some (cs, [], s) := by
  unfold botG
  cases cs.reverse <;> rfl

/-- The cases up to the last consume the slots of the edges that end; what begins is left if two edges begin and none ends. -/
theorem left_over {p : Pt} {h : Option Nat} {from_ : List (V × Nat)} {inc : List (Pt × Int)} {t b : Int} (hc : Colors (fun a : V × Nat => a.1.2) t from_ b)
    (hi : Colors (fun a : Pt × Int => a.2) t inc.reverse b) {s : PS} {A : List CSlot × PS} {B C : List CSlot × List (Int × Pt) × PS} {E : List CSlot × PS}
    (h1 : closeG (opsA p h).join (from_.map cslot) s = some A)
    (h2 : topG (opsA p h).pass A.1 (openG (opsA p h).pair (inc.map islot) A.2).1 (openG (opsA p h).pair (inc.map islot) A.2).2 = some B)
    (h3 : botG (opsA p h).pass B.1 B.2.1 B.2.2 = some C) (h4 : endG (opsA p h).hend C.1 C.2.2 = some E) :
    E.1 = [] ∧ (from_ = [] → t = 1 → inc ≠ [] → 2 ≤ C.2.1.length) := by
  rcases inc_shape hi with ⟨t1, b1, rfl⟩ | ⟨u', d', Q, rfl, hQ, hu', hd', ht', hb'⟩
  · -- nothing begins
    have e2 : (openG (opsA p h).pair (([] : List (Pt × Int)).map islot) A.2).1 = [] := rfl
    rw [e2] at h2
    have hB : B.1 = A.1 ∧ B.2.1 = [] := by
      rw [topG_nil] at h2
      cases h2; exact ⟨rfl, rfl⟩
    rw [hB.2, hB.1] at h3
    have hC : C.1 = A.1 := by
      rw [botG_nil] at h3
      cases h3; rfl
    rw [hC] at h4
    refine ⟨?_, by simp⟩
    rcases colors_shape hc with ⟨_, _, rfl⟩ | ⟨u, d, P, rfl, hP, hu, hd, ht, hb⟩
    · cases h1
      cases h4
      rfl
    · rw [closeG_left hP hu h1] at h4
      rw [t1] at ht
      rw [b1] at hb
      cases u with
      | none => simp at ht
      | some a =>
        cases d with
        | none => simp at hb
        | some d =>
          unfold endG at h4
          simp only [Option.toList_some, List.map_cons, List.map_nil, List.cons_append, List.nil_append] at h4
          obtain ⟨s1, _, rfl⟩ := Option.map_eq_some_iff.1 h4
          rfl
  · rw [openG_left hQ hd'] at h2
    rcases colors_shape hc with ⟨t1, b1, rfl⟩ | ⟨u, d, P, rfl, hP, hu, hd, ht, hb⟩
    · -- nothing ends
      cases h1
      have hB : B.1 = [] ∧ B.2.1 = d'.toList.map islot ++ u'.toList.map islot := by
        unfold topG at h2
        cases h2; exact ⟨rfl, rfl⟩
      rw [hB.1, hB.2] at h3
      have hC : C.1 = [] ∧ C.2.1 = d'.toList.map islot ++ u'.toList.map islot := by
        unfold botG at h3
        cases h3; exact ⟨rfl, rfl⟩
      rw [hC.1] at h4
      cases h4
      refine ⟨rfl, fun _ _ _ => ?_⟩
      rw [hC.2]
      rw [t1] at ht'
      rw [b1] at hb'
      cases u' with
      | none => simp at ht'
      | some a =>
        cases d' with
        | none => simp at hb'
        | some d => simp
    · rw [closeG_left hP hu h1] at h2
      have hus : u.isSome = u'.isSome := by
        rw [ht] at ht'
        cases u <;> cases u' <;> simp at ht' ⊢
      have hds : d.isSome = d'.isSome := by
        rw [hb] at hb'
        cases d <;> cases d' <;> simp at hb' ⊢
      have hB : B.1 = d.toList.map cslot ∧ B.2.1 = d'.toList.map islot := by
        cases u with
        | none =>
          have : u' = none := by cases u' with
            | none => rfl
            | some a => simp at hus
          subst this
          simp only [Option.toList_none, List.map_nil, List.nil_append, List.append_nil] at h2
          unfold topG at h2
          cases d with
          | none => cases h2; exact ⟨rfl, rfl⟩
          | some d =>
            cases d' with
            | none => cases h2; exact ⟨rfl, rfl⟩
            | some d' =>
              simp only [Option.toList_some, List.map_cons, List.map_nil, List.reverse_cons, List.reverse_nil, List.nil_append] at h2
              rw [if_neg (by rintro ⟨g, -⟩; have := hd d rfl; omega)] at h2
              cases h2; exact ⟨rfl, rfl⟩
        | some a =>
          obtain ⟨a', rfl⟩ : ∃ a', u' = some a' := by cases u' with
            | none => simp at hus
            | some a' => exact ⟨a', rfl⟩
          unfold topG at h2
          simp only [Option.toList_some, List.map_cons, List.map_nil, List.reverse_append, List.reverse_cons, List.reverse_nil, List.nil_append, List.singleton_append,
            List.cons_append] at h2
          rw [if_pos ⟨hu a rfl, hu' a' rfl⟩] at h2
          cases h2
          exact ⟨rfl, by simp⟩
      rw [hB.1, hB.2] at h3
      have hC : C.1 = [] := by
        cases d with
        | none =>
          unfold botG at h3
          cases h3; rfl
        | some a =>
          obtain ⟨a', rfl⟩ : ∃ a', d' = some a' := by cases d' with
            | none => simp at hds
            | some a' => exact ⟨a', rfl⟩
          unfold botG at h3
          simp only [Option.toList_some, List.map_cons, List.map_nil, List.reverse_cons, List.reverse_nil, List.nil_append] at h3
          rw [if_pos ⟨hd a rfl, hd' a' rfl⟩] at h3
          cases h3; rfl
      rw [hC] at h4
      cases h4
      refine ⟨rfl, ?_⟩
      intro g g1 _
      have gu : u = none := by cases u with
        | none => rfl
        | some a => simp at g
      rw [gu, g1] at ht
      simp at ht

theorem zr_none {L M : List CSlot} (h : Zr L M) (hL : ∀ a ∈ L, a.1 ≠ 0) (hM : nzs M = []) : ∀ c ∈ M, c.2 = none := by
  unfold Zr at h
  induction h with
  | nil => intro c hc; simp at hc
  | @cons a b l m h r ih =>
    intro c hc
    have hb : b.1 = 0 := by
      by_contra g
      rw [nzs_pos g] at hM
      simp at hM
    rw [nzs_neg hb] at hM
    rcases List.mem_cons.1 hc with rfl | hc
    · rcases h with rfl | ⟨_, rfl⟩
      · exact absurd hb (hL _ List.mem_cons_self)
      · rfl
    · exact ih (fun x hx => hL x (List.mem_cons_of_mem _ hx)) hM c hc

theorem olg_of {p : Pt} : ∀ {inc : List (Pt × Int)}, OL p.1 inc → OLg (fun o : Pt => o.1 = p.1) (inc.map islot)
  | [], _ => trivial
  | a :: r, h => ⟨h.1.imp (fun e => by rw [e]; rfl) id, olg_of h.2⟩

theorem nzs_all {α : Type} {L : List (Int × α)} (h : ∀ a ∈ L, a.1 ≠ 0) : nzs L = L := by
  unfold nzs
  exact List.filter_eq_self.2 (fun a ha => by simpa using h a ha)

theorem Colors.ne {α : Type} {s : α → Int} : ∀ {L : List α} {t b : Int}, Colors s t L b → ∀ a ∈ L, s a ≠ 0
  | [], _, _, _, a, ha => by simp at ha
  | c :: r, _, _, h, a, ha => by
    rcases List.mem_cons.1 ha with rfl | ha
    · exact h.2.1
    · exact Colors.ne h.2.2 a ha

theorem pointA {p : Pt} {G : List (V × Nat)} {F : Option (V × Nat)} {inc : List (Pt × Int)} {t b : Int} (hc : Colors (fun a : V × Nat => a.1.2) t G b)
    (hi : Colors (fun a : Pt × Int => a.2) t inc.reverse b) (hF : ∀ f, F = some f → G = [] ∧ f.1.2 = 0 ∧ isVertical f.1.1 = true ∧ t = 1 ∧ inc ≠ [])
    (hl : ∀ a ∈ inc, lessPoint a.1 p = false) (hol : OL p.1 inc) (H : Heap) (out : List Poly) (els : List (V × Nat)) :
    processPoint p (G ++ F.toList) inc H out els = pointG (opsA p (F.map Prod.snd)) (G.map cslot) (inc.map islot) ⟨H, out, els, none, ((0, 0), 0)⟩ := by
  unfold processPoint pointG
  dsimp only
  rw [inc_slots hl]
  generalize hh : F.map Prod.snd = h
  generalize hcs : (G ++ F.toList).map (fun a => ((a.1.2, some a.2) : CSlot)) = cs
  have hz : nzs cs = G.map cslot := by
    rw [← hcs, List.map_append, nzs_append, nzs_all (by
      intro a ha
      obtain ⟨x, hx, rfl⟩ := List.mem_map.1 ha
      exact Colors.ne hc x hx)]
    have : nzs (F.toList.map (fun a => ((a.1.2, some a.2) : CSlot))) = [] := by
      cases F with
      | none => rfl
      | some f => exact nzs_neg (hF f rfl).2.1
    rw [this, List.append_nil]
  have hzi : nzs (inc.map islot) = inc.map islot := nzs_all (by
    intro a ha
    obtain ⟨x, hx, rfl⟩ := List.mem_map.1 ha
    exact Colors.ne hi x (List.mem_reverse.2 hx))
  rw [closeA p h]
  obtain ⟨e1, z1⟩ := closeS_spec (opsA p h).join (cs.length - 1) cs ⟨H, out, els, none, ((0, 0), 0)⟩ (by omega)
  rw [hz] at e1
  rw [← e1]
  rcases hz1 : closeS (opsA p h).join (cs.length - 1) cs ⟨H, out, els, none, ((0, 0), 0)⟩ with _ | ⟨c1, s1⟩
  · rfl
  have z1 := z1 _ hz1
  rw [hz1] at e1
  simp only [Option.map_some, Option.bind_some, Option.bind_eq_bind]
  rw [openA p]
  obtain ⟨e2, o2⟩ := openS_spec (V := fun o : Pt => o.1 = p.1) (pairA p) (opsA p h).pair (fun l a b s g => by
    unfold pairA opsA
    dsimp only
    rw [put_flag g]) ((inc.map islot).length - 1) (inc.map islot) s1 (by omega) (olg_of hol)
  rw [hzi] at e2
  rw [← e2]
  dsimp only
  have e2' := e2
  generalize openS (pairA p) ((inc.map islot).length - 1) (inc.map islot) s1 = w2 at e2 e2' o2 ⊢
  rw [topA p]
  obtain ⟨e3, z3⟩ := topS_spec (V := fun o : Pt => o.1 = p.1) (passA p) (opsA p h).pass (fun l t o c r s g => put_flag g _ _ _ _) c1 w2.1 w2.2 o2
  rw [← e3]
  rcases hz3 : topS (passA p) c1 w2.1 w2.2 with _ | ⟨c3, i3, s3⟩
  · rfl
  obtain ⟨z3, o3⟩ := z3 _ hz3
  rw [hz3] at e3
  simp only [Option.map_some, Option.bind_some]
  rw [botA p]
  obtain ⟨e4, z4⟩ := botS_spec (V := fun o : Pt => o.1 = p.1) (passA p) (opsA p h).pass (fun l t o c r s g => put_flag g _ _ _ _) c3 i3 s3 o3
  rw [← e4]
  rcases hz4 : botS (passA p) c3 i3 s3 with _ | ⟨c4, i4, s4⟩
  · rfl
  obtain ⟨z4, o4⟩ := z4 _ hz4
  rw [hz4] at e4
  simp only [Option.map_some, Option.bind_some]
  rw [endA p h]
  obtain ⟨e5, z5⟩ := endS_spec (opsA p h).hend c4 s4
  rw [← e5]
  rcases hz5 : endS (opsA p h).hend c4 s4 with _ | ⟨c5, s5⟩
  · rfl
  have z5 := z5 _ hz5
  rw [hz5] at e5
  simp only [Option.map_some, Option.bind_some, Option.some_inj]
  have zz := ((z1.trans z3).trans z4).trans z5
  have hlo := left_over (p := p) (h := h) hc hi (s := ⟨H, out, els, none, ((0, 0), 0)⟩) (A := (nzs c1, s1)) (B := (nzs c3, nzs i3, s3)) (C := (nzs c4, nzs i4, s4)) (E := (nzs c5, s5))
    e1.symm (by rw [← e2']; exact e3.symm) e4.symm e5.symm
  have hkey : ∀ vb : Bool, (∀ f, F = some f → vb = true) → (if vb then c5.getLast?.bind Prod.snd else none) = h ∧ (vb = true → (c5.getLast?.bind Prod.snd) = none ∨ 2 ≤ (nzs i4).length) := by
    intro vb hvb
    cases F with
    | none =>
      have hn := zr_none zz (by
        intro a ha
        rw [← hcs, Option.toList_none, List.append_nil] at ha
        obtain ⟨x, hx, rfl⟩ := List.mem_map.1 ha
        exact Colors.ne hc x hx) hlo.1
      have : c5.getLast?.bind Prod.snd = none := by
        rcases e : c5.getLast? with _ | c
        · rfl
        · exact hn c (List.mem_of_getLast? e)
      rw [this, ← hh]
      exact ⟨by simp, fun _ => Or.inl rfl⟩
    | some f =>
      obtain ⟨f1, f2, f3, f4, f5⟩ := hF f rfl
      subst f1
      have hv : vb = true := hvb f rfl
      have h5 : c5 = [(0, some f.2)] := by
        rw [← hcs] at zz
        simp only [List.nil_append, Option.toList_some, List.map_cons, List.map_nil, f2] at zz
        rcases zz with _ | ⟨g1, _ | _⟩
        rcases g1 with rfl | ⟨g, _⟩
        · rfl
        · exact absurd rfl g
      rw [hv, h5, ← hh]
      exact ⟨rfl, fun _ => Or.inr (hlo.2 rfl f4 f5)⟩
  have hv : ∀ f, F = some f → (match (G ++ F.toList).getLast? with | some a => isVertical a.1.1 | none => false) = true := by
    intro f hf
    obtain ⟨f1, -, f3, -⟩ := hF f hf
    subst f1
    subst hf
    exact f3
  refine (begA p _ c5 i4 s5 (hkey _ hv).2).trans ?_
  refine Eq.trans (congrArg (fun o => begS (hbegA p o) i4 s5) (hkey _ hv).1) ?_
  exact begS_spec (V := fun o : Pt => o.1 = p.1) (hbegA p h) (opsA p h).hbeg (fun l a b s g => by
    unfold hbegA opsA
    dsimp only
    rw [put_flag g]) i4 s5 o4

/-! ### The relation of the two formations -/

/-- The direction of an edge: its slope, or 2 if it is vertical. -/
def rho (p o : Pt) : Int := if o.1 = p.1 then 2 else if o.2 = p.2 then 0 else if p.2 < o.2 then 1 else -1

theorem rho_two {p o : Pt} : rho p o = 2 ↔ o.1 = p.1 := by
  unfold rho
  split_ifs <;> simp_all

/-- An element of the scanline in the 45-degree formation. -/
def phi (a : V × Nat) : Deg45.V45 × Nat := (⟨a.1.1.1, rho a.1.1.1 a.1.1.2, a.1.2⟩, a.2)

/-- The states of a point. -/
structure RR (s' : Form45.PS) (s : PS) : Prop where
  H : HR s'.H s.H
  out : List.Forall₂ PR s'.out s.out
  els : s'.els = s.els.map phi
  ret : s'.ret = s.ret
  rc : s'.rc = s.rc.2

theorem RR.put {s' : Form45.PS} {s : PS} (h : RR s' s) (p o : Pt) (c r : Int) (t : Nat) : RR (s'.put p (rho p o) c r t) (s.put p true o c r t) := by
  unfold Form45.PS.put PS.put
  by_cases g : o.1 = p.1
  · rw [if_pos (rho_two.2 g), if_pos (by simpa using g)]
    exact ⟨h.H, h.out, h.els, rfl, rfl⟩
  · rw [if_neg (fun e => g (rho_two.1 e)), if_neg (by simpa using g)]
    exact ⟨h.H, h.out, by rw [List.map_append, h.els]; rfl, h.ret, h.rc⟩

theorem RR.heap {s' : Form45.PS} {s : PS} (h : RR s' s) {H' H : Heap} (g : HR H' H) : RR { s' with H := H' } { s with H := H } :=
  ⟨g, h.out, h.els, h.ret, h.rc⟩

theorem RR.add {s' : Form45.PS} {s : PS} (h : RR s' s) (p o : Pt) (c : Int) (t : Nat) :
    RR { s' with els := s'.els ++ [(⟨p, rho p o, c⟩, t)] } { s with els := s.els ++ [(((p, o), c), t)] } :=
  ⟨h.H, h.out, by rw [List.map_append, h.els]; rfl, h.ret, h.rc⟩

theorem ops_rel (p : Pt) (h : Option Nat) : Ops.Rel (rho p) RR (ops45 p h) (opsA p h) where
  join := by
    intro t u s' s s1 hR h1
    obtain ⟨j, hj, rfl⟩ := Option.map_eq_some_iff.1 h1
    obtain ⟨g1, g2, g3⟩ := hR.H.joinChains hj
    exact ⟨_, rfl, ⟨g1, List.rel_append hR.out g2, hR.els, hR.ret, hR.rc⟩⟩
  pair := by
    intro a b s' s hR
    unfold ops45 opsA
    dsimp only
    obtain ⟨g1, g2⟩ := hR.H.createPair p true none
    rw [g2]
    exact ((hR.heap g1).put p b _ _ _).add p a _ _
  pass := by
    intro t a c r s' s hR
    exact (hR.heap (hR.H.push t p)).put p a c r t
  hend := by
    intro t u s' s s1 hR h1
    obtain ⟨j, hj, rfl⟩ := Option.map_eq_some_iff.1 h1
    obtain ⟨g1, g2, g3⟩ := hR.H.joinChains hj
    refine ⟨_, rfl, ⟨g1, List.rel_append hR.out g2, hR.els, g3, ?_⟩⟩
    dsimp only
    split <;> exact hR.rc
  hbeg := by
    intro a b s' s hR
    unfold ops45 opsA
    dsimp only
    obtain ⟨g1, g2⟩ := hR.H.createPair p false h
    rw [g2]
    exact ((hR.heap g1).put p b.2 _ _ _).add p a.2 _ _

/-- One point of the two formations. -/
theorem point_sim {p : Pt} {G : List (V × Nat)} {F : Option (V × Nat)} {inc : List (Pt × Int)} {t b : Int} (hc : Colors (fun a : V × Nat => a.1.2) t G b)
    (hi : Colors (fun a : Pt × Int => a.2) t inc.reverse b) (hF : ∀ f, F = some f → G = [] ∧ f.1.2 = 0 ∧ isVertical f.1.1 = true ∧ t = 1 ∧ inc ≠ [])
    (hl : ∀ a ∈ inc, lessPoint a.1 p = false) (hol : OL p.1 inc) {H H' : Heap} {out out' : List Poly} {els : List (V × Nat)} {els' : List (Deg45.V45 × Nat)} {sp : PS}
    (h1 : processPoint p (G ++ F.toList) inc H out els = some sp) {cs : List CSlot} {is : List (Int × Int)} (hcl : cs.length = 4) (hil : is.length = 4)
    (hcs : nzs cs = G.map cslot) (his : nzs is = ren (rho p) (inc.map islot)) (hp : pend cs = F.map Prod.snd)
    (gH : HR H' H) (go : List.Forall₂ PR out' out) (ge : els' = els.map phi) :
    ∃ sp', Form45.processPoint p cs is H' out' els' = some sp' ∧ RR sp' sp := by
  rw [pointA hc hi hF hl hol] at h1
  rw [point45 p hcl hil, hcs, his, hp]
  exact pointG_rel (ops_rel p _) ⟨gH, go, ge, rfl, rfl⟩ h1

end Verif.F45
