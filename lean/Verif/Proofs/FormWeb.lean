import Verif.Proofs.FormClose
/-!
# The open ends
-/
namespace Verif.ArbForm
open Verif.Arb Verif.Contains Verif.Spec.Arb

/-- The open ends, a closed hole without a place, the figures written and the sides that all of them make. -/
def Web (H : Heap) (A : List End) (F : Option Nat) (out : List Poly) (X : List Edge) : Prop :=
  ∃ C, WebC H C F out X ∧ A.Perm (C.flatMap (Chain.ends H))

/-- The side that an open end makes when it goes on to a point. -/
def dir (q p : Pt) (σ : Int) : Edge := if σ = 1 then (q, p) else (p, q)

theorem Web.permA {H : Heap} {A A' : List End} {F : Option Nat} {out : List Poly} {X : List Edge} (w : Web H A F out X) (h : A.Perm A') : Web H A' F out X := by
  obtain ⟨C, w, hp⟩ := w
  exact ⟨C, w, h.symm.trans hp⟩

theorem Web.permX {H : Heap} {A : List End} {F : Option Nat} {out : List Poly} {X X' : List Edge} (w : Web H A F out X) (h : X.Perm X') : Web H A F out X' := by
  obtain ⟨C, w, hp⟩ := w
  exact ⟨C, w.permX h, hp⟩

/-- An end of a chain. -/
def IsEnd (H : Heap) (c : Chain) (t : Nat) (σ : Int) (q : Pt) : Prop :=
  (σ = -1 ∧ t = c.f ∧ (H.line c.l).head? = some q) ∨ (σ = 1 ∧ t = c.b ∧ (H.line c.l).getLast? = some q)

theorem getD_head {l : List Pt} (h : l ≠ []) : l.head? = some (l.head?.getD (0, 0)) := by cases l <;> simp_all
theorem getD_last {l : List Pt} (h : l ≠ []) : l.getLast? = some (l.getLast?.getD (0, 0)) := by
  rw [List.getLast?_eq_some_getLast h]; rfl

theorem mem_ends {H : Heap} {c : Chain} (hne : H.line c.l ≠ []) {t : Nat} {σ : Int} {q : Pt} : (t, σ, q) ∈ Chain.ends H c ↔ IsEnd H c t σ q := by
  unfold Chain.ends IsEnd
  simp only [List.mem_cons, Prod.mk.injEq, List.not_mem_nil, or_false]
  have h1 := getD_head hne
  have h2 := getD_last hne
  constructor
  · rintro (⟨rfl, rfl, rfl⟩ | ⟨rfl, rfl, rfl⟩)
    · exact Or.inl ⟨rfl, rfl, h1⟩
    · exact Or.inr ⟨rfl, rfl, h2⟩
  · rintro (⟨rfl, rfl, h⟩ | ⟨rfl, rfl, h⟩)
    · exact Or.inl ⟨rfl, rfl, by rw [h]; rfl⟩
    · exact Or.inr ⟨rfl, rfl, by rw [h]; rfl⟩

theorem Web.find {H : Heap} {A : List End} {F : Option Nat} {out : List Poly} {X : List Edge} (w : Web H A F out X) {t : Nat} {σ : Int} {q : Pt}
    (h : (t, σ, q) ∈ A) : ∃ c C, WebC H (c :: C) F out X ∧ A.Perm (Chain.ends H c ++ C.flatMap (Chain.ends H)) ∧ IsEnd H c t σ q := by
  obtain ⟨C, w, hp⟩ := w
  obtain ⟨c, hc, hm⟩ := List.mem_flatMap.1 (hp.mem_iff.1 h)
  obtain ⟨C1, C2, rfl⟩ := List.append_of_mem hc
  have hperm : (C1 ++ c :: C2).Perm (c :: (C1 ++ C2)) := List.perm_middle
  refine ⟨c, C1 ++ C2, w.permC hperm, hp.trans ?_, (mem_ends (w.ne c hc)).1 hm⟩
  rw [← List.flatMap_cons]
  exact hperm.flatMap_right _

theorem ends_same {H H' : Heap} {C : List Chain} (h : ∀ d ∈ C, H'.line d.l = H.line d.l) : C.flatMap (Chain.ends H') = C.flatMap (Chain.ends H) := by
  apply List.flatMap_congr
  intro d hd
  unfold Chain.ends
  rw [h d hd]

theorem ends_eq {H : Heap} {c : Chain} {q r : Pt} (h1 : (H.line c.l).head? = some q) (h2 : (H.line c.l).getLast? = some r) :
    Chain.ends H c = [(c.f, -1, q), (c.b, 1, r)] := by
  unfold Chain.ends; rw [h1, h2]; rfl

theorem WebC.endpts {H : Heap} {C : List Chain} {F : Option Nat} {out : List Poly} {X : List Edge} (w : WebC H C F out X) {c : Chain} (hc : c ∈ C) :
    ∃ q r, (H.line c.l).head? = some q ∧ (H.line c.l).getLast? = some r := ⟨_, _, getD_head (w.ne c hc), getD_last (w.ne c hc)⟩

theorem Web.push {H : Heap} {A : List End} {F : Option Nat} {out : List Poly} {X : List Edge} {t : Nat} {σ : Int} {q p : Pt}
    (w : Web H ((t, σ, q) :: A) F out X) (hne : q ≠ p) : Web (H.push t p) ((t, σ, p) :: A) F out (dir q p σ :: X) := by
  obtain ⟨c, C, v, hp, he⟩ := w.find List.mem_cons_self
  clear w
  obtain ⟨q', r', h1, h2⟩ := v.endpts List.mem_cons_self
  rw [ends_eq h1 h2] at hp
  rcases he with ⟨rfl, rfl, h⟩ | ⟨rfl, rfl, h⟩
  · rw [h1] at h
    obtain rfl := Option.some_inj.1 h
    obtain ⟨w', hl, hc⟩ := v.pushF h1 hne
    refine ⟨c :: C, ?_, ?_⟩
    · unfold dir; rw [if_neg (by omega)]; exact w'
    · rw [List.flatMap_cons, ends_same hl, ends_eq (q := p) (r := r') (by rw [hc]; rfl) (by rw [hc, List.getLast?_cons_of_ne_nil (v.ne c List.mem_cons_self)]; exact h2)]
      exact (hp.cons_inv).cons _
  · rw [h2] at h
    obtain rfl := Option.some_inj.1 h
    obtain ⟨w', hl, hc⟩ := v.pushB h2 hne
    refine ⟨c :: C, ?_, ?_⟩
    · unfold dir; rw [if_pos rfl]; exact w'
    · rw [List.flatMap_cons, ends_same hl, ends_eq (q := q') (r := p) (by rw [hc, List.head?_append_of_ne_nil _ (v.ne c List.mem_cons_self)]; exact h1) (by rw [hc]; simp)]
      have hp' : ((c.b, 1, r') :: A).Perm ((c.b, 1, r') :: ((c.f, -1, q') :: C.flatMap (Chain.ends H))) := hp.trans (List.Perm.swap _ _ _)
      exact ((hp'.cons_inv).cons _).trans (List.Perm.swap _ _ _)

theorem Web.addHole {H : Heap} {A : List End} {h : Nat} {out : List Poly} {X : List Edge} (w : Web H A (some h) out X) {t : Nat} {σ : Int} {q : Pt}
    (ht : (t, σ, q) ∈ A) : Web (H.addHole t h) A none out X := by
  obtain ⟨c, C, w, hp, he⟩ := w.find ht
  have hm : t ∈ (c :: C).flatMap Chain.tails := by
    rw [List.flatMap_cons]
    apply List.mem_append_left
    unfold Chain.tails
    rcases he with ⟨_, rfl, _⟩ | ⟨_, rfl, _⟩ <;> simp
  obtain ⟨w', hl⟩ := w.addHole hm
  refine ⟨c :: C, w', ?_⟩
  rw [ends_same (fun d _ => by rw [hl]), List.flatMap_cons]; exact hp

theorem Web.create0 {H : Heap} {A : List End} {F : Option Nat} {out : List Poly} {X : List Edge} (w : Web H A F out X) (p : Pt) (solid : Bool) :
    H.createPair p solid none = (H.newPair p solid, H.ft, H.ft + 1) ∧
      Web (H.newPair p solid) ((H.ft, if solid then -1 else 1, p) :: (H.ft + 1, if solid then 1 else -1, p) :: A) F out X := by
  obtain ⟨C, w, hp⟩ := w
  obtain ⟨w', hl, hc⟩ := w.newPair p solid
  refine ⟨rfl, _, w', ?_⟩
  rw [List.flatMap_cons, ends_same hl, ends_eq (q := p) (r := p) (by rw [hc]; rfl) (by rw [hc]; rfl)]
  cases solid
  · simp only [newChain, Bool.false_eq_true, if_false]
    exact ((hp.cons _).cons _).trans (List.Perm.swap _ _ _)
  · simp only [newChain, if_true]
    exact (hp.cons _).cons _

theorem Web.create {H : Heap} {A : List End} {F : Option Nat} {out : List Poly} {X : List Edge} (w : Web H A F out X) (p : Pt) (solid : Bool) :
    ∃ H' t u, H.createPair p solid F = (H', t, u) ∧
      Web H' ((t, if solid then -1 else 1, p) :: (u, if solid then 1 else -1, p) :: A) none out X := by
  obtain ⟨_, hW⟩ := w.create0 p solid
  cases F with
  | none => exact ⟨_, _, _, rfl, hW⟩
  | some h => exact ⟨_, _, _, rfl, hW.addHole (t := H.ft + 1) (List.mem_cons_of_mem _ List.mem_cons_self)⟩

theorem ring_of {l m : List Pt} {p q : Pt} (h1 : l = p :: m) (hm : m.head? = some q) (hq : q ≠ p) (h2 : l.getLast? = some p) : Ring l := by
  refine ⟨?_, by rw [h2, h1]; rfl⟩
  rw [h1, sides_front hm hq]
  simp

/-- The two ends of one chain meet. -/
theorem WebC.meet {H : Heap} {c : Chain} {C : List Chain} {out : List Poly} {X : List Edge} (w : WebC H (c :: C) none out X) {p q r : Pt}
    (h1 : (H.line c.l).head? = some q) (h2 : (H.line c.l).getLast? = some r) (hq : q ≠ p) (hr : r ≠ p) :
    (WebC ((H.push c.f p).push c.b p) (c :: C) none out ((r, p) :: (p, q) :: X) ∧ (∀ d ∈ C, ((H.push c.f p).push c.b p).line d.l = H.line d.l) ∧
      Ring (((H.push c.f p).push c.b p).line c.l)) ∧
    (WebC ((H.push c.b p).push c.f p) (c :: C) none out ((p, q) :: (r, p) :: X) ∧ (∀ d ∈ C, ((H.push c.b p).push c.f p).line d.l = H.line d.l) ∧
      Ring (((H.push c.b p).push c.f p).line c.l)) := by
  have hne := w.ne c List.mem_cons_self
  obtain ⟨w1, l1, k1⟩ := w.pushF h1 hq
  obtain ⟨w2, l2, k2⟩ := w1.pushB (q := r) (p := p) (by rw [k1, List.getLast?_cons_of_ne_nil hne]; exact h2) hr
  obtain ⟨v1, m1, n1⟩ := w.pushB h2 hr
  obtain ⟨v2, m2, n2⟩ := v1.pushF (q := q) (p := p) (by rw [n1, List.head?_append_of_ne_nil _ hne]; exact h1) hq
  refine ⟨⟨w2, fun d hd => (l2 d hd).trans (l1 d hd), ring_of (p := p) (m := H.line c.l ++ [p]) (q := q) ?_ ?_ hq ?_⟩,
    ⟨v2, fun d hd => (m2 d hd).trans (m1 d hd), ring_of (p := p) (m := H.line c.l ++ [p]) (q := q) ?_ ?_ hq ?_⟩⟩
  · rw [k2, k1]; rfl
  · rw [List.head?_append_of_ne_nil _ hne]; exact h1
  · rw [k2]; simp
  · rw [n2, n1]
  · rw [List.head?_append_of_ne_nil _ hne]; exact h1
  · rw [n2, n1, List.getLast?_cons_of_ne_nil (by simp)]; simp

theorem push_tail (H : Heap) (t : Nat) (p : Pt) : (H.push t p).tail = H.tail := by unfold Heap.push Heap.setLine; dsimp only; split_ifs <;> rfl

theorem Web.joinChains {H : Heap} {A : List End} {out : List Poly} {X : List Edge} {a b : Nat} {σ : Int} (hσ : σ = 1 ∨ σ = -1) {qa qb p : Pt}
    (w : Web H ((a, σ, qa) :: (b, -σ, qb) :: A) none out X) (ha : qa ≠ p) (hb : qb ≠ p) (solid : Bool) :
    ∃ H' o r, H.joinChains p a b solid = some (H', o, r) ∧ Web H' A r (out ++ o) (dir qa p σ :: dir qb p (-σ) :: X) ∧ (solid = true → r = none) := by
  obtain ⟨c, C, w', hp, he⟩ := w.find List.mem_cons_self
  clear w
  have w := w'
  clear w'
  have hcC : c ∈ c :: C := List.mem_cons_self
  obtain ⟨q', r', h1, h2⟩ := w.endpts hcC
  have hmb : (b, -σ, qb) ∈ Chain.ends H c ++ C.flatMap (Chain.ends H) := hp.mem_iff.1 (List.mem_cons_of_mem _ List.mem_cons_self)
  obtain ⟨f1, f2, f3⟩ := w.fr c hcC
  obtain ⟨b1, b2, b3⟩ := w.bk c hcC
  rw [ends_eq h1 h2] at hp
  have hnd := w.nd
  simp only [List.flatMap_cons, Chain.tails, List.cons_append, List.nil_append, List.nodup_cons, List.mem_cons, not_or] at hnd
  obtain ⟨⟨n1, n2⟩, m1, hndC⟩ := hnd
  rcases List.mem_append.1 hmb with hm | hm
  · -- one chain
    rw [mem_ends (w.ne c hcC)] at hm
    obtain ⟨⟨w1, l1, g1⟩, ⟨w2, l2, g2⟩⟩ := w.meet (p := p) h1 h2 (by
      rcases he with ⟨_, _, h⟩ | ⟨_, _, h⟩
      · rw [h1] at h; rw [Option.some_inj.1 h]; exact ha
      · rcases hm with ⟨_, _, h'⟩ | ⟨_, _, h'⟩
        · rw [h1] at h'; rw [Option.some_inj.1 h']; exact hb
        · omega) (by
      rcases he with ⟨_, _, h⟩ | ⟨_, _, h⟩
      · rcases hm with ⟨_, _, h'⟩ | ⟨_, _, h'⟩
        · omega
        · rw [h2] at h'; rw [Option.some_inj.1 h']; exact hb
      · rw [h2] at h; rw [Option.some_inj.1 h]; exact ha)
    -- the heap with both ends at the point
    obtain ⟨hab, hA, w3, l3, g3⟩ : ((a = c.f ∧ b = c.b) ∨ (a = c.b ∧ b = c.f)) ∧ A.Perm (C.flatMap (Chain.ends H)) ∧
        WebC ((H.push a p).push b p) (c :: C) none out (dir qa p σ :: dir qb p (-σ) :: X) ∧
        (∀ d ∈ C, ((H.push a p).push b p).line d.l = H.line d.l) ∧ Ring (((H.push a p).push b p).line c.l) := by
      rcases he with ⟨rfl, rfl, h⟩ | ⟨rfl, rfl, h⟩
      · rcases hm with ⟨h', _, _⟩ | ⟨_, rfl, h'⟩
        · omega
        · rw [h1] at h; rw [h2] at h'
          obtain rfl := Option.some_inj.1 h
          obtain rfl := Option.some_inj.1 h'
          refine ⟨Or.inl ⟨rfl, rfl⟩, ?_, ?_, l1, g1⟩
          · exact (hp.cons_inv).cons_inv
          · unfold dir; rw [if_neg (by omega), if_pos (by omega)]
            exact w1.permX (List.Perm.swap _ _ _)
      · rcases hm with ⟨_, rfl, h'⟩ | ⟨h', _, _⟩
        · rw [h2] at h; rw [h1] at h'
          obtain rfl := Option.some_inj.1 h
          obtain rfl := Option.some_inj.1 h'
          refine ⟨Or.inr ⟨rfl, rfl⟩, ?_, ?_, l2, g2⟩
          · exact ((hp.trans (List.Perm.swap _ _ _)).cons_inv).cons_inv
          · unfold dir; rw [if_pos rfl, if_neg (by omega)]
            exact w2.permX (List.Perm.swap _ _ _)
        · omega
    have hoth : (H.tail a).other = b := by rcases hab with ⟨rfl, rfl⟩ | ⟨rfl, rfl⟩; exacts [f2, b2]
    unfold Heap.joinChains
    rw [if_pos hoth]
    dsimp only
    rw [push_tail, push_tail, hoth]
    cases solid with
    | true =>
      obtain ⟨w4, l4⟩ := w3.closeOut hab g3
      refine ⟨_, _, _, rfl, ⟨C, w4, ?_⟩, fun _ => rfl⟩
      rw [ends_same (H := H) (fun d hd => by rw [l4]; exact l3 d hd)]; exact hA
    | false =>
      have w4 := w3.closeHole hab g3
      refine ⟨_, _, _, rfl, ⟨C, by rw [List.append_nil]; exact w4, ?_⟩, fun h => by simp at h⟩
      rw [ends_same l3]; exact hA
  · -- two chains
    obtain ⟨d, hd, hmd⟩ := List.mem_flatMap.1 hm
    clear hm hmb
    obtain ⟨C1, C2, rfl⟩ := List.append_of_mem hd
    have hm := hmd
    clear hmd
    have hperm : (C1 ++ d :: C2).Perm (d :: (C1 ++ C2)) := List.perm_middle
    have w := w.permC (hperm.cons c)
    have hp := hp.trans (((hperm.flatMap_right (Chain.ends H))).append_left _)
    rw [List.flatMap_cons] at hp
    generalize C1 ++ C2 = C at *
    have hdC : d ∈ c :: d :: C := List.mem_cons_of_mem _ List.mem_cons_self
    obtain ⟨q2, r2, k1, k2⟩ := w.endpts hdC
    rw [mem_ends (w.ne d hdC)] at hm
    rw [ends_eq k1 k2] at hp
    have hndD : b ≠ c.f ∧ b ≠ c.b := by
      have hbd : b ∈ d.tails := by
        unfold Chain.tails
        rcases hm with ⟨_, rfl, _⟩ | ⟨_, rfl, _⟩ <;> simp
      have hbC : b ∈ (C1 ++ d :: C2).flatMap Chain.tails := List.mem_flatMap.2 ⟨d, hd, hbd⟩
      have n2' : c.f ∉ (C1 ++ d :: C2).flatMap Chain.tails := n2
      exact ⟨fun h => n2' (h ▸ hbC), fun h => m1 (h ▸ hbC)⟩
    have hoth : (H.tail a).other ≠ b := by
      rcases he with ⟨_, rfl, _⟩ | ⟨_, rfl, _⟩
      · rw [f2]; exact Ne.symm hndD.2
      · rw [b2]; exact Ne.symm hndD.1
    unfold Heap.joinChains
    rw [if_neg hoth]
    have hne := w.ne c List.mem_cons_self
    rcases he with ⟨rfl, rfl, h⟩ | ⟨rfl, rfl, h⟩
    · rw [h1] at h
      obtain rfl := Option.some_inj.1 h
      rcases hm with ⟨h', _, _⟩ | ⟨_, rfl, h'⟩
      · omega
      rw [k2] at h'
      obtain rfl := Option.some_inj.1 h'
      obtain ⟨w1, l1, e1⟩ := w.pushF h1 ha
      obtain ⟨H', e, w2, l2, g3, g4⟩ := (w1.permC (List.Perm.swap d c C)).joinBF (u := r2) (v := p) (by rw [l1 d List.mem_cons_self]; exact k2)
        (by rw [e1]; rfl) (a := c.f) (b := d.b) (Or.inr ⟨rfl, rfl⟩)
      rw [e]
      refine ⟨H', [], none, rfl, ⟨⟨d.f, c.b, d.l⟩ :: C, ?_, ?_⟩, fun _ => rfl⟩
      · rw [List.append_nil]
        refine w2.permX ?_
        unfold dir step
        rw [if_neg hb, if_neg (by omega), if_pos (by omega)]
        exact List.Perm.swap _ _ _
      · rw [List.flatMap_cons, ends_same (H := H) (fun x hx => (l2 x hx).trans (l1 x (List.mem_cons_of_mem _ hx))),
          ends_eq (q := q2) (r := r') (by dsimp only; rw [g3, l1 d List.mem_cons_self]; exact k1) (by dsimp only; rw [g4, e1, List.getLast?_cons_of_ne_nil hne]; exact h2)]
        rw [List.perm_iff_count]
        intro x
        have := hp.count_eq x
        simp only [List.count_append, List.count_cons, List.count_nil, neg_neg] at this ⊢
        omega
    · rw [h2] at h
      obtain rfl := Option.some_inj.1 h
      rcases hm with ⟨_, rfl, h'⟩ | ⟨h', _, _⟩
      swap
      · omega
      rw [k1] at h'
      obtain rfl := Option.some_inj.1 h'
      obtain ⟨w1, l1, e1⟩ := w.pushB h2 ha
      obtain ⟨H', e, w2, l2, g3, g4⟩ := w1.joinBF (u := p) (v := q2) (by rw [e1]; simp) (by rw [l1 d List.mem_cons_self]; exact k1) (a := c.b) (b := d.f)
        (Or.inl ⟨rfl, rfl⟩)
      rw [e]
      refine ⟨H', [], none, rfl, ⟨⟨c.f, d.b, c.l⟩ :: C, ?_, ?_⟩, fun _ => rfl⟩
      · rw [List.append_nil]
        refine w2.permX ?_
        unfold dir step
        rw [if_neg (Ne.symm hb), if_pos rfl, if_neg (by omega)]
        exact List.Perm.swap _ _ _
      · rw [List.flatMap_cons, ends_same (H := H) (fun x hx => (l2 x hx).trans (l1 x (List.mem_cons_of_mem _ hx))),
          ends_eq (q := q') (r := r2) (by dsimp only; rw [g3, e1, List.head?_append_of_ne_nil _ hne]; exact h1) (by dsimp only; rw [g4, l1 d List.mem_cons_self]; exact k2)]
        rw [List.perm_iff_count]
        intro x
        have := hp.count_eq x
        simp only [List.count_append, List.count_cons, List.count_nil, neg_neg] at this ⊢
        omega

end Verif.ArbForm
