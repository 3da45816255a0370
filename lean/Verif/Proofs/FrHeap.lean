import Verif.Proofs.FrLine
/-!
# Polygons without holes: chains
-/
namespace Verif.Fr
open Verif.ArbForm Verif.F45
open Verif.Arb (Pt)

/-- Lines with their two ends. -/
structure Ch (H : Heap) (C : List Chain) : Prop where
  nd : (C.flatMap Chain.tails).Nodup
  ndl : (C.map Chain.l).Nodup
  fr : ∀ c ∈ C, (H.tail c.f).line = c.l ∧ (H.tail c.f).other = c.b ∧ (H.tail c.f).head = true
  bk : ∀ c ∈ C, (H.tail c.b).line = c.l ∧ (H.tail c.b).other = c.f ∧ (H.tail c.b).head = false
  ne : ∀ c ∈ C, H.line c.l ≠ []
  fresh : ∀ c ∈ C, c.f < H.ft ∧ c.b < H.ft ∧ c.l < H.fl

theorem Ch.perm {H : Heap} {C C' : List Chain} (h : Ch H C) (p : C.Perm C') : Ch H C' where
  nd := (p.flatMap_right _).nodup_iff.1 h.nd
  ndl := (p.map _).nodup_iff.1 h.ndl
  fr c hc := h.fr c (p.mem_iff.2 hc)
  bk c hc := h.bk c (p.mem_iff.2 hc)
  ne c hc := h.ne c (p.mem_iff.2 hc)
  fresh c hc := h.fresh c (p.mem_iff.2 hc)

theorem Ch.sub {H : Heap} {C C' : List Chain} (h : Ch H C) (p : C'.Sublist C) : Ch H C' where
  nd := by
    refine h.nd.sublist ?_
    clear h
    induction p with
    | slnil => exact List.Sublist.refl _
    | cons a s ih => rw [List.flatMap_cons]; exact ih.trans (List.sublist_append_right _ _)
    | cons_cons a s ih => rw [List.flatMap_cons, List.flatMap_cons]; exact ih.append_left _
  ndl := h.ndl.sublist (p.map _)
  fr c hc := h.fr c (p.subset hc)
  bk c hc := h.bk c (p.subset hc)
  ne c hc := h.ne c (p.subset hc)
  fresh c hc := h.fresh c (p.subset hc)

theorem Ch.lne {H : Heap} {c : Chain} {C : List Chain} (h : Ch H (c :: C)) : ∀ d ∈ C, d.l ≠ c.l := by
  intro d hd hc
  have := (List.nodup_cons.1 (by simpa only [List.map_cons] using h.ndl)).1
  exact this (List.mem_map.2 ⟨d, hd, hc⟩)

/-- A heap with the same tails and lines that are not empty. -/
theorem Ch.lines {H H1 : Heap} {C : List Chain} (h : Ch H C) (ht : H1.tail = H.tail) (h1 : H1.ft = H.ft) (h2 : H1.fl = H.fl) (hn : ∀ c ∈ C, H1.line c.l ≠ []) : Ch H1 C where
  nd := h.nd
  ndl := h.ndl
  fr := by rw [ht]; exact h.fr
  bk := by rw [ht]; exact h.bk
  ne := hn
  fresh := by rw [h1, h2]; exact h.fresh

theorem Ch.pushF {H : Heap} {C : List Chain} (h : Ch H C) {c : Chain} (hc : c ∈ C) (p : Pt) : Form45.push H c.f p = H.setLine c.l (Form45.pushFront p (H.line c.l)) := by
  unfold Form45.push
  dsimp only
  rw [(h.fr c hc).1, if_pos (h.fr c hc).2.2]

theorem Ch.pushB {H : Heap} {C : List Chain} (h : Ch H C) {c : Chain} (hc : c ∈ C) (p : Pt) :
    Form45.push H c.b p = H.setLine c.l (Form45.pushFront p (H.line c.l).reverse).reverse := by
  unfold Form45.push
  dsimp only
  rw [(h.bk c hc).1, if_neg (by rw [(h.bk c hc).2.2]; simp)]

theorem setLine_line (H : Heap) (l : Nat) (ps : List Pt) (n : Nat) : (H.setLine l ps).line n = if n = l then ps else H.line n := rfl

/-- What becomes of the heap when two lines are joined. -/
structure Joined (H H1 : Heap) (A B : Chain) : Prop where
  line : ∀ n, H1.line n = if n = A.l then H.line A.l ++ H.line B.l else H.line n
  ft : H1.ft = H.ft
  fl : H1.fl = H.fl
  tail : ∀ n, n ≠ A.f → n ≠ A.b → n ≠ B.f → n ≠ B.b → H1.tail n = H.tail n
  tf : (H1.tail A.f).line = A.l ∧ (H1.tail A.f).other = B.b ∧ (H1.tail A.f).head = (H.tail A.f).head
  tb : (H1.tail B.b).line = A.l ∧ (H1.tail B.b).other = A.f ∧ (H1.tail B.b).head = (H.tail B.b).head
  holes : (Chain.holes H1 ⟨A.f, B.b, A.l⟩).Perm (Chain.holes H A ++ Chain.holes H B)

theorem Ch.apart {H : Heap} {A B : Chain} {C : List Chain} (h : Ch H (A :: B :: C)) :
    (A.f ≠ A.b ∧ A.f ≠ B.f ∧ A.f ≠ B.b ∧ A.b ≠ B.f ∧ A.b ≠ B.b ∧ B.f ≠ B.b) ∧ ∀ d ∈ C, ∀ t ∈ d.tails, t ≠ A.f ∧ t ≠ A.b ∧ t ≠ B.f ∧ t ≠ B.b := by
  have hnd := h.nd
  simp only [List.flatMap_cons, Chain.tails, List.cons_append, List.nil_append, List.nodup_cons, List.mem_cons, not_or] at hnd
  obtain ⟨⟨n1, n2, n3, n4⟩, ⟨m1, m2, m3⟩, ⟨k1, k2⟩, j1, hndC⟩ := hnd
  refine ⟨⟨n1, n2, n3, m1, m2, k1⟩, ?_⟩
  intro d hd t ht
  have : t ∈ C.flatMap Chain.tails := List.mem_flatMap.2 ⟨d, hd, ht⟩
  exact ⟨fun h => n4 (h ▸ this), fun h => m3 (h ▸ this), fun h => k2 (h ▸ this), fun h => j1 (h ▸ this)⟩

theorem Ch.join {H : Heap} {A B : Chain} {C : List Chain} (h : Ch H (A :: B :: C)) {a b : Nat} (hab : (a = A.b ∧ b = B.f) ∨ (a = B.f ∧ b = A.b)) :
    Joined H (Form45.join H a b) A B := by
  obtain ⟨⟨n1, n2, n3, m1, m2, k1⟩, -⟩ := h.apart
  have hm1 : A ∈ A :: B :: C := List.mem_cons_self
  have hm2 : B ∈ A :: B :: C := List.mem_cons_of_mem _ List.mem_cons_self
  obtain ⟨f11, f12, f13⟩ := h.fr A hm1
  obtain ⟨b11, b12, b13⟩ := h.bk A hm1
  obtain ⟨f21, f22, f23⟩ := h.fr B hm2
  obtain ⟨b21, b22, b23⟩ := h.bk B hm2
  have hj : Form45.join H a b = (((H.copyHoles B.b A.b).copyHoles B.b B.f).setLine A.l (H.line A.l ++ H.line B.l)).link A.f B.b A.l := by
    rcases hab with ⟨rfl, rfl⟩ | ⟨rfl, rfl⟩
    · unfold Form45.join
      rw [if_neg (by rw [b12]; exact Ne.symm n2), if_neg (by rw [f23, b13]; simp)]
      simp only [b12, f22, f13, b13, b11, f21, Bool.not_true, Bool.false_eq_true, if_false]
      rfl
    · unfold Form45.join
      rw [if_neg (by rw [f22]; exact m2), if_neg (by rw [f23, b13]; simp)]
      simp only [b12, f22, b23, f23, b11, f21, Bool.not_false, if_true]
      rw [link_comm _ _ (Ne.symm n3)]
      rfl
  rw [hj]
  have s : SameH H ((H.copyHoles B.b A.b).copyHoles B.b B.f) := (SameH.copy _ _ _).trans (SameH.copy _ _ _)
  generalize hH1 : (H.copyHoles B.b A.b).copyHoles B.b B.f = H1 at s
  refine ⟨fun n => ?_, s.ft, s.fl, fun n h1 h2 h3 h4 => ?_, ?_, ?_, ?_⟩
  · unfold Heap.link Heap.setLine
    dsimp only
    rw [s.line]
  · unfold Heap.link Heap.setLine
    dsimp only
    rw [if_neg h1, if_neg h4, ← hH1]
    unfold Heap.copyHoles Heap.setHoles
    simp [h2, h3, h4]
  · unfold Heap.link Heap.setLine
    dsimp only
    rw [if_pos rfl]
    exact ⟨rfl, rfl, (s.t _).2.2⟩
  · unfold Heap.link Heap.setLine
    dsimp only
    rw [if_neg (Ne.symm n3), if_pos rfl]
    exact ⟨rfl, rfl, (s.t _).2.2⟩
  · have e1 : ∀ n, (((H1.setLine A.l (H.line A.l ++ H.line B.l)).link A.f B.b A.l).tail n).holes = (H1.tail n).holes := by
      intro n
      unfold Heap.link Heap.setLine
      dsimp only
      by_cases c1 : n = A.f
      · rw [if_pos c1]
      · rw [if_neg c1]
        by_cases c2 : n = B.b
        · rw [if_pos c2]
        · rw [if_neg c2]
    unfold Chain.holes
    dsimp only
    rw [e1, e1, ← hH1]
    simp only [copy_holes]
    simp only [n1, n2, n3, k1, Ne.symm k1, Ne.symm m2, Ne.symm m1, if_false, if_true]
    simp only [List.append_assoc]
    apply List.Perm.append_left
    refine List.perm_append_comm.trans ?_
    rw [List.append_assoc]

theorem Ch.joined {H H1 : Heap} {A B : Chain} {C : List Chain} (h : Ch H (A :: B :: C)) (j : Joined H H1 A B) : Ch H1 (⟨A.f, B.b, A.l⟩ :: C) := by
  obtain ⟨⟨n1, n2, n3, m1, m2, k1⟩, hC⟩ := h.apart
  have hm1 : A ∈ A :: B :: C := List.mem_cons_self
  have hm2 : B ∈ A :: B :: C := List.mem_cons_of_mem _ List.mem_cons_self
  have hmC : ∀ d ∈ C, d ∈ A :: B :: C := fun d hd => List.mem_cons_of_mem _ (List.mem_cons_of_mem _ hd)
  have hnd := h.nd
  simp only [List.flatMap_cons, Chain.tails, List.cons_append, List.nil_append, List.nodup_cons, List.mem_cons, not_or] at hnd
  have hl := h.ndl
  simp only [List.map_cons, List.nodup_cons, List.mem_cons, not_or] at hl
  have et : ∀ d ∈ C, H1.tail d.f = H.tail d.f ∧ H1.tail d.b = H.tail d.b := by
    intro d hd
    have a := hC d hd d.f (by simp [Chain.tails])
    have b := hC d hd d.b (by simp [Chain.tails])
    exact ⟨j.tail _ a.1 a.2.1 a.2.2.1 a.2.2.2, j.tail _ b.1 b.2.1 b.2.2.1 b.2.2.2⟩
  refine ⟨?_, ?_, ?_, ?_, ?_, ?_⟩
  · simp only [List.flatMap_cons, Chain.tails, List.cons_append, List.nil_append, List.nodup_cons, List.mem_cons, not_or]
    exact ⟨⟨n3, hnd.1.2.2.2⟩, hnd.2.2.2.1, hnd.2.2.2.2⟩
  · simp only [List.map_cons, List.nodup_cons]
    exact ⟨hl.1.2, hl.2.2⟩
  · intro d hd
    rcases List.mem_cons.1 hd with rfl | hd
    · exact ⟨j.tf.1, j.tf.2.1, j.tf.2.2.trans (h.fr A hm1).2.2⟩
    · rw [(et d hd).1]; exact h.fr d (hmC d hd)
  · intro d hd
    rcases List.mem_cons.1 hd with rfl | hd
    · exact ⟨j.tb.1, j.tb.2.1, j.tb.2.2.trans (h.bk B hm2).2.2⟩
    · rw [(et d hd).2]; exact h.bk d (hmC d hd)
  · intro d hd
    rw [j.line]
    by_cases c : d.l = A.l
    · rw [if_pos c]; simp [h.ne A hm1]
    · rw [if_neg c]
      rcases List.mem_cons.1 hd with rfl | hd
      · exact absurd rfl c
      · exact h.ne d (hmC d hd)
  · intro d hd
    rw [j.ft, j.fl]
    rcases List.mem_cons.1 hd with rfl | hd
    · exact ⟨(h.fresh A hm1).1, (h.fresh B hm2).2.1, (h.fresh A hm1).2.2⟩
    · exact h.fresh d (hmC d hd)

/-- A new pair of tails. -/
theorem Ch.newPair {H : Heap} {C : List Chain} (h : Ch H C) (p : Pt) (solid : Bool) :
    Ch (H.newPair p solid) ((if solid then ⟨H.ft, H.ft + 1, H.fl⟩ else ⟨H.ft + 1, H.ft, H.fl⟩ : Chain) :: C) := by
  have et : ∀ n, n < H.ft → (H.newPair p solid).tail n = H.tail n := by
    intro n hn
    unfold Heap.newPair
    dsimp only
    rw [if_neg (by omega), if_neg (by omega)]
  have el : ∀ n, n < H.fl → (H.newPair p solid).line n = H.line n := by
    intro n hn
    unfold Heap.newPair
    dsimp only
    rw [if_neg (by omega)]
  have ft : (H.newPair p solid).ft = H.ft + 2 := rfl
  have fl : (H.newPair p solid).fl = H.fl + 1 := rfl
  have hlt : ∀ t ∈ C.flatMap Chain.tails, t < H.ft := by
    intro t ht
    obtain ⟨c, hc, ht⟩ := List.mem_flatMap.1 ht
    simp only [Chain.tails, List.mem_cons, List.not_mem_nil, or_false] at ht
    have := h.fresh c hc
    omega
  have n0 : H.ft ∉ C.flatMap Chain.tails := fun hn => Nat.lt_irrefl _ (hlt _ hn)
  have n1 : H.ft + 1 ∉ C.flatMap Chain.tails := fun hn => by have := hlt _ hn; omega
  have nl : H.fl ∉ C.map Chain.l := by
    intro hn
    obtain ⟨c, hc, e⟩ := List.mem_map.1 hn
    have := h.fresh c hc
    omega
  have key : ∀ c : Chain, (c = ⟨H.ft, H.ft + 1, H.fl⟩ ∧ solid = true) ∨ (c = ⟨H.ft + 1, H.ft, H.fl⟩ ∧ solid = false) → Ch (H.newPair p solid) (c :: C) := by
    intro c hc
    refine ⟨?_, ?_, ?_, ?_, ?_, ?_⟩
    · rw [List.flatMap_cons]
      rcases hc with ⟨rfl, -⟩ | ⟨rfl, -⟩
      · simp only [Chain.tails, List.cons_append, List.nil_append, List.nodup_cons, List.mem_cons, not_or]
        exact ⟨⟨by omega, n0⟩, n1, h.nd⟩
      · simp only [Chain.tails, List.cons_append, List.nil_append, List.nodup_cons, List.mem_cons, not_or]
        exact ⟨⟨by omega, n1⟩, n0, h.nd⟩
    · rw [List.map_cons, List.nodup_cons]
      refine ⟨?_, h.ndl⟩
      rcases hc with ⟨rfl, -⟩ | ⟨rfl, -⟩ <;> exact nl
    · intro d hd
      rcases List.mem_cons.1 hd with rfl | hd
      · rcases hc with ⟨rfl, hs⟩ | ⟨rfl, hs⟩ <;> simp [Heap.newPair, hs]
      · rw [et _ (h.fresh d hd).1]; exact h.fr d hd
    · intro d hd
      rcases List.mem_cons.1 hd with rfl | hd
      · rcases hc with ⟨rfl, hs⟩ | ⟨rfl, hs⟩ <;> simp [Heap.newPair, hs]
      · rw [et _ (h.fresh d hd).2.1]; exact h.bk d hd
    · intro d hd
      rcases List.mem_cons.1 hd with rfl | hd
      · rcases hc with ⟨rfl, hs⟩ | ⟨rfl, hs⟩ <;> simp [Heap.newPair]
      · rw [el _ (h.fresh d hd).2.2]; exact h.ne d hd
    · intro d hd
      rw [ft, fl]
      rcases List.mem_cons.1 hd with rfl | hd
      · rcases hc with ⟨rfl, hs⟩ | ⟨rfl, hs⟩ <;> dsimp only <;> omega
      · have := h.fresh d hd
        omega
  cases solid with
  | true => exact key _ (Or.inl ⟨rfl, rfl⟩)
  | false => exact key _ (Or.inr ⟨rfl, rfl⟩)

/-- The point at which the line of a tail ends. -/
def endp (H : Heap) (t : Nat) : Option Pt := if (H.tail t).head then (H.line (H.tail t).line).head? else (H.line (H.tail t).line).getLast?

theorem Ch.endF {H : Heap} {C : List Chain} (h : Ch H C) {c : Chain} (hc : c ∈ C) : endp H c.f = (H.line c.l).head? := by
  unfold endp
  rw [if_pos (h.fr c hc).2.2, (h.fr c hc).1]

theorem Ch.endB {H : Heap} {C : List Chain} (h : Ch H C) {c : Chain} (hc : c ∈ C) : endp H c.b = (H.line c.l).getLast? := by
  unfold endp
  rw [if_neg (by rw [(h.bk c hc).2.2]; simp), (h.bk c hc).1]

end Verif.Fr
namespace Verif.Fr
open Verif.ArbForm Verif.F45
open Verif.Arb (Pt)

theorem Ch.uniq {α : Type} {H : Heap} {g : α → Chain} {K : List α} (h : Ch H (K.map g)) {k d : α} (hk : k ∈ K) (hd : d ∈ K) {t : Nat} (h1 : t ∈ (g k).tails) (h2 : t ∈ (g d).tails) :
    k = d := by
  have hn := h.nd
  rw [List.flatMap_map, List.nodup_flatMap] at hn
  by_contra hne
  have : Std.Symm (Function.onFun List.Disjoint (fun a : α => (g a).tails)) := ⟨fun a b hab => List.disjoint_symm hab⟩
  have := hn.2.forall hk hd hne
  exact this h1 h2

theorem Ch.uniqL {α : Type} {H : Heap} {g : α → Chain} {K : List α} (h : Ch H (K.map g)) {k d : α} (hk : k ∈ K) (hd : d ∈ K) (hl : (g k).l = (g d).l) : k = d := by
  have hn := h.ndl
  rw [List.map_map] at hn
  exact List.inj_on_of_nodup_map hn hk hd hl

theorem Ch.fb {H : Heap} {C : List Chain} (h : Ch H C) {c : Chain} (hc : c ∈ C) : c.f ≠ c.b := by
  intro e
  have h1 := (h.fr c hc).2.2
  rw [e, (h.bk c hc).2.2] at h1
  cases h1

theorem Ch.push {H : Heap} {C : List Chain} (h : Ch H C) {c : Chain} (hc : c ∈ C) {t : Nat} (ht : t ∈ c.tails) (p : Pt) :
    Ch (Form45.push H t p) C ∧ endp (Form45.push H t p) t = some p ∧ ∀ d ∈ C, ∀ u ∈ d.tails, u ≠ t → endp (Form45.push H t p) u = endp H u := by
  have hC : Ch H (C.map id) := by simpa using h
  have key : ∀ ps : List Pt, ps ≠ [] → Ch (H.setLine c.l ps) C ∧ ∀ d ∈ C, d ≠ c → (H.setLine c.l ps).line d.l = H.line d.l := by
    intro ps hps
    refine ⟨h.lines rfl rfl rfl (fun d hd => ?_), fun d hd hne => ?_⟩
    · rw [setLine_line]
      by_cases e : d.l = c.l
      · rw [if_pos e]; exact hps
      · rw [if_neg e]; exact h.ne d hd
    · rw [setLine_line, if_neg]
      intro e
      exact hne (hC.uniqL hd hc e)
  have hne := h.ne c hc
  simp only [Chain.tails, List.mem_cons, List.not_mem_nil, or_false] at ht
  rcases ht with rfl | rfl
  · rw [h.pushF hc]
    obtain ⟨k1, k2⟩ := key (Form45.pushFront p (H.line c.l)) (push_ne _ _)
    refine ⟨k1, ?_, ?_⟩
    · rw [k1.endF hc, setLine_line, if_pos rfl, push_head]
    · intro d hd u hu hne'
      simp only [Chain.tails, List.mem_cons, List.not_mem_nil, or_false] at hu
      by_cases e : d = c
      · subst e
        rcases hu with rfl | rfl
        · exact absurd rfl hne'
        · rw [k1.endB hd, h.endB hd, setLine_line, if_pos rfl, push_last hne]
      · rcases hu with rfl | rfl
        · rw [k1.endF hd, h.endF hd, k2 d hd e]
        · rw [k1.endB hd, h.endB hd, k2 d hd e]
  · rw [h.pushB hc]
    have hr : (H.line c.l).reverse ≠ [] := by simpa using hne
    obtain ⟨k1, k2⟩ := key (Form45.pushFront p (H.line c.l).reverse).reverse (by simpa using push_ne p _)
    refine ⟨k1, ?_, ?_⟩
    · rw [k1.endB hc, setLine_line, if_pos rfl, List.getLast?_reverse, push_head]
    · intro d hd u hu hne'
      simp only [Chain.tails, List.mem_cons, List.not_mem_nil, or_false] at hu
      by_cases e : d = c
      · subst e
        rcases hu with rfl | rfl
        · rw [k1.endF hd, h.endF hd, setLine_line, if_pos rfl, List.head?_reverse, push_last hr, List.getLast?_reverse]
        · exact absurd rfl hne'
      · rcases hu with rfl | rfl
        · rw [k1.endF hd, h.endF hd, k2 d hd e]
        · rw [k1.endB hd, h.endB hd, k2 d hd e]

theorem Ch.joined_end {H H1 : Heap} {A B : Chain} {C : List Chain} (h : Ch H (A :: B :: C)) (j : Joined H H1 A B) :
    endp H1 A.f = endp H A.f ∧ endp H1 B.b = endp H B.b ∧ ∀ d ∈ C, ∀ u ∈ d.tails, endp H1 u = endp H u := by
  have h1 := h.joined j
  have hm1 : A ∈ A :: B :: C := List.mem_cons_self
  have hm2 : B ∈ A :: B :: C := List.mem_cons_of_mem _ List.mem_cons_self
  have hn : (⟨A.f, B.b, A.l⟩ : Chain) ∈ (⟨A.f, B.b, A.l⟩ : Chain) :: C := List.mem_cons_self
  have eA : H1.line A.l = H.line A.l ++ H.line B.l := by rw [j.line, if_pos rfl]
  refine ⟨?_, ?_, ?_⟩
  · rw [h1.endF hn, h.endF hm1]
    show (H1.line A.l).head? = _
    rw [eA, List.head?_append_of_ne_nil _ (h.ne A hm1)]
  · rw [h1.endB hn, h.endB hm2]
    show (H1.line A.l).getLast? = _
    rw [eA, List.getLast?_append_of_ne_nil _ (h.ne B hm2)]
  · intro d hd u hu
    have hmd : d ∈ A :: B :: C := List.mem_cons_of_mem _ (List.mem_cons_of_mem _ hd)
    have hml : d ∈ (⟨A.f, B.b, A.l⟩ : Chain) :: C := List.mem_cons_of_mem _ hd
    have e : H1.line d.l = H.line d.l := by rw [j.line, if_neg (h.lne d (List.mem_cons_of_mem _ hd))]
    simp only [Chain.tails, List.mem_cons, List.not_mem_nil, or_false] at hu
    rcases hu with rfl | rfl
    · rw [h1.endF hml, h.endF hmd, e]
    · rw [h1.endB hml, h.endB hmd, e]

end Verif.Fr
