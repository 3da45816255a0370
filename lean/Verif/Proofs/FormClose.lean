import Verif.Proofs.FormHeap
/-!
# Closing and opening chains
-/
namespace Verif.ArbForm
open Verif.Arb Verif.Contains Verif.Spec.Arb

theorem flatMap_holes_same {H H1 : Heap} {C : List Chain} (h : ∀ c ∈ C, Chain.holes H1 c = Chain.holes H c) :
    C.flatMap (Chain.holes H1) = C.flatMap (Chain.holes H) := List.flatMap_congr h

theorem WebC.closeOut {H : Heap} {c : Chain} {C : List Chain} {out : List Poly} {X : List Edge} (w : WebC H (c :: C) none out X)
    {a b : Nat} (hab : (a = c.f ∧ b = c.b) ∨ (a = c.b ∧ b = c.f)) (hr : Ring (H.line c.l)) :
    WebC (H.copyHoles a b) C none (out ++ [(H.copyHoles a b).poly a]) X ∧ (H.copyHoles a b).line = H.line := by
  have hnd := w.nd
  simp only [List.flatMap_cons, Chain.tails, List.cons_append, List.nil_append, List.nodup_cons, List.mem_cons, not_or] at hnd
  obtain ⟨⟨n1, n2⟩, m1, hndC⟩ := hnd
  have hne : a ≠ b := by rcases hab with ⟨rfl, rfl⟩ | ⟨rfl, rfl⟩; exacts [n1, Ne.symm n1]
  have hnC : a ∉ C.flatMap Chain.tails ∧ b ∉ C.flatMap Chain.tails := by
    rcases hab with ⟨rfl, rfl⟩ | ⟨rfl, rfl⟩; exacts [⟨n2, m1⟩, ⟨m1, n2⟩]
  have hm : c ∈ c :: C := List.mem_cons_self
  have hl : (H.tail a).line = c.l := by
    rcases hab with ⟨rfl, rfl⟩ | ⟨rfl, rfl⟩; exacts [(w.fr c hm).1, (w.bk c hm).1]
  have hhc : (Chain.holes H c).Perm ((H.tail a).holes ++ (H.tail b).holes) := by
    rcases hab with ⟨rfl, rfl⟩ | ⟨rfl, rfl⟩; exacts [List.Perm.refl _, List.perm_append_comm]
  have s := SameH.copy H a b
  have e1 : ((H.copyHoles a b).tail a).holes = (H.tail a).holes ++ (H.tail b).holes := by rw [copy_holes, if_neg hne, if_pos rfl]
  have eC : ∀ d ∈ C, Chain.holes (H.copyHoles a b) d = Chain.holes H d := by
    intro d hd
    have hf : d.f ∈ C.flatMap Chain.tails := List.mem_flatMap.2 ⟨d, hd, by simp [Chain.tails]⟩
    have hb : d.b ∈ C.flatMap Chain.tails := List.mem_flatMap.2 ⟨d, hd, by simp [Chain.tails]⟩
    unfold Chain.holes
    have g1 : d.f ≠ a := fun h => hnC.1 (h ▸ hf)
    have g2 : d.f ≠ b := fun h => hnC.2 (h ▸ hf)
    have g3 : d.b ≠ a := fun h => hnC.1 (h ▸ hb)
    have g4 : d.b ≠ b := fun h => hnC.2 (h ▸ hb)
    rw [copy_holes, copy_holes, if_neg g2, if_neg g1, if_neg g4, if_neg g3]
  have ek : closedHoles (H.copyHoles a b) C none = closedHoles H C none := by
    unfold closedHoles; rw [flatMap_holes_same eC]; rfl
  have eK : (closedHoles H (c :: C) none).Perm (((H.tail a).holes ++ (H.tail b).holes) ++ closedHoles H C none) := by
    unfold closedHoles
    rw [List.flatMap_cons]
    simp only [float, List.append_nil]
    exact hhc.append_right _
  have hsub : ∀ h ∈ closedHoles H C none, h ∈ closedHoles H (c :: C) none := fun h hh => eK.mem_iff.2 (List.mem_append_right _ hh)
  have hring : ∀ h ∈ (H.tail a).holes ++ (H.tail b).holes, Ring (H.ring h) := fun h hh => (w.kh h (eK.mem_iff.2 (List.mem_append_left _ hh))).2.2.2
  refine ⟨⟨hndC, (List.nodup_cons.1 (by simpa only [List.map_cons] using w.ndl)).2, ?_, ?_, ?_, ?_, by simp, ?_, ?_, ?_⟩, s.line⟩
  · intro d hd; rw [(s.t _).1, (s.t _).2.1, (s.t _).2.2]; exact w.fr d (List.mem_cons_of_mem _ hd)
  · intro d hd; rw [(s.t _).1, (s.t _).2.1, (s.t _).2.2]; exact w.bk d (List.mem_cons_of_mem _ hd)
  · intro d hd; rw [s.line]; exact w.ne d (List.mem_cons_of_mem _ hd)
  · intro d hd; rw [s.ft, s.fl]; exact w.fresh d (List.mem_cons_of_mem _ hd)
  · intro h hh
    rw [ek] at hh
    obtain ⟨a1, a2, a3, a4⟩ := w.kh h (hsub h hh)
    rw [s.ft, s.fl, (s.t _).1, ring_same s]
    exact ⟨a1, a2, fun d hd => a3 d (List.mem_cons_of_mem _ hd), a4⟩
  · have hp : ((H.copyHoles a b).poly a).sides = sides (H.line c.l) ++ ((H.tail a).holes ++ (H.tail b).holes).flatMap (fun h => sides (H.ring h)) := by
      unfold Poly.sides Heap.poly
      dsimp only
      rw [s.line, (s.t a).1, hl, e1, List.flatMap_map]
      congr 1
      apply List.flatMap_congr
      intro h _
      rw [(s.t h).1]; rfl
    have g := w.acc
    refine List.Perm.trans ?_ g
    rw [ek, List.flatMap_append, List.flatMap_singleton, hp, s.line]
    have e3 : (fun h => sides ((H.copyHoles a b).ring h)) = fun h => sides (H.ring h) := by funext h; rw [ring_same s]
    rw [e3, List.flatMap_cons]
    refine List.Perm.trans ?_ (((eK.flatMap_right (fun h => sides (H.ring h))).symm.append_left _).append_right _)
    simp only [List.flatMap_append]
    generalize List.flatMap (fun d : Chain => sides (H.line d.l)) C = Z3
    generalize sides (H.line c.l) = Z4
    generalize out.flatMap Poly.sides = Z5
    rw [List.perm_iff_count]
    intro e
    simp only [List.count_append]
    omega
  · intro P hP
    rcases List.mem_append.1 hP with hP | hP
    · exact w.ok P hP
    · rw [List.mem_singleton] at hP
      rw [hP]
      unfold Heap.poly
      dsimp only
      rw [s.line, (s.t a).1, hl, e1]
      refine ⟨hr, fun h hh => ?_⟩
      obtain ⟨k, hk, rfl⟩ := List.mem_map.1 hh
      rw [(s.t k).1]; exact hring k hk

theorem WebC.closeHole {H : Heap} {c : Chain} {C : List Chain} {out : List Poly} {X : List Edge} (w : WebC H (c :: C) none out X)
    {a b : Nat} (hab : (a = c.f ∧ b = c.b) ∨ (a = c.b ∧ b = c.f)) (hr : Ring (H.line c.l)) : WebC H C (some a) out X := by
  have hnd := w.nd
  simp only [List.flatMap_cons, Chain.tails, List.cons_append, List.nil_append, List.nodup_cons, List.mem_cons, not_or] at hnd
  obtain ⟨⟨n1, n2⟩, m1, hndC⟩ := hnd
  have hne : a ≠ b := by rcases hab with ⟨rfl, rfl⟩ | ⟨rfl, rfl⟩; exacts [n1, Ne.symm n1]
  have hnC : a ∉ C.flatMap Chain.tails ∧ b ∉ C.flatMap Chain.tails := by
    rcases hab with ⟨rfl, rfl⟩ | ⟨rfl, rfl⟩; exacts [⟨n2, m1⟩, ⟨m1, n2⟩]
  have hm : c ∈ c :: C := List.mem_cons_self
  have hl : (H.tail a).line = c.l ∧ (H.tail a).other = b ∧ a < H.ft ∧ b < H.ft := by
    obtain ⟨f1, f2, _⟩ := w.fr c hm
    obtain ⟨b1, b2, _⟩ := w.bk c hm
    obtain ⟨g1, g2, _⟩ := w.fresh c hm
    rcases hab with ⟨rfl, rfl⟩ | ⟨rfl, rfl⟩; exacts [⟨f1, f2, g1, g2⟩, ⟨b1, b2, g2, g1⟩]
  have hhc : (Chain.holes H c).Perm ((H.tail a).holes ++ (H.tail b).holes) := by
    rcases hab with ⟨rfl, rfl⟩ | ⟨rfl, rfl⟩; exacts [List.Perm.refl _, List.perm_append_comm]
  have hcl : ∀ d ∈ C, c.l ≠ d.l := by
    intro d hd h
    exact (List.nodup_cons.1 (by simpa only [List.map_cons] using w.ndl)).1 (List.mem_map.2 ⟨d, hd, h.symm⟩)
  have eK : (closedHoles H C (some a)).Perm (a :: closedHoles H (c :: C) none) := by
    unfold closedHoles float
    dsimp only
    rw [List.flatMap_cons, hl.2.1]
    rw [List.append_nil]
    refine List.perm_middle.trans (List.Perm.cons _ ?_)
    exact List.perm_append_comm.trans (hhc.symm.append_right _)
  have era : H.ring a = H.line c.l := by unfold Heap.ring; rw [hl.1]
  refine ⟨hndC, (List.nodup_cons.1 (by simpa only [List.map_cons] using w.ndl)).2, fun d hd => w.fr d (List.mem_cons_of_mem _ hd),
    fun d hd => w.bk d (List.mem_cons_of_mem _ hd), fun d hd => w.ne d (List.mem_cons_of_mem _ hd), fun d hd => w.fresh d (List.mem_cons_of_mem _ hd), ?_, ?_, ?_, w.ok⟩
  · intro h hh
    have := Option.some_inj.1 hh
    subst this
    rw [hl.2.1]
    exact ⟨hne, hl.2.2.1, hl.2.2.2, fun d hd => ⟨fun hc => hnC.1 (List.mem_flatMap.2 ⟨d, hd, hc⟩), fun hc => hnC.2 (List.mem_flatMap.2 ⟨d, hd, hc⟩)⟩⟩
  · intro h hh
    rcases List.mem_cons.1 (eK.mem_iff.1 hh) with rfl | hh
    · refine ⟨hl.2.2.1, ?_, ?_, ?_⟩
      · rw [hl.1]; exact (w.fresh c hm).2.2
      · rw [hl.1]; exact hcl
      · rw [era]; exact hr
    · obtain ⟨a1, a2, a3, a4⟩ := w.kh h hh
      exact ⟨a1, a2, fun d hd => a3 d (List.mem_cons_of_mem _ hd), a4⟩
  · refine List.Perm.trans ?_ w.acc
    refine (((eK.flatMap_right (fun h => sides (H.ring h))).append_left _).append_right _).trans ?_
    rw [List.flatMap_cons, List.flatMap_cons, era]
    rw [List.perm_iff_count]
    intro e
    simp only [List.count_append]
    omega

/-- The chain of a new pair. -/
def newChain (H : Heap) (solid : Bool) : Chain := if solid then ⟨H.ft, H.ft + 1, H.fl⟩ else ⟨H.ft + 1, H.ft, H.fl⟩

theorem WebC.newPair {H : Heap} {C : List Chain} {F : Option Nat} {out : List Poly} {X : List Edge} (w : WebC H C F out X) (p : Pt) (solid : Bool) :
    WebC (H.newPair p solid) (newChain H solid :: C) F out X ∧ (∀ d ∈ C, (H.newPair p solid).line d.l = H.line d.l) ∧
      (H.newPair p solid).line (newChain H solid).l = [p] := by
  have et : ∀ n, n < H.ft → (H.newPair p solid).tail n = H.tail n := by
    intro n hn; unfold Heap.newPair; dsimp only; rw [if_neg (by omega), if_neg (by omega)]
  have t1 : (H.newPair p solid).tail H.ft = ⟨H.fl, H.ft + 1, [], solid⟩ := by unfold Heap.newPair; simp
  have t2 : (H.newPair p solid).tail (H.ft + 1) = ⟨H.fl, H.ft, [], !solid⟩ := by unfold Heap.newPair; simp
  have el : ∀ n, n < H.fl → (H.newPair p solid).line n = H.line n := by
    intro n hn; unfold Heap.newPair; dsimp only; rw [if_neg (by omega)]
  have l1 : (H.newPair p solid).line H.fl = [p] := by unfold Heap.newPair; simp
  have hcl : (newChain H solid).l = H.fl := by unfold newChain; cases solid <;> rfl
  have ht : ∀ t ∈ (newChain H solid).tails, t = H.ft ∨ t = H.ft + 1 := by
    intro t ht
    unfold newChain Chain.tails at ht
    cases solid <;> simp at ht <;> tauto
  have ehC : ∀ d ∈ C, Chain.holes (H.newPair p solid) d = Chain.holes H d := by
    intro d hd
    unfold Chain.holes
    rw [et _ (w.fresh d hd).1, et _ (w.fresh d hd).2.1]
  have eh1 : Chain.holes (H.newPair p solid) (newChain H solid) = [] := by
    unfold Chain.holes newChain
    cases solid <;> simp [t1, t2]
  have ef : float (H.newPair p solid) F = float H F := by
    cases F with
    | none => rfl
    | some h =>
      obtain ⟨_, f2, f3, _⟩ := w.fh h rfl
      unfold float
      dsimp only
      rw [et h f2, et _ f3]
  have ek : closedHoles (H.newPair p solid) (newChain H solid :: C) F = closedHoles H C F := by
    unfold closedHoles
    rw [List.flatMap_cons, eh1, flatMap_holes_same ehC, ef, List.nil_append]
  have er : ∀ h ∈ closedHoles H C F, (H.newPair p solid).ring h = H.ring h := by
    intro h hh
    obtain ⟨a1, a2, _, _⟩ := w.kh h hh
    unfold Heap.ring
    rw [et h a1, el _ a2]
  have hft : (H.newPair p solid).ft = H.ft + 2 := rfl
  have hfl : (H.newPair p solid).fl = H.fl + 1 := rfl
  refine ⟨⟨?_, ?_, ?_, ?_, ?_, ?_, ?_, ?_, ?_, w.ok⟩, fun d hd => el _ (w.fresh d hd).2.2, by rw [hcl]; exact l1⟩
  · rw [List.flatMap_cons, List.nodup_append]
    refine ⟨?_, w.nd, ?_⟩
    · unfold newChain Chain.tails; cases solid <;> simp
    · intro t h1 u h2 hc
      subst hc
      obtain ⟨d, hd, hdt⟩ := List.mem_flatMap.1 h2
      have hb := w.fresh d hd
      have : t < H.ft := by
        unfold Chain.tails at hdt
        rcases List.mem_cons.1 hdt with rfl | h
        · exact hb.1
        · rw [List.mem_singleton] at h; rw [h]; exact hb.2.1
      rcases ht t h1 with h | h <;> omega
  · rw [List.map_cons, List.nodup_cons]
    refine ⟨fun h => ?_, w.ndl⟩
    obtain ⟨d, hd, hdl⟩ := List.mem_map.1 h
    have := (w.fresh d hd).2.2
    omega
  · intro d hd
    rcases List.mem_cons.1 hd with rfl | hd
    · unfold newChain; cases solid <;> simp [t1, t2]
    · rw [et _ (w.fresh d hd).1]; exact w.fr d hd
  · intro d hd
    rcases List.mem_cons.1 hd with rfl | hd
    · unfold newChain; cases solid <;> simp [t1, t2]
    · rw [et _ (w.fresh d hd).2.1]; exact w.bk d hd
  · intro d hd
    rcases List.mem_cons.1 hd with rfl | hd
    · rw [hcl, l1]; simp
    · rw [el _ (w.fresh d hd).2.2]; exact w.ne d hd
  · intro d hd
    rw [hft, hfl]
    rcases List.mem_cons.1 hd with rfl | hd
    · unfold newChain; cases solid <;> simp
    · have := w.fresh d hd; omega
  · intro h hh
    obtain ⟨f1, f2, f3, f4⟩ := w.fh h hh
    rw [et h f2, hft]
    refine ⟨f1, by omega, by omega, fun d hd => ?_⟩
    rcases List.mem_cons.1 hd with rfl | hd
    · exact ⟨fun hc => by rcases ht _ hc with h | h <;> omega, fun hc => by rcases ht _ hc with h | h <;> omega⟩
    · exact f4 d hd
  · intro h hh
    rw [ek] at hh
    obtain ⟨a1, a2, a3, a4⟩ := w.kh h hh
    rw [er h hh, et h a1, hft, hfl]
    refine ⟨by omega, by omega, fun d hd => ?_, a4⟩
    rcases List.mem_cons.1 hd with rfl | hd
    · rw [hcl]; omega
    · exact a3 d hd
  · refine List.Perm.trans ?_ w.acc
    rw [ek, List.flatMap_congr (f := fun h => sides ((H.newPair p solid).ring h)) (g := fun h => sides (H.ring h)) (fun h hh => by rw [er h hh]),
      List.flatMap_cons, List.flatMap_congr (f := fun d : Chain => sides ((H.newPair p solid).line d.l)) (g := fun d : Chain => sides (H.line d.l))
      (fun d hd => by rw [el _ (w.fresh d hd).2.2]), hcl, l1, sides_one, List.nil_append]

theorem WebC.addHole {H : Heap} {C : List Chain} {h : Nat} {out : List Poly} {X : List Edge} (w : WebC H C (some h) out X) {t : Nat}
    (ht : t ∈ C.flatMap Chain.tails) : WebC (H.addHole t h) C none out X ∧ (H.addHole t h).line = H.line := by
  obtain ⟨f1, f2, f3, f4⟩ := w.fh h rfl
  obtain ⟨c, hc, htc⟩ := List.mem_flatMap.1 ht
  generalize hb : (H.tail h).other = b at *
  have hth : t ≠ h := fun e => (f4 c hc).1 (e ▸ htc)
  have htb : t ≠ b := fun e => (f4 c hc).2 (e ▸ htc)
  have e0 : H.addHole t h = ((H.setHoles t ((H.tail t).holes ++ [h])).copyHoles t h).copyHoles t b := by
    unfold Heap.addHole
    dsimp only
    rw [((SameH.setHoles H t ((H.tail t).holes ++ [h])).t h).2.1, hb]
  have s : SameH H (H.addHole t h) := by
    rw [e0]; exact ((SameH.setHoles _ _ _).trans (SameH.copy _ _ _)).trans (SameH.copy _ _ _)
  have eh : ∀ n, n ≠ h → n ≠ b → ((H.addHole t h).tail n).holes =
      if n = t then (H.tail t).holes ++ [h] ++ (H.tail h).holes ++ (H.tail b).holes else (H.tail n).holes := by
    intro n h1 h2
    rw [e0, copy_holes, if_neg h2]
    by_cases hn : n = t
    · rw [if_pos hn, if_pos hn, copy_holes, if_neg hth, if_pos rfl, setHoles_holes, if_pos rfl, setHoles_holes, if_neg (Ne.symm hth), copy_holes,
        if_neg (Ne.symm f1), if_neg (Ne.symm htb), setHoles_holes, if_neg (Ne.symm htb)]
    · rw [if_neg hn, if_neg hn, copy_holes, if_neg h1, if_neg hn, setHoles_holes, if_neg hn]
  have htl : ∀ d ∈ C, ∀ u ∈ d.tails, u ≠ h ∧ u ≠ b := fun d hd u hu => ⟨fun e => (f4 d hd).1 (e ▸ hu), fun e => (f4 d hd).2 (e ▸ hu)⟩
  -- the holes of all chains
  have eC : ∀ C' : List Chain, (∀ d ∈ C', d ∈ C) → (C'.flatMap Chain.tails).Nodup →
      (C'.flatMap (Chain.holes (H.addHole t h))).Perm (C'.flatMap (Chain.holes H) ++ if t ∈ C'.flatMap Chain.tails then float H (some h) else []) := by
    intro C'
    induction C' with
    | nil => intro _ _; simp
    | cons d C' ih =>
      intro hs hnd
      have ih := ih (fun d' hd' => hs d' (List.mem_cons_of_mem _ hd'))
      have hdC := hs d List.mem_cons_self
      rw [List.flatMap_cons, List.nodup_append] at hnd
      obtain ⟨hn1, hn2, hn3⟩ := hnd
      have ih := ih hn2
      have hdf := htl d hdC d.f (by simp [Chain.tails])
      have hdb := htl d hdC d.b (by simp [Chain.tails])
      have hfb : d.f ≠ d.b := by unfold Chain.tails at hn1; simpa using hn1
      have ed : Chain.holes (H.addHole t h) d = (if d.f = t then (H.tail t).holes ++ [h] ++ (H.tail h).holes ++ (H.tail b).holes else (H.tail d.f).holes) ++
          (if d.b = t then (H.tail t).holes ++ [h] ++ (H.tail h).holes ++ (H.tail b).holes else (H.tail d.b).holes) := by
        unfold Chain.holes; rw [eh _ hdf.1 hdf.2, eh _ hdb.1 hdb.2]
      have ef : float H (some h) = h :: ((H.tail h).holes ++ (H.tail b).holes) := by unfold float; dsimp only; rw [hb]
      simp only [List.flatMap_cons]
      refine (ih.append_left _).trans ?_
      rw [ed, ef]
      unfold Chain.holes
      by_cases h1 : d.f = t
      · have h2 : d.b ≠ t := fun e => hfb (h1.trans e.symm)
        have h3 : t ∉ C'.flatMap Chain.tails := fun hm => hn3 t (by rw [← h1]; simp [Chain.tails]) t hm rfl
        rw [if_pos h1, if_neg h2, if_neg h3, if_pos (List.mem_append_left _ (by rw [← h1]; simp [Chain.tails])), h1]
        rw [List.perm_iff_count]; intro e
        simp only [List.count_append, List.count_cons, List.count_nil]; omega
      · by_cases h2 : d.b = t
        · have h3 : t ∉ C'.flatMap Chain.tails := fun hm => hn3 t (by rw [← h2]; simp [Chain.tails]) t hm rfl
          rw [if_neg h1, if_pos h2, if_neg h3, if_pos (List.mem_append_left _ (by rw [← h2]; simp [Chain.tails])), h2]
          rw [List.perm_iff_count]; intro e
          simp only [List.count_append, List.count_cons, List.count_nil]; omega
        · rw [if_neg h1, if_neg h2]
          have : t ∈ d.tails ++ C'.flatMap Chain.tails ↔ t ∈ C'.flatMap Chain.tails := by
            rw [List.mem_append]
            constructor
            · rintro (hm | hm)
              · unfold Chain.tails at hm; simp at hm; rcases hm with e | e
                · exact absurd e.symm h1
                · exact absurd e.symm h2
              · exact hm
            · exact Or.inr
          by_cases h3 : t ∈ C'.flatMap Chain.tails
          · rw [if_pos h3, if_pos (this.2 h3)]; simp
          · rw [if_neg h3, if_neg (fun h => h3 (this.1 h))]; simp
  have ek : (closedHoles (H.addHole t h) C none).Perm (closedHoles H C (some h)) := by
    have := eC C (fun d hd => hd) w.nd
    rw [if_pos ht] at this
    unfold closedHoles
    rw [show float (H.addHole t h) none = [] from rfl, List.append_nil]
    exact this
  refine ⟨⟨w.nd, w.ndl, ?_, ?_, ?_, ?_, by simp, ?_, ?_, w.ok⟩, s.line⟩
  · intro d hd; rw [(s.t _).1, (s.t _).2.1, (s.t _).2.2]; exact w.fr d hd
  · intro d hd; rw [(s.t _).1, (s.t _).2.1, (s.t _).2.2]; exact w.bk d hd
  · intro d hd; rw [s.line]; exact w.ne d hd
  · intro d hd; rw [s.ft, s.fl]; exact w.fresh d hd
  · intro k hk
    obtain ⟨a1, a2, a3, a4⟩ := w.kh k (ek.mem_iff.1 hk)
    rw [s.ft, s.fl, (s.t _).1, ring_same s]
    exact ⟨a1, a2, a3, a4⟩
  · refine List.Perm.trans ?_ w.acc
    rw [s.line]
    have e3 : (fun k => sides ((H.addHole t h).ring k)) = fun k => sides (H.ring k) := by funext k; rw [ring_same s]
    rw [e3]
    exact ((ek.flatMap_right _).append_left _).append_right _

end Verif.ArbForm
