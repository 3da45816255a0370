import Verif.Proofs.FrSim
/-!
# Polygons without holes: new lines and the links to closed holes
-/
namespace Verif.Fr
open Verif.ArbForm Verif.F45 Verif.Spec
open Verif.Arb (Pt)
open Verif.Deg45 (V45)

variable {H' H : Heap} {φ : Nat → Nat} {K : List (Chain × Chain)}

theorem Ch.same {H H1 : Heap} {C : List Chain} (h : Ch H C) (s : SameH H H1) : Ch H1 C where
  nd := h.nd
  ndl := h.ndl
  fr c hc := by rw [(s.t _).1, (s.t _).2.1, (s.t _).2.2]; exact h.fr c hc
  bk c hc := by rw [(s.t _).1, (s.t _).2.1, (s.t _).2.2]; exact h.bk c hc
  ne c hc := by rw [s.line]; exact h.ne c hc
  fresh := by rw [s.ft, s.fl]; exact h.fresh

theorem addHole_facts {H : Heap} {t h b : Nat} (hb : (H.tail h).other = b) (f1 : h ≠ b) (hth : t ≠ h) (htb : t ≠ b) :
    SameH H (H.addHole t h) ∧ ∀ n, n ≠ h → n ≠ b → ((H.addHole t h).tail n).holes =
      if n = t then (H.tail t).holes ++ (h :: ((H.tail h).holes ++ (H.tail b).holes)) else (H.tail n).holes := by
  have e0 : H.addHole t h = ((H.setHoles t ((H.tail t).holes ++ [h])).copyHoles t h).copyHoles t b := by
    unfold Heap.addHole
    dsimp only
    rw [((SameH.setHoles H t ((H.tail t).holes ++ [h])).t h).2.1, hb]
  refine ⟨by rw [e0]; exact ((SameH.setHoles _ _ _).trans (SameH.copy _ _ _)).trans (SameH.copy _ _ _), ?_⟩
  intro n h1 h2
  rw [e0, copy_holes, if_neg h2]
  by_cases hn : n = t
  · rw [if_pos hn, if_pos hn, copy_holes, if_neg hth, if_pos rfl, setHoles_holes, if_pos rfl, setHoles_holes, if_neg (Ne.symm hth), copy_holes,
      if_neg (Ne.symm f1), if_neg (Ne.symm htb), setHoles_holes, if_neg (Ne.symm htb)]
    simp
  · rw [if_neg hn, if_neg hn, copy_holes, if_neg h1, if_neg hn, setHoles_holes, if_neg hn]

/-- The chain of a new pair of tails. -/
def newC (H : Heap) (solid : Bool) : Chain := if solid then ⟨H.ft, H.ft + 1, H.fl⟩ else ⟨H.ft + 1, H.ft, H.fl⟩

theorem newPair_tail {H : Heap} {p : Pt} {solid : Bool} {n : Nat} (hn : n < H.ft) : (H.newPair p solid).tail n = H.tail n := by
  unfold Heap.newPair
  dsimp only
  rw [if_neg (by omega), if_neg (by omega)]

theorem newPair_line {H : Heap} {p : Pt} {solid : Bool} {n : Nat} (hn : n < H.fl) : (H.newPair p solid).line n = H.line n := by
  unfold Heap.newPair
  dsimp only
  rw [if_neg (by omega)]

theorem newC_l (H : Heap) (solid : Bool) : (newC H solid).l = H.fl := by unfold newC; cases solid <;> rfl

theorem newPair_holes {H : Heap} {p : Pt} {solid : Bool} : Chain.holes (H.newPair p solid) (newC H solid) = [] := by
  unfold Chain.holes newC Heap.newPair
  cases solid <;> simp

theorem newPair_new {H : Heap} {p : Pt} {solid : Bool} : (H.newPair p solid).line (newC H solid).l = [p] := by
  rw [newC_l]
  unfold Heap.newPair
  simp

/-- Chains as they were in a heap with a new pair. -/
theorem old_end {H : Heap} {p : Pt} {solid : Bool} {C : List Chain} (h : Ch H C) {d : Chain} (hd : d ∈ C) {u : Nat} (hu : u ∈ d.tails) :
    endp (H.newPair p solid) u = endp H u := by
  have h1 : u < H.ft ∧ (H.tail u).line < H.fl := by
    simp only [Chain.tails, List.mem_cons, List.not_mem_nil, or_false] at hu
    have := h.fresh d hd
    rcases hu with rfl | rfl
    · rw [(h.fr d hd).1]; omega
    · rw [(h.bk d hd).1]; omega
  unfold endp
  rw [newPair_tail h1.1, newPair_line h1.2]

/-- A pair of tails in both heaps. -/
theorem Sim.newPair (s : Sim H' H φ K) (p : Pt) (solid : Bool) {ψ : Nat → Nat} (hψ : ∀ n, n < H.ft → ψ n = φ n) (h0 : ψ H.ft = H'.ft) (h1 : ψ (H.ft + 1) = H'.ft + 1) :
    Sim (H'.newPair p solid) (H.newPair p solid) ψ ((newC H solid, newC H' solid) :: K) := by
  have ca : Ch (H.newPair p solid) (newC H solid :: K.map Prod.fst) := s.a.newPair p solid
  have cb : Ch (H'.newPair p solid) (newC H' solid :: K.map Prod.snd) := s.b.newPair p solid
  have hh : ∀ k ∈ K, Chain.holes (H.newPair p solid) k.1 = Chain.holes H k.1 := by
    intro k hk
    have := s.a.fresh k.1 (Sim.m1 hk)
    unfold Chain.holes
    rw [newPair_tail this.1, newPair_tail this.2.1]
  have hh' : ∀ k ∈ K, Chain.holes (H'.newPair p solid) k.2 = Chain.holes H' k.2 := by
    intro k hk
    have := s.b.fresh k.2 (Sim.m2 hk)
    unfold Chain.holes
    rw [newPair_tail this.1, newPair_tail this.2.1]
  refine ⟨ca, cb, ?_, ?_, ?_, ?_⟩
  · intro k hk
    rcases List.mem_cons.1 hk with rfl | hk
    · unfold newC
      cases solid
      · exact ⟨h1, h0⟩
      · exact ⟨h0, h1⟩
    · have := s.a.fresh k.1 (Sim.m1 hk)
      rw [hψ _ this.1, hψ _ this.2.1]
      exact s.co k hk
  · intro k hk h hm
    rcases List.mem_cons.1 hk with rfl | hk
    · rw [newPair_holes] at hm; cases hm
    · rw [hh k hk] at hm
      obtain ⟨g1, g2, g3⟩ := s.hol k hk h hm
      rw [newPair_tail g1]
      refine ⟨show h < H.ft + 2 by omega, show _ < H.fl + 1 by omega, fun d hd => ?_⟩
      rcases List.mem_cons.1 hd with rfl | hd
      · dsimp only; rw [newC_l]; omega
      · exact g3 d hd
  · intro k hk
    rcases List.mem_cons.1 hk with rfl | hk
    · exact newPair_holes
    · rw [hh' k hk]; exact s.nh k hk
  · intro k hk
    rcases List.mem_cons.1 hk with rfl | hk
    · dsimp only
      rw [newPair_new, newPair_new]
      refine (WR.one p).congr (fun q => ?_)
      unfold hw
      rw [newPair_holes]; rfl
    · rw [newPair_line (s.a.fresh k.1 (Sim.m1 hk)).2.2, newPair_line (s.b.fresh k.2 (Sim.m2 hk)).2.2]
      refine (s.w k hk).congr (fun q => ?_)
      unfold hw
      rw [hh k hk]
      congr 1
      apply List.map_congr_left
      intro h hm
      obtain ⟨g1, g2, g3⟩ := s.hol k hk h hm
      unfold Heap.ring
      rw [newPair_tail g1, newPair_line g2]

/-- All ends of the lines of a closed hole are on one vertical. -/
def Vt (x : Int) (H' H : Heap) (k : Chain × Chain) : Prop :=
  ∀ e, (endp H k.1.f = some e ∨ endp H k.1.b = some e ∨ endp H' k.2.f = some e ∨ endp H' k.2.b = some e) → e.1 = x

/-- The vertical through a point. -/
def vkey (x : Int) : V45 := ⟨(x, 0), 2, 0⟩

theorem on_vkey {x : Int} {e : Pt} : On (vkey x) e ↔ e.1 = x := by unfold On vkey; simp

theorem lnk_vert {x : Int} (q : ℚ × ℚ) {a b : Option Pt} (ha : ∀ e, a = some e → e.1 = x) (hb : ∀ e, b = some e → e.1 = x) : lnk q a b = 0 := by
  rcases a with _ | a
  · rfl
  rcases b with _ | b
  · rfl
  exact PolySet.crossing_vert ((ha a rfl).trans (hb b rfl).symm) q

theorem WR.vert {S : ℚ × ℚ → Int} {m l : List Pt} (h : WR S m l) {x : Int} (h1 : ∀ e, m.head? = some e → e.1 = x) (h2 : ∀ e, m.getLast? = some e → e.1 = x)
    (h3 : ∀ e, l.head? = some e → e.1 = x) (h4 : ∀ e, l.getLast? = some e → e.1 = x) (q : ℚ × ℚ) : wnd q m = wnd q l + S q := by
  rw [h.w, lnk_vert q h1 h3, lnk_vert q h4 h2]; ring

/-- A point on one end of the line that runs around holes only. -/
theorem Sim.push' (s : Sim H' H φ K) {k : Chain × Chain} (hk : k ∈ K) {t t' : Nat} (ht : Side k t t') {v : V45} (hr : Rise v.rise) {p : Pt} (hp : On v p)
    (ho : ∀ e, endp H t = some e ∨ endp H' t' = some e → On v e) : Sim (Form45.push H' t' p) H φ K := by
  have hne : ∀ (H : Heap) (l : Nat) (ps : List Pt) (n : Nat), n ≠ l → (H.setLine l ps).line n = H.line n := fun H l ps n hn => by rw [setLine_line, if_neg hn]
  rcases ht with ⟨rfl, rfl⟩ | ⟨rfl, rfl⟩
  · rw [s.a.endF (Sim.m1 hk), s.b.endF (Sim.m2 hk)] at ho
    rw [s.b.pushF (Sim.m2 hk)]
    refine s.relines hk rfl rfl rfl rfl rfl rfl (fun _ _ => rfl) (hne _ _ _) ?_
    rw [setLine_line, if_pos rfl]
    exact (s.w k hk).frontL hr hp (fun a ha => ho a (Or.inr ha)) (fun a ha => ho a (Or.inl ha))
  · rw [s.a.endB (Sim.m1 hk), s.b.endB (Sim.m2 hk)] at ho
    rw [s.b.pushB (Sim.m2 hk)]
    refine s.relines hk rfl rfl rfl rfl rfl rfl (fun _ _ => rfl) (hne _ _ _) ?_
    rw [setLine_line, if_pos rfl]
    exact (s.w k hk).backL hr hp (fun a ha => ho a (Or.inr ha)) (fun a ha => ho a (Or.inl ha))

/-- `SameH` and a hole added: the holes of the chains. -/
theorem holes_of {H H1 : Heap} {d : Chain} (h1 : (H1.tail d.f).holes = (H.tail d.f).holes) (h2 : (H1.tail d.b).holes = (H.tail d.b).holes) : Chain.holes H1 d = Chain.holes H d := by
  unfold Chain.holes; rw [h1, h2]

/-- A hole begins at the vertex above a closed hole: the line of the closed hole, with both ends at the vertex, stands for the new line. -/
theorem Sim.slit {k : Chain × Chain} (s : Sim H' H φ (k :: K)) {p : Pt} (h1 : endp H' k.2.f = some p) (h2 : endp H' k.2.b = some p)
    (h3 : ∀ e, endp H k.1.f = some e → e.1 = p.1) (h4 : ∀ e, endp H k.1.b = some e → e.1 = p.1) {ψ : Nat → Nat} (hψ : ∀ n, n < H.ft → ψ n = φ n) (e0 : ψ H.ft = k.2.b)
    (e1 : ψ (H.ft + 1) = k.2.f) :
    Sim H' ((H.newPair p false).addHole (H.ft + 1) k.1.b) ψ ((⟨H.ft + 1, H.ft, H.fl⟩, k.2) :: K) := by
  have sa := s.a
  have sb := s.b
  simp only [List.map_cons] at sa sb
  have mk : k ∈ k :: K := List.mem_cons_self
  have ck : k.1 ∈ k.1 :: K.map Prod.fst := List.mem_cons_self
  have md : ∀ d ∈ K, d ∈ k :: K := fun d hd => List.mem_cons_of_mem _ hd
  have ca : Ch (H.newPair p false) (⟨H.ft + 1, H.ft, H.fl⟩ :: k.1 :: K.map Prod.fst) := sa.newPair p false
  have fk := sa.fresh k.1 ck
  have hb : ((H.newPair p false).tail k.1.b).other = k.1.f := by rw [newPair_tail fk.2.1]; exact (sa.bk k.1 ck).2.1
  obtain ⟨sm, eh⟩ := addHole_facts (t := H.ft + 1) hb (Ne.symm (sa.fb ck)) (by omega) (by omega)
  have hnew : Chain.holes ((H.newPair p false).addHole (H.ft + 1) k.1.b) ⟨H.ft + 1, H.ft, H.fl⟩ = k.1.b :: ((H.tail k.1.b).holes ++ (H.tail k.1.f).holes) := by
    unfold Chain.holes
    dsimp only
    rw [eh _ (by omega) (by omega), if_pos rfl, eh _ (by omega) (by omega), if_neg (by omega), newPair_tail fk.1, newPair_tail fk.2.1]
    unfold Heap.newPair
    simp
  have hold : ∀ d ∈ K, Chain.holes ((H.newPair p false).addHole (H.ft + 1) k.1.b) d.1 = Chain.holes H d.1 := by
    intro d hd
    have fd := sa.fresh d.1 (List.mem_cons_of_mem _ (Sim.m1 hd))
    have ne : ∀ u ∈ d.1.tails, u ≠ k.1.b ∧ u ≠ k.1.f := by
      intro u hu
      have hdk : d ≠ k := by
        rintro rfl
        have := (List.nodup_cons.1 (by simpa only [List.map_cons] using sa.ndl)).1
        exact this (List.mem_map.2 ⟨d.1, Sim.m1 hd, rfl⟩)
      constructor
      · rintro rfl
        exact hdk (s.a.uniq (md d hd) mk hu (by simp [Chain.tails]))
      · rintro rfl
        exact hdk (s.a.uniq (md d hd) mk hu (by simp [Chain.tails]))
    have n1 := ne d.1.f (by simp [Chain.tails])
    have n2 := ne d.1.b (by simp [Chain.tails])
    refine holes_of ?_ ?_
    · rw [eh _ n1.1 n1.2, if_neg (by omega), newPair_tail fd.1]
    · rw [eh _ n2.1 n2.2, if_neg (by omega), newPair_tail fd.2.1]
  have hring : ∀ h, h < H.ft → (H.tail h).line < H.fl → ((H.newPair p false).addHole (H.ft + 1) k.1.b).ring h = H.ring h := by
    intro h g1 g2
    rw [ring_same sm]
    unfold Heap.ring
    rw [newPair_tail g1, newPair_line g2]
  have hholk : ∀ h ∈ k.1.b :: ((H.tail k.1.b).holes ++ (H.tail k.1.f).holes), h < H.ft ∧ (H.tail h).line < H.fl ∧ ∀ d ∈ K, (H.tail h).line ≠ d.1.l := by
    intro h hm
    rcases List.mem_cons.1 hm with rfl | hm
    · rw [(sa.bk k.1 ck).1]
      exact ⟨fk.2.1, fk.2.2, fun d hd => Ne.symm (sa.lne d.1 (Sim.m1 hd))⟩
    · have : h ∈ Chain.holes H k.1 := by
        unfold Chain.holes
        rw [List.mem_append] at hm ⊢
        exact hm.symm
      obtain ⟨g1, g2, g3⟩ := s.hol k mk h this
      exact ⟨g1, g2, fun d hd => g3 d (md d hd)⟩
  have key : ∀ h, (h < H.ft ∧ (H.tail h).line < H.fl ∧ ∀ d ∈ K, (H.tail h).line ≠ d.1.l) →
      h < ((H.newPair p false).addHole (H.ft + 1) k.1.b).ft ∧ (((H.newPair p false).addHole (H.ft + 1) k.1.b).tail h).line < ((H.newPair p false).addHole (H.ft + 1) k.1.b).fl ∧
      ∀ d ∈ ((⟨H.ft + 1, H.ft, H.fl⟩, k.2) : Chain × Chain) :: K, (((H.newPair p false).addHole (H.ft + 1) k.1.b).tail h).line ≠ d.1.l := by
    rintro h ⟨g1, g2, g3⟩
    rw [sm.ft, sm.fl, (sm.t h).1, newPair_tail g1]
    refine ⟨show h < H.ft + 2 by omega, show _ < H.fl + 1 by omega, fun d hd => ?_⟩
    rcases List.mem_cons.1 hd with rfl | hd
    · dsimp only; omega
    · exact g3 d hd
  refine ⟨?_, sb, ?_, ?_, ?_, ?_⟩
  · exact (ca.sub (List.Sublist.cons_cons _ (List.sublist_cons_self _ _))).same sm
  · intro d hd
    rcases List.mem_cons.1 hd with rfl | hd
    · exact ⟨e1, e0⟩
    · have fd := sa.fresh d.1 (List.mem_cons_of_mem _ (Sim.m1 hd))
      rw [hψ _ fd.1, hψ _ fd.2.1]
      exact s.co d (md d hd)
  · intro d hd h hm
    rcases List.mem_cons.1 hd with rfl | hd
    · rw [hnew] at hm
      exact key h (hholk h hm)
    · rw [hold d hd] at hm
      obtain ⟨g1, g2, g3⟩ := s.hol d (md d hd) h hm
      exact key h ⟨g1, g2, fun c hc => g3 c (md c hc)⟩
  · intro d hd
    rcases List.mem_cons.1 hd with rfl | hd
    · exact s.nh k mk
    · exact s.nh d (md d hd)
  · intro d hd
    rcases List.mem_cons.1 hd with rfl | hd
    · have wk := s.w k mk
      rw [sb.endF List.mem_cons_self] at h1
      rw [sb.endB List.mem_cons_self] at h2
      rw [sa.endF ck] at h3
      rw [sa.endB ck] at h4
      have hl : ((H.newPair p false).addHole (H.ft + 1) k.1.b).line H.fl = [p] := by
        rw [sm.line]
        unfold Heap.newPair
        simp
      dsimp only
      rw [hl]
      refine ⟨wk.mne, by simp, fun q => ?_, wk.o⟩
      have hv := wk.vert (x := p.1) (fun e he => by rw [h1] at he; cases he; rfl) (fun e he => by rw [h2] at he; cases he; rfl) h3 h4 q
      rw [hv, h1, h2]
      have e1 : lnk q (some p) [p].head? = 0 := crossing_same q p
      have e2 : lnk q [p].getLast? (some p) = 0 := crossing_same q p
      have e3 : wnd q [p] = 0 := rfl
      rw [e1, e2, e3]
      have e4 : hw ((H.newPair p false).addHole (H.ft + 1) k.1.b) ⟨H.ft + 1, H.ft, H.fl⟩ q = wnd q (H.line k.1.l) + hw H k.1 q := by
        unfold hw
        rw [hnew]
        have : (k.1.b :: ((H.tail k.1.b).holes ++ (H.tail k.1.f).holes)).map (fun h => wnd q (((H.newPair p false).addHole (H.ft + 1) k.1.b).ring h)) =
            (k.1.b :: ((H.tail k.1.b).holes ++ (H.tail k.1.f).holes)).map (fun h => wnd q (H.ring h)) := by
          apply List.map_congr_left
          intro h hm
          rw [hring h (hholk h hm).1 (hholk h hm).2.1]
        rw [this, List.map_cons, List.sum_cons]
        congr 1
        · unfold Heap.ring
          rw [(sa.bk k.1 ck).1]
        · exact sum_perm_map (by unfold Chain.holes; exact List.perm_append_comm) _
      rw [e4]; ring
    · rw [sm.line, newPair_line (sa.fresh d.1 (List.mem_cons_of_mem _ (Sim.m1 hd))).2.2]
      refine (s.w d (md d hd)).congr (fun q => ?_)
      unfold hw
      rw [hold d hd]
      congr 1
      apply List.map_congr_left
      intro h hm
      obtain ⟨g1, g2, g3⟩ := s.hol d (md d hd) h hm
      rw [hring h g1 g2]

/-- The line of a closed hole is put before the line of the edge above it. -/
theorem Sim.link {kh kt : Chain × Chain} (s : Sim H' H φ (kh :: kt :: K)) {m : Pt} (h1 : endp H' kh.2.f = some m) (h2 : endp H' kt.2.f = some m)
    (h3 : ∀ e, endp H kh.1.f = some e → e.1 = m.1) (h4 : ∀ e, endp H kh.1.b = some e → e.1 = m.1) (h5 : ∀ e, endp H' kh.2.b = some e → e.1 = m.1)
    {H1' : Heap} (j : Joined H' H1' kh.2 kt.2) {ψ : Nat → Nat} (hψ : ∀ n, n ≠ kt.1.f → ψ n = φ n) (e0 : ψ kt.1.f = kh.2.f) :
    Sim H1' (H.addHole kt.1.f kh.1.b) ψ ((kt.1, ⟨kh.2.f, kt.2.b, kh.2.l⟩) :: K) := by
  have sa := s.a
  have sb := s.b
  simp only [List.map_cons] at sa sb
  have mh : kh ∈ kh :: kt :: K := List.mem_cons_self
  have mt : kt ∈ kh :: kt :: K := List.mem_cons_of_mem _ List.mem_cons_self
  have md : ∀ d ∈ K, d ∈ kh :: kt :: K := fun d hd => List.mem_cons_of_mem _ (List.mem_cons_of_mem _ hd)
  have ch : kh.1 ∈ kh.1 :: kt.1 :: K.map Prod.fst := List.mem_cons_self
  have ct : kt.1 ∈ kh.1 :: kt.1 :: K.map Prod.fst := List.mem_cons_of_mem _ List.mem_cons_self
  obtain ⟨⟨n1, n2, n3, n4, n5, n6⟩, hap⟩ := sa.apart
  obtain ⟨-, hap'⟩ := sb.apart
  obtain ⟨sm, eh⟩ := addHole_facts (t := kt.1.f) (sa.bk kh.1 ch).2.1 (Ne.symm n1) (Ne.symm n4) (Ne.symm n2)
  have hnew : (Chain.holes (H.addHole kt.1.f kh.1.b) kt.1).Perm (kh.1.b :: (Chain.holes H kh.1 ++ Chain.holes H kt.1)) := by
    unfold Chain.holes
    rw [eh _ (Ne.symm n4) (Ne.symm n2), if_pos rfl, eh _ (Ne.symm n5) (Ne.symm n3), if_neg (Ne.symm n6)]
    rw [List.perm_iff_count]
    intro z
    simp only [List.count_append, List.count_cons]
    omega
  have hold : ∀ d ∈ K, Chain.holes (H.addHole kt.1.f kh.1.b) d.1 = Chain.holes H d.1 := by
    intro d hd
    have a := hap d.1 (Sim.m1 hd) d.1.f (by simp [Chain.tails])
    have b := hap d.1 (Sim.m1 hd) d.1.b (by simp [Chain.tails])
    refine holes_of ?_ ?_
    · rw [eh _ a.2.1 a.1, if_neg a.2.2.1]
    · rw [eh _ b.2.1 b.1, if_neg b.2.2.1]
  have key : ∀ h, (h < H.ft ∧ (H.tail h).line < H.fl ∧ ∀ d ∈ kt :: K, (H.tail h).line ≠ d.1.l) →
      h < (H.addHole kt.1.f kh.1.b).ft ∧ ((H.addHole kt.1.f kh.1.b).tail h).line < (H.addHole kt.1.f kh.1.b).fl ∧
      ∀ d ∈ ((kt.1, ⟨kh.2.f, kt.2.b, kh.2.l⟩) : Chain × Chain) :: K, ((H.addHole kt.1.f kh.1.b).tail h).line ≠ d.1.l := by
    rintro h ⟨g1, g2, g3⟩
    rw [sm.ft, sm.fl, (sm.t h).1]
    refine ⟨g1, g2, fun d hd => ?_⟩
    rcases List.mem_cons.1 hd with rfl | hd
    · exact g3 kt List.mem_cons_self
    · exact g3 d (List.mem_cons_of_mem _ hd)
  have hold' : ∀ d ∈ K, Chain.holes H1' d.2 = Chain.holes H' d.2 := by
    intro d hd
    have a := hap' d.2 (Sim.m2 hd) d.2.f (by simp [Chain.tails])
    have b := hap' d.2 (Sim.m2 hd) d.2.b (by simp [Chain.tails])
    unfold Chain.holes
    rw [j.tail _ a.1 a.2.1 a.2.2.1 a.2.2.2, j.tail _ b.1 b.2.1 b.2.2.1 b.2.2.2]
  have hall : ∀ d ∈ kh :: kt :: K, ∀ h ∈ Chain.holes H d.1, h < H.ft ∧ (H.tail h).line < H.fl ∧ ∀ d ∈ kt :: K, (H.tail h).line ≠ d.1.l := by
    intro d hd h hm
    obtain ⟨g1, g2, g3⟩ := s.hol d hd h hm
    exact ⟨g1, g2, fun c hc => g3 c (List.mem_cons_of_mem _ hc)⟩
  refine ⟨?_, sb.joined j, ?_, ?_, ?_, ?_⟩
  · exact (sa.sub (List.sublist_cons_self _ _)).same sm
  · intro d hd
    rcases List.mem_cons.1 hd with rfl | hd
    · exact ⟨e0, by dsimp only; rw [hψ _ (Ne.symm n6)]; exact (s.co kt mt).2⟩
    · have a := hap d.1 (Sim.m1 hd) d.1.f (by simp [Chain.tails])
      have b := hap d.1 (Sim.m1 hd) d.1.b (by simp [Chain.tails])
      rw [hψ _ a.2.2.1, hψ _ b.2.2.1]
      exact s.co d (md d hd)
  · intro d hd h hm
    rcases List.mem_cons.1 hd with rfl | hd
    · rcases List.mem_cons.1 (hnew.mem_iff.1 hm) with rfl | hm
      · refine key _ ?_
        rw [(sa.bk kh.1 ch).1]
        refine ⟨(sa.fresh kh.1 ch).2.1, (sa.fresh kh.1 ch).2.2, fun d hd => ?_⟩
        refine Ne.symm (sa.lne d.1 ?_)
        rcases List.mem_cons.1 hd with rfl | hd
        · exact List.mem_cons_self
        · exact List.mem_cons_of_mem _ (Sim.m1 hd)
      · rcases List.mem_append.1 hm with hm | hm
        · exact key h (hall kh mh h hm)
        · exact key h (hall kt mt h hm)
    · rw [hold d hd] at hm
      exact key h (hall d (md d hd) h hm)
  · intro d hd
    rcases List.mem_cons.1 hd with rfl | hd
    · have := j.holes
      rw [s.nh _ mh, s.nh _ mt] at this
      exact this.eq_nil
    · rw [hold' d hd]
      exact s.nh d (md d hd)
  · intro d hd
    rcases List.mem_cons.1 hd with rfl | hd
    · have wh := s.w kh mh
      have wt := s.w kt mt
      dsimp only
      rw [j.line, if_pos rfl, sm.line]
      rw [sb.endF List.mem_cons_self] at h1
      rw [sb.endF (List.mem_cons_of_mem _ List.mem_cons_self)] at h2
      rw [sa.endF ch] at h3
      rw [sa.endB ch] at h4
      rw [sb.endB List.mem_cons_self] at h5
      refine ⟨by simp [wh.mne], wt.lne, fun q => ?_, ?_⟩
      · have hv := wh.vert (x := m.1) (fun e he => by rw [h1] at he; cases he; rfl) h5 h3 h4 q
        have hl : lnk q (H'.line kh.2.l).getLast? (H'.line kt.2.l).head? = 0 := lnk_vert q h5 (fun e he => by rw [h2] at he; cases he; rfl)
        rw [wnd_append, hl, hv, wt.w q, List.head?_append_of_ne_nil _ wh.mne, List.getLast?_append_of_ne_nil _ wt.mne, h1, h2]
        have e4 : hw (H.addHole kt.1.f kh.1.b) kt.1 q = wnd q (H.line kh.1.l) + (hw H kh.1 q + hw H kt.1 q) := by
          unfold hw
          rw [sum_perm_map hnew, List.map_cons, List.sum_cons, List.map_append, List.sum_append]
          simp only [ring_same sm]
          congr 2
          unfold Heap.ring
          rw [(sa.bk kh.1 ch).1]
        rw [e4]; ring
      · rw [oct_append]
        refine ⟨wh.o, ?_, wt.o⟩
        obtain ⟨a, ha⟩ := last_some wh.mne
        rw [ha, h2]
        exact Or.inl (h5 a ha)
    · rw [j.line, if_neg (sb.lne d.2 (List.mem_cons_of_mem _ (Sim.m2 hd))), sm.line]
      refine (s.w d (md d hd)).congr (fun q => ?_)
      unfold hw
      rw [hold d hd]
      simp only [ring_same sm]

end Verif.Fr
