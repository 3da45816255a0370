import Verif.Proofs.FrHeap
/-!
# Polygons without holes: the heaps of the two formations
-/
namespace Verif.Fr
open Verif.ArbForm Verif.F45 Verif.Spec
open Verif.Arb (Pt)
open Verif.Deg45 (V45)

/-- The windings of the holes that hang on a chain. -/
def hw (H : Heap) (c : Chain) (q : ℚ × ℚ) : Int := ((Chain.holes H c).map (fun h => wnd q (H.ring h))).sum

/-- The heap with holes `H` and the heap `H'` in which holes are linked to the outlines: `K` are the chains of both, `φ` takes the ends of the one to
those of the other. -/
structure Sim (H' H : Heap) (φ : Nat → Nat) (K : List (Chain × Chain)) : Prop where
  a : Ch H (K.map Prod.fst)
  b : Ch H' (K.map Prod.snd)
  co : ∀ k ∈ K, φ k.1.f = k.2.f ∧ φ k.1.b = k.2.b
  hol : ∀ k ∈ K, ∀ h ∈ Chain.holes H k.1, h < H.ft ∧ (H.tail h).line < H.fl ∧ ∀ d ∈ K, (H.tail h).line ≠ d.1.l
  nh : ∀ k ∈ K, Chain.holes H' k.2 = []
  w : ∀ k ∈ K, WR (hw H k.1) (H'.line k.2.l) (H.line k.1.l)

variable {H' H : Heap} {φ : Nat → Nat} {K : List (Chain × Chain)}

theorem Sim.perm (s : Sim H' H φ K) {K1 : List (Chain × Chain)} (p : K.Perm K1) : Sim H' H φ K1 where
  a := s.a.perm (p.map _)
  b := s.b.perm (p.map _)
  co k hk := s.co k (p.mem_iff.2 hk)
  hol k hk h hh := ⟨(s.hol k (p.mem_iff.2 hk) h hh).1, (s.hol k (p.mem_iff.2 hk) h hh).2.1, fun d hd => (s.hol k (p.mem_iff.2 hk) h hh).2.2 d (p.mem_iff.2 hd)⟩
  nh k hk := s.nh k (p.mem_iff.2 hk)
  w k hk := s.w k (p.mem_iff.2 hk)

theorem Sim.m1 {k : Chain × Chain} (hk : k ∈ K) : k.1 ∈ K.map Prod.fst := List.mem_map.2 ⟨k, hk, rfl⟩
theorem Sim.m2 {k : Chain × Chain} (hk : k ∈ K) : k.2 ∈ K.map Prod.snd := List.mem_map.2 ⟨k, hk, rfl⟩

theorem Sim.congr (s : Sim H' H φ K) {ψ : Nat → Nat} (h : ∀ n, n < H.ft → ψ n = φ n) : Sim H' H ψ K where
  a := s.a
  b := s.b
  co k hk := by
    have := s.a.fresh k.1 (Sim.m1 hk)
    rw [h _ this.1, h _ this.2.1]
    exact s.co k hk
  hol := s.hol
  nh := s.nh
  w := s.w

/-- The lines of one chain change. -/
theorem Sim.relines (s : Sim H' H φ K) {k : Chain × Chain} (hk : k ∈ K) {H1' H1 : Heap} (t1 : H1.tail = H.tail) (ft1 : H1.ft = H.ft) (fl1 : H1.fl = H.fl)
    (t2 : H1'.tail = H'.tail) (ft2 : H1'.ft = H'.ft) (fl2 : H1'.fl = H'.fl) (hl : ∀ n, n ≠ k.1.l → H1.line n = H.line n) (hl' : ∀ n, n ≠ k.2.l → H1'.line n = H'.line n)
    (h : WR (hw H k.1) (H1'.line k.2.l) (H1.line k.1.l)) : Sim H1' H1 φ K := by
  have e1 : ∀ d ∈ K, d ≠ k → H1.line d.1.l = H.line d.1.l := fun d hd hne => hl _ (fun e => hne (s.a.uniqL hd hk e))
  have e2 : ∀ d ∈ K, d ≠ k → H1'.line d.2.l = H'.line d.2.l := fun d hd hne => hl' _ (fun e => hne (s.b.uniqL hd hk e))
  have eh : ∀ c, Chain.holes H1 c = Chain.holes H c := by intro c; unfold Chain.holes; rw [t1]
  have ew : ∀ d ∈ K, ∀ q, hw H1 d.1 q = hw H d.1 q := by
    intro d hd q
    unfold hw
    rw [eh]
    congr 1
    apply List.map_congr_left
    intro h hh
    unfold Heap.ring
    rw [t1, hl _ ((s.hol d hd h hh).2.2 k hk)]
  refine ⟨s.a.lines t1 ft1 fl1 ?_, s.b.lines t2 ft2 fl2 ?_, s.co, ?_, ?_, ?_⟩
  · intro c hc
    obtain ⟨d, hd, rfl⟩ := List.mem_map.1 hc
    by_cases e : d = k
    · rw [e]; exact h.lne
    · rw [e1 d hd e]; exact s.a.ne _ (Sim.m1 hd)
  · intro c hc
    obtain ⟨d, hd, rfl⟩ := List.mem_map.1 hc
    by_cases e : d = k
    · rw [e]; exact h.mne
    · rw [e2 d hd e]; exact s.b.ne _ (Sim.m2 hd)
  · intro d hd g hg
    rw [eh] at hg
    rw [t1, ft1, fl1]
    exact s.hol d hd g hg
  · intro d hd
    have : Chain.holes H1' d.2 = Chain.holes H' d.2 := by unfold Chain.holes; rw [t2]
    rw [this]
    exact s.nh d hd
  · intro d hd
    by_cases e : d = k
    · rw [e]
      exact h.congr (fun q => (ew k hk q).symm)
    · rw [e1 d hd e, e2 d hd e]
      exact (s.w d hd).congr (fun q => (ew d hd q).symm)

/-- The ends of a chain that `φ` takes to each other. -/
def Side (k : Chain × Chain) (t t' : Nat) : Prop := (t = k.1.f ∧ t' = k.2.f) ∨ (t = k.1.b ∧ t' = k.2.b)

theorem Side.m1 {k : Chain × Chain} {t t' : Nat} (h : Side k t t') : t ∈ k.1.tails := by
  unfold Side at h; simp only [Chain.tails, List.mem_cons, List.not_mem_nil, or_false]; omega
theorem Side.m2 {k : Chain × Chain} {t t' : Nat} (h : Side k t t') : t' ∈ k.2.tails := by
  unfold Side at h; simp only [Chain.tails, List.mem_cons, List.not_mem_nil, or_false]; omega

theorem Sim.side (s : Sim H' H φ K) {k : Chain × Chain} (hk : k ∈ K) {t : Nat} (ht : t ∈ k.1.tails) : Side k t (φ t) := by
  simp only [Chain.tails, List.mem_cons, List.not_mem_nil, or_false] at ht
  rcases ht with rfl | rfl
  · exact Or.inl ⟨rfl, (s.co k hk).1⟩
  · exact Or.inr ⟨rfl, (s.co k hk).2⟩

theorem Sim.inj (s : Sim H' H φ K) {k d : Chain × Chain} (hk : k ∈ K) (hd : d ∈ K) {t u : Nat} (ht : t ∈ k.1.tails) (hu : u ∈ d.1.tails) (e : φ t = φ u) : t = u := by
  have h1 := s.side hk ht
  have h2 := s.side hd hu
  obtain rfl : k = d := s.b.uniq hk hd h1.m2 (e ▸ h2.m2)
  have hfb := s.b.fb (Sim.m2 hk)
  rcases h1 with ⟨a1, a2⟩ | ⟨a1, a2⟩ <;> rcases h2 with ⟨b1, b2⟩ | ⟨b1, b2⟩
  · rw [a1, b1]
  · exact absurd (by rw [← a2, ← b2, e]) hfb
  · exact absurd (by rw [← a2, ← b2, e]) (Ne.symm hfb)
  · rw [a1, b1]

/-- A point is added at one end of a chain. -/
theorem Sim.push (s : Sim H' H φ K) {k : Chain × Chain} (hk : k ∈ K) {t : Nat} (ht : t ∈ k.1.tails) {v : V45} (hr : Rise v.rise) {p : Pt} (hp : On v p)
    (ho : ∀ e, endp H t = some e ∨ endp H' (φ t) = some e → On v e) : Sim (Form45.push H' (φ t) p) (Form45.push H t p) φ K := by
  have hne : ∀ (H : Heap) (l : Nat) (ps : List Pt) (n : Nat), n ≠ l → (H.setLine l ps).line n = H.line n := fun H l ps n hn => by rw [setLine_line, if_neg hn]
  rcases s.side hk ht with ⟨rfl, e2⟩ | ⟨rfl, e2⟩
  · rw [s.a.endF (Sim.m1 hk), e2, s.b.endF (Sim.m2 hk)] at ho
    rw [e2, s.a.pushF (Sim.m1 hk), s.b.pushF (Sim.m2 hk)]
    refine s.relines hk rfl rfl rfl rfl rfl rfl (hne _ _ _) (hne _ _ _) ?_
    rw [setLine_line, setLine_line, if_pos rfl, if_pos rfl]
    exact (s.w k hk).front hr hp (fun a ha => ho a (Or.inr ha)) (fun a ha => ho a (Or.inl ha))
  · rw [s.a.endB (Sim.m1 hk), e2, s.b.endB (Sim.m2 hk)] at ho
    rw [e2, s.a.pushB (Sim.m1 hk), s.b.pushB (Sim.m2 hk)]
    refine s.relines hk rfl rfl rfl rfl rfl rfl (hne _ _ _) (hne _ _ _) ?_
    rw [setLine_line, setLine_line, if_pos rfl, if_pos rfl]
    exact (s.w k hk).back hr hp (fun a ha => ho a (Or.inr ha)) (fun a ha => ho a (Or.inl ha))

theorem sum_perm_map {α : Type} {l m : List α} (h : l.Perm m) (f : α → Int) : (l.map f).sum = (m.map f).sum := (h.map f).sum_eq

/-- A hole is not an end of a chain. -/
theorem Sim.hole_tail (s : Sim H' H φ K) {k d : Chain × Chain} (hk : k ∈ K) (hd : d ∈ K) {h : Nat} (hh : h ∈ Chain.holes H k.1) : h ∉ d.1.tails := by
  intro hm
  simp only [Chain.tails, List.mem_cons, List.not_mem_nil, or_false] at hm
  rcases hm with rfl | rfl
  · exact (s.hol k hk _ hh).2.2 d hd (s.a.fr _ (Sim.m1 hd)).1
  · exact (s.hol k hk _ hh).2.2 d hd (s.a.bk _ (Sim.m1 hd)).1

/-- Two chains are joined. -/
theorem Sim.join {A B A' B' : Chain} (s : Sim H' H φ ((A, A') :: (B, B') :: K)) {H1' H1 : Heap} (j : Joined H H1 A B) (j' : Joined H' H1' A' B')
    {v : V45} (hr : Rise v.rise) (hA : ∀ e, endp H A.b = some e ∨ endp H' A'.b = some e → On v e) (hB : ∀ e, endp H B.f = some e ∨ endp H' B'.f = some e → On v e) :
    Sim H1' H1 φ ((⟨A.f, B.b, A.l⟩, ⟨A'.f, B'.b, A'.l⟩) :: K) := by
  have ma : (A, A') ∈ (A, A') :: (B, B') :: K := List.mem_cons_self
  have mb : (B, B') ∈ (A, A') :: (B, B') :: K := List.mem_cons_of_mem _ List.mem_cons_self
  have mk : ∀ d ∈ K, d ∈ (A, A') :: (B, B') :: K := fun d hd => List.mem_cons_of_mem _ (List.mem_cons_of_mem _ hd)
  have sa := s.a
  have sb := s.b
  simp only [List.map_cons] at sa sb
  have hap := sa.apart
  have hap' := sb.apart
  have hrest : ∀ d ∈ K, Chain.holes H1 d.1 = Chain.holes H d.1 := by
    intro d hd
    have a := hap.2 d.1 (Sim.m1 hd) d.1.f (by simp [Chain.tails])
    have b := hap.2 d.1 (Sim.m1 hd) d.1.b (by simp [Chain.tails])
    unfold Chain.holes
    rw [j.tail _ a.1 a.2.1 a.2.2.1 a.2.2.2, j.tail _ b.1 b.2.1 b.2.2.1 b.2.2.2]
  have hrest' : ∀ d ∈ K, Chain.holes H1' d.2 = Chain.holes H' d.2 := by
    intro d hd
    have a := hap'.2 d.2 (Sim.m2 hd) d.2.f (by simp [Chain.tails])
    have b := hap'.2 d.2 (Sim.m2 hd) d.2.b (by simp [Chain.tails])
    unfold Chain.holes
    rw [j'.tail _ a.1 a.2.1 a.2.2.1 a.2.2.2, j'.tail _ b.1 b.2.1 b.2.2.1 b.2.2.2]
  have htail : ∀ k ∈ (A, A') :: (B, B') :: K, ∀ h ∈ Chain.holes H k.1, H1.tail h = H.tail h ∧ H1.ring h = H.ring h := by
    intro k hk h hh
    have h1 := s.hole_tail hk ma hh
    have h2 := s.hole_tail hk mb hh
    simp only [Chain.tails, List.mem_cons, List.not_mem_nil, or_false, not_or] at h1 h2
    have e := j.tail h h1.1 h1.2 h2.1 h2.2
    refine ⟨e, ?_⟩
    unfold Heap.ring
    rw [e, j.line, if_neg ((s.hol k hk h hh).2.2 _ ma)]
  have hsum : ∀ k ∈ (A, A') :: (B, B') :: K, ∀ q, ((Chain.holes H k.1).map (fun h => wnd q (H1.ring h))).sum = hw H k.1 q := by
    intro k hk q
    unfold hw
    congr 1
    apply List.map_congr_left
    intro h hh
    rw [(htail k hk h hh).2]
  refine ⟨?_, ?_, ?_, ?_, ?_, ?_⟩
  · exact sa.joined j
  · exact sb.joined j'
  · intro k hk
    rcases List.mem_cons.1 hk with rfl | hk
    · exact ⟨(s.co _ ma).1, (s.co _ mb).2⟩
    · exact s.co k (mk k hk)
  · have key : ∀ k ∈ (A, A') :: (B, B') :: K, ∀ h ∈ Chain.holes H k.1, h < H1.ft ∧ (H1.tail h).line < H1.fl ∧
        ∀ d ∈ ((⟨A.f, B.b, A.l⟩, ⟨A'.f, B'.b, A'.l⟩) : Chain × Chain) :: K, (H1.tail h).line ≠ d.1.l := by
      intro k hk h hh
      obtain ⟨g1, g2, g3⟩ := s.hol k hk h hh
      rw [j.ft, j.fl, (htail k hk h hh).1]
      refine ⟨g1, g2, fun d hd => ?_⟩
      rcases List.mem_cons.1 hd with rfl | hd
      · exact g3 (A, A') ma
      · exact g3 d (mk d hd)
    intro k hk h hh
    rcases List.mem_cons.1 hk with rfl | hk
    · rcases List.mem_append.1 (j.holes.mem_iff.1 hh) with g | g
      · exact key _ ma h g
      · exact key _ mb h g
    · rw [hrest k hk] at hh
      exact key k (mk k hk) h hh
  · intro k hk
    rcases List.mem_cons.1 hk with rfl | hk
    · have := j'.holes
      rw [s.nh _ ma, s.nh _ mb] at this
      exact this.eq_nil
    · rw [hrest' k hk]
      exact s.nh k (mk k hk)
  · intro k hk
    rcases List.mem_cons.1 hk with rfl | hk
    · dsimp only
      rw [j.line, j'.line, if_pos rfl, if_pos rfl]
      rw [sa.endB List.mem_cons_self, sb.endB List.mem_cons_self] at hA
      rw [sa.endF (List.mem_cons_of_mem _ List.mem_cons_self), sb.endF (List.mem_cons_of_mem _ List.mem_cons_self)] at hB
      refine ((s.w _ ma).app (s.w _ mb) hr (fun e he => hA e (Or.inr he)) (fun e he => hA e (Or.inl he)) (fun e he => hB e (Or.inr he))
        (fun e he => hB e (Or.inl he))).congr (fun q => ?_)
      have e1 := hsum _ ma q
      have e2 := hsum _ mb q
      dsimp only at e1 e2 ⊢
      unfold hw at e1 e2 ⊢
      rw [sum_perm_map j.holes, List.map_append, List.sum_append, e1, e2]
    · rw [j.line, j'.line, if_neg (sa.lne k.1 (List.mem_cons_of_mem _ (Sim.m1 hk))), if_neg (sb.lne k.2 (List.mem_cons_of_mem _ (Sim.m2 hk)))]
      refine (s.w k (mk k hk)).congr (fun q => ?_)
      rw [← hsum k (mk k hk) q]
      unfold hw
      rw [hrest k hk]

/-- Only the lists of holes change, and each chain keeps its holes. -/
theorem Sim.holes (s : Sim H' H φ K) {H1' H1 : Heap} (h1 : SameH H H1) (h2 : SameH H' H1') (g1 : ∀ k ∈ K, (Chain.holes H1 k.1).Perm (Chain.holes H k.1))
    (g2 : ∀ k ∈ K, Chain.holes H1' k.2 = []) : Sim H1' H1 φ K where
  a := by
    refine ⟨s.a.nd, s.a.ndl, fun c hc => ?_, fun c hc => ?_, fun c hc => ?_, ?_⟩
    · rw [(h1.t _).1, (h1.t _).2.1, (h1.t _).2.2]; exact s.a.fr c hc
    · rw [(h1.t _).1, (h1.t _).2.1, (h1.t _).2.2]; exact s.a.bk c hc
    · rw [h1.line]; exact s.a.ne c hc
    · rw [h1.ft, h1.fl]; exact s.a.fresh
  b := by
    refine ⟨s.b.nd, s.b.ndl, fun c hc => ?_, fun c hc => ?_, fun c hc => ?_, ?_⟩
    · rw [(h2.t _).1, (h2.t _).2.1, (h2.t _).2.2]; exact s.b.fr c hc
    · rw [(h2.t _).1, (h2.t _).2.1, (h2.t _).2.2]; exact s.b.bk c hc
    · rw [h2.line]; exact s.b.ne c hc
    · rw [h2.ft, h2.fl]; exact s.b.fresh
  co := s.co
  hol k hk h hh := by
    rw [h1.ft, h1.fl, (h1.t h).1]
    exact s.hol k hk h ((g1 k hk).mem_iff.1 hh)
  nh := g2
  w k hk := by
    rw [h1.line, h2.line]
    refine (s.w k hk).congr (fun q => ?_)
    unfold hw
    rw [sum_perm_map (g1 k hk)]
    congr 1
    apply List.map_congr_left
    intro h _
    rw [ring_same h1]

theorem endp_same {H H1 : Heap} (h : SameH H H1) (t : Nat) : endp H1 t = endp H t := by
  unfold endp; rw [(h.t t).1, (h.t t).2.2, h.line]

end Verif.Fr
