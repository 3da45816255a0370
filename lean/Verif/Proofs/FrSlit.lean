import Verif.Proofs.FrEnds
/-!
# Polygons without holes: new pairs of ends and slits
-/
namespace Verif.Fr
open Verif.ArbForm Verif.F45 Verif.Spec
open Verif.Arb (Pt)
open Verif.Deg45 (V45)

variable {H' H : Heap} {φ : Nat → Nat} {K : List (Chain × Chain)} {M : List (V45 × Nat)}

theorem Ends.sub (e : Ends H' H φ K M) {M1 : List (V45 × Nat)} (p : M1.Sublist M) : Ends H' H φ K M1 where
  nd := e.nd.sublist (p.map _)
  mem a ha := e.mem a (p.subset ha)
  rise a ha := e.rise a (p.subset ha)
  on a ha := e.on a (p.subset ha)

theorem Flt.sub {x : Int} {h : Nat} (f : Flt x H' H K M h) {M1 : List (V45 × Nat)} (p : ∀ a ∈ M1, a ∈ M) : Flt x H' H K M1 h := by
  obtain ⟨k, hk, e, v, n⟩ := f
  exact ⟨k, hk, e, v, fun a ha => n a (p a ha)⟩

theorem Flt.lt (s : Sim H' H φ K) {x : Int} {h : Nat} (f : Flt x H' H K M h) : h < H.ft := by
  obtain ⟨k, hk, rfl, -⟩ := f
  exact (s.a.fresh k.1 (Sim.m1 hk)).2.1

/-- The map of ends with new ends. -/
def ext (φ : Nat → Nat) (n a b : Nat) : Nat → Nat := fun m => if m = n then a else if m = n + 1 then b else φ m

theorem ext_lt {φ : Nat → Nat} {n a b m : Nat} (h : m < n) : ext φ n a b m = φ m := by
  unfold ext; rw [if_neg (by omega), if_neg (by omega)]
theorem ext_0 {φ : Nat → Nat} {n a b : Nat} : ext φ n a b n = a := by unfold ext; rw [if_pos rfl]
theorem ext_1 {φ : Nat → Nat} {n a b : Nat} : ext φ n a b (n + 1) = b := by unfold ext; rw [if_neg (by omega), if_pos rfl]

/-- The ends of a new line. -/
theorem new_end {H : Heap} {C : List Chain} (h : Ch H C) (p : Pt) (solid : Bool) : endp (H.newPair p solid) H.ft = some p ∧ endp (H.newPair p solid) (H.ft + 1) = some p := by
  have c : Ch (H.newPair p solid) (newC H solid :: C) := h.newPair p solid
  have f := c.endF (c := newC H solid) List.mem_cons_self
  have b := c.endB (c := newC H solid) List.mem_cons_self
  rw [newPair_new] at f b
  unfold newC at f b
  cases solid
  · exact ⟨b, f⟩
  · exact ⟨f, b⟩

theorem Ends.newPair (s : Sim H' H φ K) (e : Ends H' H φ K M) (p : Pt) (solid : Bool) {v w : V45} (hv : Rise v.rise) (hw : Rise w.rise) (ov : On v p) (ow : On w p)
    (cv : v.count = if solid then -1 else 1) (cw : w.count = if solid then 1 else -1) :
    Sim (H'.newPair p solid) (H.newPair p solid) (ext φ H.ft H'.ft (H'.ft + 1)) ((newC H solid, newC H' solid) :: K) ∧
    Ends (H'.newPair p solid) (H.newPair p solid) (ext φ H.ft H'.ft (H'.ft + 1)) ((newC H solid, newC H' solid) :: K) ((v, H.ft) :: (w, H.ft + 1) :: M) ∧
    ∀ x h, Flt x H' H K M h → Flt x (H'.newPair p solid) (H.newPair p solid) ((newC H solid, newC H' solid) :: K) ((v, H.ft) :: (w, H.ft + 1) :: M) h := by
  have s1 := s.newPair p solid (ψ := ext φ H.ft H'.ft (H'.ft + 1)) (fun n hn => ext_lt hn) ext_0 ext_1
  have n1 := new_end s.a p solid
  have n2 := new_end s.b p solid
  refine ⟨s1, ⟨?_, ?_, ?_, ?_⟩, ?_⟩
  · simp only [List.map_cons, List.nodup_cons, List.mem_cons, not_or]
    refine ⟨⟨by omega, ?_⟩, ?_, e.nd⟩
    · intro h
      obtain ⟨a, ha, he⟩ := List.mem_map.1 h
      have := e.lt s ha
      omega
    · intro h
      obtain ⟨a, ha, he⟩ := List.mem_map.1 h
      have := e.lt s ha
      omega
  · intro a ha
    rcases List.mem_cons.1 ha with rfl | ha
    · refine ⟨_, List.mem_cons_self, ?_⟩
      unfold newC
      cases solid
      · exact Or.inr ⟨rfl, cv⟩
      · exact Or.inl ⟨rfl, cv⟩
    · rcases List.mem_cons.1 ha with rfl | ha
      · refine ⟨_, List.mem_cons_self, ?_⟩
        unfold newC
        cases solid
        · exact Or.inl ⟨rfl, cw⟩
        · exact Or.inr ⟨rfl, cw⟩
      · obtain ⟨k, hk, h⟩ := e.mem a ha
        exact ⟨k, List.mem_cons_of_mem _ hk, h⟩
  · intro a ha
    rcases List.mem_cons.1 ha with rfl | ha
    · exact hv
    · rcases List.mem_cons.1 ha with rfl | ha
      · exact hw
      · exact e.rise a ha
  · intro a ha
    rcases List.mem_cons.1 ha with rfl | ha
    · dsimp only
      intro x hx
      rw [ext_0, n1.1, n2.1] at hx
      simp only [Option.some_inj, or_self] at hx
      exact hx ▸ ov
    · rcases List.mem_cons.1 ha with rfl | ha
      · dsimp only
        intro x hx
        rw [ext_1, n1.2, n2.2] at hx
        simp only [Option.some_inj, or_self] at hx
        exact hx ▸ ow
      · obtain ⟨k, hk, ht⟩ := e.tails ha
        rw [ext_lt (e.lt s ha), old_end s.a (Sim.m1 hk) ht, old_end s.b (Sim.m2 hk) (s.side hk ht).m2]
        exact e.on a ha
  · rintro x h ⟨k, hk, rfl, hvt, hn⟩
    have hf := s.a.fresh k.1 (Sim.m1 hk)
    refine ⟨k, List.mem_cons_of_mem _ hk, rfl, ?_, ?_⟩
    · intro y hy
      rw [old_end s.a (Sim.m1 hk) (by simp [Chain.tails]), old_end s.a (Sim.m1 hk) (by simp [Chain.tails]), old_end s.b (Sim.m2 hk) (by simp [Chain.tails]),
        old_end s.b (Sim.m2 hk) (by simp [Chain.tails])] at hy
      exact hvt y hy
    · intro a ha
      rcases List.mem_cons.1 ha with rfl | ha
      · dsimp only; omega
      · rcases List.mem_cons.1 ha with rfl | ha
        · dsimp only; omega
        · exact hn a ha

theorem sameAdd (H : Heap) (t h : Nat) : SameH H (H.addHole t h) := by
  unfold Heap.addHole
  exact ((SameH.setHoles _ _ _).trans (SameH.copy _ _ _)).trans (SameH.copy _ _ _)

theorem rise2 : Rise (vkey x).rise := Or.inr (Or.inr (Or.inr rfl))

/-- A hole begins above a closed hole. -/
theorem Ends.slitBegin (s : Sim H' H φ K) (e : Ends H' H φ K M) {p : Pt} {h : Nat} (f : Flt p.1 H' H K M h) {v w : V45} (hv : Rise v.rise) (hw : Rise w.rise)
    (ov : On v p) (ow : On w p) (cv : v.count = 1) (cw : w.count = -1) : ∃ ψ K1, (∀ n, n < H.ft → ψ n = φ n) ∧
      Sim (Frac45.createPair H' p false (some (φ h))).1 (Form45.createPair H p false (some h)).1 ψ K1 ∧
      Ends (Frac45.createPair H' p false (some (φ h))).1 (Form45.createPair H p false (some h)).1 ψ K1 ((v, H.ft) :: (w, H.ft + 1) :: M) ∧
      (Frac45.createPair H' p false (some (φ h))).2 = (ψ H.ft, ψ (H.ft + 1)) := by
  obtain ⟨k, hk, rfl, hvt, hn⟩ := f
  obtain ⟨K1, hp⟩ := perm1 hk
  have s1 := s.perm hp
  have mk : k ∈ k :: K1 := List.mem_cons_self
  have eh : φ k.1.b = k.2.b := (s1.co k mk).2
  have hw' : (H'.tail k.2.b).other = k.2.f := (s1.b.bk _ (Sim.m2 mk)).2.1
  have fb := s1.b.fb (Sim.m2 mk)
  have s2 := s1.push' mk (Or.inl ⟨rfl, rfl⟩) (v := vkey p.1) rise2 (on_vkey.2 rfl) (p := p) (fun x hx => on_vkey.2 (hvt x (by tauto)))
  obtain ⟨-, a1, a2⟩ := s1.b.push (Sim.m2 mk) (t := k.2.f) (by simp [Chain.tails]) p
  have s3 := s2.push' mk (Or.inr ⟨rfl, rfl⟩) (v := vkey p.1) rise2 (on_vkey.2 rfl) (p := p) (fun x hx => on_vkey.2 (hvt x (by
    rw [a2 k.2 (Sim.m2 mk) k.2.b (by simp [Chain.tails]) (Ne.symm fb)] at hx
    tauto)))
  obtain ⟨-, b1, b2⟩ := s2.b.push (Sim.m2 mk) (t := k.2.b) (by simp [Chain.tails]) p
  have g1 := (b2 k.2 (Sim.m2 mk) k.2.f (by simp [Chain.tails]) fb).trans a1
  have s4 := s3.slit g1 b1 (fun x hx => hvt x (by tauto)) (fun x hx => hvt x (by tauto)) (ψ := ext φ H.ft k.2.b k.2.f) (fun n hn => ext_lt hn) ext_0 ext_1
  have ec : Frac45.createPair H' p false (some (φ k.1.b)) = (Form45.push (Form45.push H' k.2.f p) k.2.b p, k.2.b, k.2.f) := by
    unfold Frac45.createPair
    dsimp only
    rw [eh, hw']
  rw [ec]
  refine ⟨ext φ H.ft k.2.b k.2.f, _, fun n hn => ext_lt hn, s4, ?_, by rw [ext_0, ext_1]⟩
  have n1 := new_end s.a p false
  have same := sameAdd (H.newPair p false) (H.ft + 1) k.1.b
  have ek : Ends H' H φ (k :: K1) M := e.kperm hp
  have inK : ∀ a ∈ M, ∃ d ∈ K1, (a.2 = d.1.f ∧ a.1.count = -1) ∨ (a.2 = d.1.b ∧ a.1.count = 1) := by
    intro a ha
    obtain ⟨d, hd, h⟩ := ek.mem a ha
    rcases List.mem_cons.1 hd with rfl | hd
    · have := hn a ha; omega
    · exact ⟨d, hd, h⟩
  show Ends _ ((H.newPair p false).addHole (H.ft + 1) k.1.b) _ _ _
  refine ⟨?_, ?_, ?_, ?_⟩
  · simp only [List.map_cons, List.nodup_cons, List.mem_cons, not_or]
    refine ⟨⟨by omega, ?_⟩, ?_, e.nd⟩
    · intro h
      obtain ⟨a, ha, he⟩ := List.mem_map.1 h
      have := e.lt s ha
      omega
    · intro h
      obtain ⟨a, ha, he⟩ := List.mem_map.1 h
      have := e.lt s ha
      omega
  · intro a ha
    rcases List.mem_cons.1 ha with rfl | ha
    · exact ⟨_, List.mem_cons_self, Or.inr ⟨rfl, cv⟩⟩
    · rcases List.mem_cons.1 ha with rfl | ha
      · exact ⟨_, List.mem_cons_self, Or.inl ⟨rfl, cw⟩⟩
      · obtain ⟨d, hd, h⟩ := inK a ha
        exact ⟨d, List.mem_cons_of_mem _ hd, h⟩
  · intro a ha
    rcases List.mem_cons.1 ha with rfl | ha
    · exact hv
    · rcases List.mem_cons.1 ha with rfl | ha
      · exact hw
      · exact e.rise a ha
  · intro a ha
    rw [endp_same same]
    rcases List.mem_cons.1 ha with rfl | ha
    · dsimp only
      intro x hx
      rw [ext_0, n1.1, b1] at hx
      simp only [Option.some_inj, or_self] at hx
      exact hx ▸ ov
    · rcases List.mem_cons.1 ha with rfl | ha
      · dsimp only
        intro x hx
        rw [ext_1, n1.2, g1] at hx
        simp only [Option.some_inj, or_self] at hx
        exact hx ▸ ow
      · obtain ⟨d, hd, h⟩ := inK a ha
        have hd' : d ∈ k :: K1 := List.mem_cons_of_mem _ hd
        have ht : a.2 ∈ d.1.tails := by simp only [Chain.tails, List.mem_cons, List.not_mem_nil, or_false]; omega
        have hdK : d ∈ K := hp.mem_iff.2 hd'
        have hs := (s1.side hd' ht).m2
        have hne := hn a ha
        have ne : ∀ u ∈ k.1.tails, φ a.2 ≠ φ u := by
          intro u hu hc
          have := s1.inj hd' mk ht hu hc
          simp only [Chain.tails, List.mem_cons, List.not_mem_nil, or_false] at hu
          omega
        have ne1 : φ a.2 ≠ k.2.f := by rw [← (s1.co k mk).1]; exact ne _ (by simp [Chain.tails])
        have ne2 : φ a.2 ≠ k.2.b := by rw [← (s1.co k mk).2]; exact ne _ (by simp [Chain.tails])
        rw [ext_lt (e.lt s ha), old_end s.a (Sim.m1 hdK) ht, b2 d.2 (Sim.m2 hd') _ hs ne2, a2 d.2 (Sim.m2 hd') _ hs ne1]
        exact e.on a ha

/-- The edge above a closed hole takes over its line. -/
theorem Ends.slitUp {a : V45 × Nat} (s : Sim H' H φ K) (e : Ends H' H φ K (a :: M)) {m : Pt} {h : Nat} (f : Flt m.1 H' H K (a :: M) h) (ca : a.1.count = -1) (oa : On a.1 m) :
    ∃ ψ K1, (∀ n, n ≠ a.2 → ψ n = φ n) ∧ ψ a.2 = (H'.tail (φ h)).other ∧
      ((Form45.push H' (H'.tail (φ h)).other m).tail (φ h)).other = (H'.tail (φ h)).other ∧
      Sim (Form45.join (Form45.push (Form45.push H' (H'.tail (φ h)).other m) (φ a.2) m) (φ h) (φ a.2)) (H.addHole a.2 h) ψ K1 ∧
      Ends (Form45.join (Form45.push (Form45.push H' (H'.tail (φ h)).other m) (φ a.2) m) (φ h) (φ a.2)) (H.addHole a.2 h) ψ K1 (a :: M) := by
  obtain ⟨k, hk, rfl, hvt, hn⟩ := f
  obtain ⟨t, ht, hat⟩ := e.mem a List.mem_cons_self
  have hat : a.2 = t.1.f := by omega
  have hna := hn a List.mem_cons_self
  have hkt : k ≠ t := by rintro rfl; exact hna.1 hat
  obtain ⟨K1, hp⟩ := perm2 hk ht hkt
  have s1 := s.perm hp
  have mk : k ∈ k :: t :: K1 := List.mem_cons_self
  have mt : t ∈ k :: t :: K1 := List.mem_cons_of_mem _ List.mem_cons_self
  have eh : φ k.1.b = k.2.b := (s1.co k mk).2
  have ea : φ a.2 = t.2.f := by rw [hat]; exact (s1.co t mt).1
  have hw' : (H'.tail k.2.b).other = k.2.f := (s1.b.bk _ (Sim.m2 mk)).2.1
  have sb := s1.b
  simp only [List.map_cons] at sb
  have ap := sb.apart
  have s2 := s1.push' mk (Or.inl ⟨rfl, rfl⟩) (v := vkey m.1) rise2 (on_vkey.2 rfl) (p := m) (fun x hx => on_vkey.2 (hvt x (by tauto)))
  obtain ⟨-, a1, a2⟩ := s1.b.push (Sim.m2 mk) (t := k.2.f) (by simp [Chain.tails]) m
  have s3 := s2.push' mt (Or.inl ⟨rfl, rfl⟩) (v := a.1) (e.rise a List.mem_cons_self) oa (fun x hx => by
    rw [a2 t.2 (Sim.m2 mt) t.2.f (by simp [Chain.tails]) (Ne.symm ap.1.2.1), ← hat, ← ea] at hx
    exact e.on a List.mem_cons_self x hx)
  obtain ⟨-, b1, b2⟩ := s2.b.push (Sim.m2 mt) (t := t.2.f) (by simp [Chain.tails]) m
  have g1 := (b2 k.2 (Sim.m2 mk) k.2.f (by simp [Chain.tails]) ap.1.2.1).trans a1
  have g5 : ∀ x, endp (Form45.push (Form45.push H' k.2.f m) t.2.f m) k.2.b = some x → x.1 = m.1 := by
    intro x hx
    rw [b2 k.2 (Sim.m2 mk) k.2.b (by simp [Chain.tails]) ap.1.2.2.2.1, a2 k.2 (Sim.m2 mk) k.2.b (by simp [Chain.tails]) (Ne.symm ap.1.1)] at hx
    exact hvt x (by tauto)
  have sb3 := s3.b
  simp only [List.map_cons] at sb3
  have jn := sb3.join (a := k.2.b) (b := t.2.f) (Or.inl ⟨rfl, rfl⟩)
  have s4 := s3.link g1 b1 (fun x hx => hvt x (by tauto)) (fun x hx => hvt x (by tauto)) g5 jn (ψ := fun n => if n = a.2 then k.2.f else φ n)
    (fun n hn => if_neg (by rw [hat]; exact hn)) (if_pos hat.symm)
  have hw2 : ((Form45.push H' k.2.f m).tail k.2.b).other = k.2.f := by rw [push_tail]; exact hw'
  rw [eh, ea, hw']
  refine ⟨fun n => if n = a.2 then k.2.f else φ n, _, fun n hn => if_neg hn, if_pos rfl, hw2, by rw [hat] at s4 ⊢; exact s4, ?_⟩
  obtain ⟨u1, u2, u3⟩ := sb3.joined_end jn
  have same := sameAdd H a.2 k.1.b
  have ek : Ends H' H φ (k :: t :: K1) (a :: M) := e.kperm hp
  have inK : ∀ b ∈ M, (b.2 = t.1.b ∧ b.1.count = 1) ∨ ∃ d ∈ K1, (b.2 = d.1.f ∧ b.1.count = -1) ∨ (b.2 = d.1.b ∧ b.1.count = 1) := by
    intro b hb
    obtain ⟨d, hd, h⟩ := ek.mem b (List.mem_cons_of_mem _ hb)
    rcases List.mem_cons.1 hd with rfl | hd
    · have := hn b (List.mem_cons_of_mem _ hb); omega
    · rcases List.mem_cons.1 hd with rfl | hd
      · have := e.head.1 b hb
        omega
      · exact Or.inr ⟨d, hd, h⟩
  refine ⟨e.nd, ?_, e.rise, ?_⟩
  · intro b hb
    rcases List.mem_cons.1 hb with rfl | hb
    · exact ⟨_, List.mem_cons_self, Or.inl ⟨hat, ca⟩⟩
    · rcases inK b hb with h | ⟨d, hd, h⟩
      · exact ⟨_, List.mem_cons_self, Or.inr h⟩
      · exact ⟨d, List.mem_cons_of_mem _ hd, h⟩
  · intro b hb
    rw [endp_same same]
    rcases List.mem_cons.1 hb with rfl | hb
    · rw [if_pos rfl, u1, g1]
      intro x hx
      rcases hx with hx | hx
      · exact e.on b List.mem_cons_self x (Or.inl hx)
      · rw [Option.some_inj] at hx
        exact hx ▸ oa
    · rw [if_neg (e.head.1 b hb)]
      have hbe := e.on b (List.mem_cons_of_mem _ hb)
      rcases inK b hb with ⟨h, -⟩ | ⟨d, hd, h⟩
      · have eb : φ b.2 = t.2.b := by rw [h]; exact (s1.co t mt).2
        rw [eb] at hbe ⊢
        rw [u2, b2 t.2 (Sim.m2 mt) t.2.b (by simp [Chain.tails]) (Ne.symm ap.1.2.2.2.2.2), a2 t.2 (Sim.m2 mt) t.2.b (by simp [Chain.tails]) (Ne.symm ap.1.2.2.1)]
        exact hbe
      · have hd' : d ∈ k :: t :: K1 := List.mem_cons_of_mem _ (List.mem_cons_of_mem _ hd)
        have hbt : b.2 ∈ d.1.tails := by simp only [Chain.tails, List.mem_cons, List.not_mem_nil, or_false]; omega
        have hs := (s1.side hd' hbt).m2
        have hap := ap.2 d.2 (Sim.m2 hd) _ hs
        rw [u3 d.2 (Sim.m2 hd) _ hs, b2 d.2 (Sim.m2 hd') _ hs hap.2.2.1, a2 d.2 (Sim.m2 hd') _ hs hap.1]
        exact hbe

end Verif.Fr
