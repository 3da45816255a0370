import Verif.Proofs.FrOps
/-!
# Polygons without holes: the open ends and what a point does to them
-/
namespace Verif.Fr
open Verif.ArbForm Verif.F45 Verif.Spec
open Verif.Arb (Pt)
open Verif.Deg45 (V45)

variable {H' H : Heap} {φ : Nat → Nat} {K : List (Chain × Chain)} {M : List (V45 × Nat)}

/-- The open ends: each belongs to an edge, on whose line the lines of both formations end. -/
structure Ends (H' H : Heap) (φ : Nat → Nat) (K : List (Chain × Chain)) (M : List (V45 × Nat)) : Prop where
  nd : (M.map Prod.snd).Nodup
  mem : ∀ a ∈ M, ∃ k ∈ K, (a.2 = k.1.f ∧ a.1.count = -1) ∨ (a.2 = k.1.b ∧ a.1.count = 1)
  rise : ∀ a ∈ M, Rise a.1.rise
  on : ∀ a ∈ M, ∀ e, endp H a.2 = some e ∨ endp H' (φ a.2) = some e → On a.1 e

theorem Ends.perm (e : Ends H' H φ K M) {M1 : List (V45 × Nat)} (p : M.Perm M1) : Ends H' H φ K M1 where
  nd := (p.map _).nodup_iff.1 e.nd
  mem a ha := e.mem a (p.mem_iff.2 ha)
  rise a ha := e.rise a (p.mem_iff.2 ha)
  on a ha := e.on a (p.mem_iff.2 ha)

theorem Ends.kperm (e : Ends H' H φ K M) {K1 : List (Chain × Chain)} (p : K.Perm K1) : Ends H' H φ K1 M where
  nd := e.nd
  mem a ha := by obtain ⟨k, hk, h⟩ := e.mem a ha; exact ⟨k, p.mem_iff.1 hk, h⟩
  rise := e.rise
  on := e.on

theorem Ends.tails (e : Ends H' H φ K M) {a : V45 × Nat} (ha : a ∈ M) : ∃ k ∈ K, a.2 ∈ k.1.tails := by
  obtain ⟨k, hk, h⟩ := e.mem a ha
  refine ⟨k, hk, ?_⟩
  simp only [Chain.tails, List.mem_cons, List.not_mem_nil, or_false]
  omega

theorem Ends.lt (s : Sim H' H φ K) (e : Ends H' H φ K M) {a : V45 × Nat} (ha : a ∈ M) : a.2 < H.ft := by
  obtain ⟨k, hk, h⟩ := e.tails ha
  simp only [Chain.tails, List.mem_cons, List.not_mem_nil, or_false] at h
  have := s.a.fresh k.1 (Sim.m1 hk)
  omega

theorem Ends.head {a : V45 × Nat} (e : Ends H' H φ K (a :: M)) : (∀ b ∈ M, b.2 ≠ a.2) ∧ Ends H' H φ K M := by
  have hn := List.nodup_cons.1 (by simpa only [List.map_cons] using e.nd)
  exact ⟨fun b hb h => hn.1 (List.mem_map.2 ⟨b, hb, h⟩), hn.2, fun b hb => e.mem b (List.mem_cons_of_mem _ hb), fun b hb => e.rise b (List.mem_cons_of_mem _ hb),
    fun b hb => e.on b (List.mem_cons_of_mem _ hb)⟩

/-- The heaps change but the ends of these lines do not. -/
theorem Ends.keep (e : Ends H' H φ K M) {H1' H1 : Heap} {ψ : Nat → Nat} {K1 : List (Chain × Chain)} (h1 : ∀ a ∈ M, endp H1 a.2 = endp H a.2)
    (h2 : ∀ a ∈ M, endp H1' (ψ a.2) = endp H' (φ a.2)) (h3 : ∀ a ∈ M, ∃ k ∈ K1, (a.2 = k.1.f ∧ a.1.count = -1) ∨ (a.2 = k.1.b ∧ a.1.count = 1)) : Ends H1' H1 ψ K1 M where
  nd := e.nd
  mem := h3
  rise := e.rise
  on a ha := by rw [h1 a ha, h2 a ha]; exact e.on a ha

/-- A closed hole whose line is not yet linked. -/
def Flt (x : Int) (H' H : Heap) (K : List (Chain × Chain)) (M : List (V45 × Nat)) (h : Nat) : Prop :=
  ∃ k ∈ K, h = k.1.b ∧ Vt x H' H k ∧ ∀ a ∈ M, a.2 ≠ k.1.f ∧ a.2 ≠ k.1.b

/-- The figures of the two formations. -/
def FP (P' P : Poly) : Prop :=
  (∀ q, wnd q P'.outer = wnd q P.outer + (P.holes.map (wnd q)).sum) ∧ Oct P'.outer ∧ ∃ p, P'.outer.head? = some p ∧ P'.outer.getLast? = some p

theorem Ch.other {α : Type} {H : Heap} {g : α → Chain} {K : List α} (h : Ch H (K.map g)) {k d : α} (hk : k ∈ K) (hd : d ∈ K) {t u : Nat} (h1 : t ∈ (g k).tails)
    (h2 : u ∈ (g d).tails) (hne : t ≠ u) : (H.tail t).other = u ↔ k = d := by
  have mk : g k ∈ K.map g := List.mem_map.2 ⟨k, hk, rfl⟩
  have ho : (H.tail t).other ∈ (g k).tails ∧ ((g k).tails = [t, (H.tail t).other] ∨ (g k).tails = [(H.tail t).other, t]) := by
    simp only [Chain.tails, List.mem_cons, List.not_mem_nil, or_false] at h1 ⊢
    rcases h1 with rfl | rfl
    · rw [(h.fr _ mk).2.1]; simp
    · rw [(h.bk _ mk).2.1]; simp
  constructor
  · rintro rfl
    exact h.uniq hk hd ho.1 h2
  · rintro rfl
    rcases ho.2 with e | e <;> rw [e] at h2 <;> simp only [List.mem_cons, List.not_mem_nil, or_false] at h2
    · exact (h2.resolve_left (Ne.symm hne)).symm
    · exact (h2.resolve_right (Ne.symm hne)).symm

theorem perm2 {α : Type} {K : List α} {k d : α} (hk : k ∈ K) (hd : d ∈ K) (hne : k ≠ d) : ∃ K1, K.Perm (k :: d :: K1) := by
  obtain ⟨s, t, rfl⟩ := List.append_of_mem hk
  have h1 : (s ++ k :: t).Perm (k :: (s ++ t)) := List.perm_middle
  have : d ∈ s ++ t := by
    rcases List.mem_cons.1 (h1.mem_iff.1 hd) with h | h
    · exact absurd h.symm hne
    · exact h
  obtain ⟨s', t', e⟩ := List.append_of_mem this
  exact ⟨s' ++ t', h1.trans (List.Perm.cons _ (e ▸ List.perm_middle))⟩

theorem perm1 {α : Type} {K : List α} {k : α} (hk : k ∈ K) : ∃ K1, K.Perm (k :: K1) := by
  obtain ⟨s, t, rfl⟩ := List.append_of_mem hk
  exact ⟨s ++ t, List.perm_middle⟩

theorem push_ft (H : Heap) (t : Nat) (p : Pt) : (Form45.push H t p).ft = H.ft := by
  unfold Form45.push
  dsimp only
  by_cases c : (H.tail t).head = true
  · rw [if_pos c]; rfl
  · rw [if_neg c]; rfl

theorem push_tail (H : Heap) (t : Nat) (p : Pt) : (Form45.push H t p).tail = H.tail := by
  unfold Form45.push
  dsimp only
  by_cases c : (H.tail t).head = true
  · rw [if_pos c]; rfl
  · rw [if_neg c]; rfl

/-- A point at one end. -/
theorem Ends.pushA {a : V45 × Nat} (s : Sim H' H φ K) (e : Ends H' H φ K (a :: M)) {p : Pt} (pa : On a.1 p) :
    Sim (Form45.push H' (φ a.2) p) (Form45.push H a.2 p) φ K ∧ Ends (Form45.push H' (φ a.2) p) (Form45.push H a.2 p) φ K (a :: M) ∧
    endp (Form45.push H a.2 p) a.2 = some p ∧ endp (Form45.push H' (φ a.2) p) (φ a.2) = some p ∧
    (∀ k ∈ K, ∀ t ∈ k.1.tails, t ≠ a.2 → endp (Form45.push H a.2 p) t = endp H t ∧ endp (Form45.push H' (φ a.2) p) (φ t) = endp H' (φ t)) := by
  obtain ⟨k, hk, ht⟩ := e.tails List.mem_cons_self
  have s1 := s.push hk ht (e.rise a List.mem_cons_self) pa (e.on a List.mem_cons_self)
  obtain ⟨-, p1, p2⟩ := s.a.push (Sim.m1 hk) ht p
  obtain ⟨-, q1, q2⟩ := s.b.push (Sim.m2 hk) (s.side hk ht).m2 p
  have hoth : ∀ d ∈ K, ∀ t ∈ d.1.tails, t ≠ a.2 → endp (Form45.push H a.2 p) t = endp H t ∧ endp (Form45.push H' (φ a.2) p) (φ t) = endp H' (φ t) := by
    intro d hd t hdt hne
    refine ⟨p2 d.1 (Sim.m1 hd) t hdt hne, q2 d.2 (Sim.m2 hd) (φ t) (s.side hd hdt).m2 ?_⟩
    intro he
    exact hne (s.inj hd hk hdt ht he)
  refine ⟨s1, ⟨e.nd, e.mem, e.rise, ?_⟩, p1, q1, hoth⟩
  intro b hb
  rcases List.mem_cons.1 hb with rfl | hb'
  · intro x hx
    rw [p1, q1] at hx
    simp only [Option.some_inj, or_self] at hx
    exact hx ▸ pa
  · obtain ⟨d, hd, hdt⟩ := e.tails hb
    have := hoth d hd b.2 hdt (e.head.1 b hb')
    rw [this.1, this.2]
    exact e.on b hb

/-- The key of an end changes. -/
theorem Ends.key {a : V45 × Nat} (e : Ends H' H φ K (a :: M)) {v : V45} (hv : v.count = a.1.count) (hr : Rise v.rise)
    (ho : ∀ x, endp H a.2 = some x ∨ endp H' (φ a.2) = some x → On v x) : Ends H' H φ K ((v, a.2) :: M) where
  nd := e.nd
  mem b hb := by
    rcases List.mem_cons.1 hb with rfl | hb
    · dsimp only; rw [hv]; exact e.mem a List.mem_cons_self
    · exact e.mem b (List.mem_cons_of_mem _ hb)
  rise b hb := by
    rcases List.mem_cons.1 hb with rfl | hb
    · exact hr
    · exact e.rise b (List.mem_cons_of_mem _ hb)
  on b hb := by
    rcases List.mem_cons.1 hb with rfl | hb
    · exact ho
    · exact e.on b (List.mem_cons_of_mem _ hb)

/-- A line goes on along another edge. -/
theorem Ends.pass {a : V45 × Nat} (s : Sim H' H φ K) (e : Ends H' H φ K (a :: M)) {p : Pt} (pa : On a.1 p) {v : V45} (hv : v.count = a.1.count) (hr : Rise v.rise)
    (pv : On v p) : Sim (Form45.push H' (φ a.2) p) (Form45.push H a.2 p) φ K ∧
      Ends (Form45.push H' (φ a.2) p) (Form45.push H a.2 p) φ K ((v, a.2) :: M) := by
  obtain ⟨s1, e1, h1, h2, -⟩ := e.pushA s pa
  refine ⟨s1, e1.key hv hr ?_⟩
  intro x hx
  rw [h1, h2] at hx
  simp only [Option.some_inj, or_self] at hx
  exact hx ▸ pv

theorem Ch.copy {α : Type} {H : Heap} {g : α → Chain} {K : List α} (h : Ch H (K.map g)) {k : α} (hk : k ∈ K) {a b : Nat} (ha : a ∈ (g k).tails) (hb : b ∈ (g k).tails)
    (hne : a ≠ b) : ∀ d ∈ K, (Chain.holes (H.copyHoles a b) (g d)).Perm (Chain.holes H (g d)) ∧ (d = k → (((H.copyHoles a b).tail a).holes).Perm (Chain.holes H (g k))) := by
  intro d hd
  by_cases e : d = k
  · subst e
    simp only [Chain.tails, List.mem_cons, List.not_mem_nil, or_false] at ha hb
    unfold Chain.holes
    rcases ha with rfl | rfl <;> rcases hb with rfl | rfl
    · exact absurd rfl hne
    · simp only [copy_holes, hne, if_false, if_true, List.append_nil]
      exact ⟨List.Perm.refl _, fun _ => List.Perm.refl _⟩
    · simp only [copy_holes, hne, if_false, if_true, List.nil_append]
      exact ⟨List.perm_append_comm, fun _ => List.perm_append_comm⟩
    · exact absurd rfl hne
  · have n : ∀ u ∈ (g d).tails, u ≠ a ∧ u ≠ b := fun u hu =>
      ⟨fun c => e (h.uniq hd hk hu (c ▸ ha)), fun c => e (h.uniq hd hk hu (c ▸ hb))⟩
    have n1 := n (g d).f (by simp [Chain.tails])
    have n2 := n (g d).b (by simp [Chain.tails])
    refine ⟨List.Perm.of_eq ?_, fun h => absurd h e⟩
    unfold Chain.holes
    simp only [copy_holes, n1.1, n1.2, n2.1, n2.2, if_false]

/-- Two ends meet at a point. -/
theorem Ends.joinC {a b : V45 × Nat} (s : Sim H' H φ K) (e : Ends H' H φ K (a :: b :: M)) {p : Pt} (pa : On a.1 p) (pb : On b.1 p)
    (hab : (a.1.count = -1 ∧ b.1.count = 1) ∨ (a.1.count = 1 ∧ b.1.count = -1)) (solid : Bool) (hs : solid = false → a.1.count = 1) :
    ∃ K1, Sim (Form45.joinChains H' p (φ a.2) (φ b.2) solid).1 (Form45.joinChains H p a.2 b.2 solid).1 φ K1 ∧
      Ends (Form45.joinChains H' p (φ a.2) (φ b.2) solid).1 (Form45.joinChains H p a.2 b.2 solid).1 φ K1 M ∧
      (Form45.joinChains H p a.2 b.2 solid).1.ft = H.ft ∧
      List.Forall₂ FP (Form45.joinChains H' p (φ a.2) (φ b.2) solid).2.1 (Form45.joinChains H p a.2 b.2 solid).2.1 ∧
      (Form45.joinChains H' p (φ a.2) (φ b.2) solid).2.2 = (Form45.joinChains H p a.2 b.2 solid).2.2.map φ ∧
      ∀ h, (Form45.joinChains H p a.2 b.2 solid).2.2 = some h →
        Flt p.1 (Form45.joinChains H' p (φ a.2) (φ b.2) solid).1 (Form45.joinChains H p a.2 b.2 solid).1 K1 M h := by
  have ma : a ∈ a :: b :: M := List.mem_cons_self
  have mb : b ∈ a :: b :: M := List.mem_cons_of_mem _ List.mem_cons_self
  have mM : ∀ c ∈ M, c ∈ a :: b :: M := fun c hc => List.mem_cons_of_mem _ (List.mem_cons_of_mem _ hc)
  obtain ⟨k, hk, hka⟩ := e.mem a ma
  obtain ⟨d, hd, hdb⟩ := e.mem b mb
  have ta : a.2 ∈ k.1.tails := by simp only [Chain.tails, List.mem_cons, List.not_mem_nil, or_false]; omega
  have tb : b.2 ∈ d.1.tails := by simp only [Chain.tails, List.mem_cons, List.not_mem_nil, or_false]; omega
  have hne : a.2 ≠ b.2 := Ne.symm (e.head.1 b List.mem_cons_self)
  have hneM : ∀ c ∈ M, c.2 ≠ a.2 ∧ c.2 ≠ b.2 := fun c hc => ⟨e.head.1 c (List.mem_cons_of_mem _ hc), e.head.2.head.1 c hc⟩
  have hne' : φ a.2 ≠ φ b.2 := fun h => hne (s.inj hk hd ta tb h)
  have ho := s.a.other hk hd ta tb hne
  have ho' := s.b.other hk hd (s.side hk ta).m2 (s.side hd tb).m2 hne'
  obtain ⟨s1, e1, p1, q1, o1⟩ := e.pushA s pa
  by_cases c : k = d
  · subst c
    have e1' : Ends _ _ φ K (b :: a :: M) := e1.perm (List.Perm.swap _ _ _)
    obtain ⟨s2, e2, p2, q2, o2⟩ := e1'.pushA s1 pb
    have p1' := (o2 k hk a.2 ta hne).1.trans p1
    have q1' := (o2 k hk a.2 ta hne).2.trans q1
    obtain ⟨H2, hH2⟩ : ∃ X, X = Form45.push (Form45.push H a.2 p) b.2 p := ⟨_, rfl⟩
    obtain ⟨H2', hH2'⟩ : ∃ X, X = Form45.push (Form45.push H' (φ a.2) p) (φ b.2) p := ⟨_, rfl⟩
    rw [← hH2, ← hH2'] at s2 e2
    rw [← hH2] at p2 p1'
    rw [← hH2'] at q2 q1'
    have eM : Ends H2' H2 φ K M := e2.head.2.head.2
    have hf2 : H2.ft = H.ft := by rw [hH2, push_ft, push_ft]
    have ht2 : H2.tail = H.tail := by rw [hH2, push_tail, push_tail]
    have ht2' : H2'.tail = H'.tail := by rw [hH2', push_tail, push_tail]
    have j : Form45.joinChains H p a.2 b.2 solid = if solid then (H2.copyHoles a.2 b.2, [(H2.copyHoles a.2 b.2).poly a.2], none) else (H2, [], some a.2) := by
      unfold Form45.joinChains
      rw [if_pos (ho.2 rfl)]
      dsimp only
      rw [← hH2, ht2, ho.2 rfl]
    have j' : Form45.joinChains H' p (φ a.2) (φ b.2) solid =
        if solid then (H2'.copyHoles (φ a.2) (φ b.2), [(H2'.copyHoles (φ a.2) (φ b.2)).poly (φ a.2)], none) else (H2', [], some (φ a.2)) := by
      unfold Form45.joinChains
      rw [if_pos (ho'.2 rfl)]
      dsimp only
      rw [← hH2', ht2', ho'.2 rfl]
    rw [j, j']
    cases solid with
    | false =>
      simp only [Bool.false_eq_true, if_false]
      refine ⟨K, s2, eM, hf2, List.Forall₂.nil, rfl, ?_⟩
      rintro h ⟨⟩
      have hc := hs rfl
      have hkb : a.2 = k.1.b := by omega
      have hkf : b.2 = k.1.f := by omega
      refine ⟨k, hk, hkb, ?_, fun x hx => by rw [← hkb, ← hkf]; exact ⟨(hneM x hx).2, (hneM x hx).1⟩⟩
      have c1 := (s2.co k hk).1
      have c2 := (s2.co k hk).2
      intro x hx
      rw [← c1, ← c2, ← hkb, ← hkf, p1', p2, q1', q2] at hx
      simp only [Option.some_inj, or_self] at hx
      rw [← hx]
    | true =>
      simp only [if_true]
      have cp := s2.a.copy hk ta tb hne
      have cp' := s2.b.copy hk (s.side hk ta).m2 (s.side hk tb).m2 hne'
      have s3 := s2.holes (SameH.copy H2 a.2 b.2) (SameH.copy H2' (φ a.2) (φ b.2)) (fun d hd => (cp d hd).1)
        (fun d hd => by
          have := (cp' d hd).1
          rw [s2.nh d hd] at this
          exact this.eq_nil)
      refine ⟨K, s3, eM.keep (fun a _ => endp_same (SameH.copy _ _ _) _) (fun a _ => endp_same (SameH.copy _ _ _) _) eM.mem, ?_, ?_, rfl, by simp⟩
      · rw [(SameH.copy H2 a.2 b.2).ft, hf2]
      · refine List.Forall₂.cons ?_ List.Forall₂.nil
        have la : (H2.tail a.2).line = k.1.l := by
          simp only [Chain.tails, List.mem_cons, List.not_mem_nil, or_false] at ta
          rcases ta with h | h <;> rw [h]
          · exact (s2.a.fr _ (Sim.m1 hk)).1
          · exact (s2.a.bk _ (Sim.m1 hk)).1
        have la' : (H2'.tail (φ a.2)).line = k.2.l := by
          have := (s.side hk ta).m2
          simp only [Chain.tails, List.mem_cons, List.not_mem_nil, or_false] at this
          rcases this with h | h <;> rw [h]
          · exact (s2.b.fr _ (Sim.m2 hk)).1
          · exact (s2.b.bk _ (Sim.m2 hk)).1
        have w := s2.w k hk
        have ef : endp H2 k.1.f = some p ∧ endp H2' k.2.f = some p := by
          rw [← (s2.co k hk).1]
          have : k.1.f = a.2 ∨ k.1.f = b.2 := by omega
          rcases this with h | h <;> rw [h]
          · exact ⟨p1', q1'⟩
          · exact ⟨p2, q2⟩
        have eb : endp H2 k.1.b = some p ∧ endp H2' k.2.b = some p := by
          rw [← (s2.co k hk).2]
          have : k.1.b = a.2 ∨ k.1.b = b.2 := by omega
          rcases this with h | h <;> rw [h]
          · exact ⟨p1', q1'⟩
          · exact ⟨p2, q2⟩
        rw [s2.a.endF (Sim.m1 hk), s2.b.endF (Sim.m2 hk)] at ef
        rw [s2.a.endB (Sim.m1 hk), s2.b.endB (Sim.m2 hk)] at eb
        have o1 : ((H2.copyHoles a.2 b.2).poly a.2).outer = H2.line k.1.l := by
          unfold Heap.poly
          dsimp only
          rw [((SameH.copy H2 a.2 b.2).t _).1, la]
          rfl
        have o2 : ((H2'.copyHoles (φ a.2) (φ b.2)).poly (φ a.2)).outer = H2'.line k.2.l := by
          unfold Heap.poly
          dsimp only
          rw [((SameH.copy H2' (φ a.2) (φ b.2)).t _).1, la']
          rfl
        refine ⟨fun q => ?_, ?_, p, ?_, ?_⟩
        · rw [o1, o2, w.w q, ef.1, ef.2, eb.1, eb.2]
          have e0 : lnk q (some p) (some p) = 0 := crossing_same q p
          have e3 : ((((H2.copyHoles a.2 b.2).poly a.2).holes).map (wnd q)).sum = hw H2 k.1 q := by
            unfold Heap.poly hw
            dsimp only
            rw [List.map_map, ← sum_perm_map ((cp k hk).2 rfl)]
            congr 1
            apply List.map_congr_left
            intro h _
            show wnd q ((H2.copyHoles a.2 b.2).ring h) = _
            rw [ring_same (SameH.copy _ _ _)]
          rw [e0, e3]; ring
        · rw [o2]; exact w.o
        · rw [o2]; exact ef.2
        · rw [o2]; exact eb.2
  · have j : Form45.joinChains H p a.2 b.2 solid = (Form45.join (Form45.push H a.2 p) a.2 b.2, [], none) := by
      unfold Form45.joinChains
      rw [if_neg (fun h => c (ho.1 h))]
    have j' : Form45.joinChains H' p (φ a.2) (φ b.2) solid = (Form45.join (Form45.push H' (φ a.2) p) (φ a.2) (φ b.2), [], none) := by
      unfold Form45.joinChains
      rw [if_neg (fun h => c (ho'.1 h))]
    rw [j, j']
    dsimp only
    -- the two chains in their order
    obtain ⟨A, B, hA, hB, hAB, g1, g2⟩ : ∃ A B : Chain × Chain, A ∈ K ∧ B ∈ K ∧ A ≠ B ∧ ((a.2 = A.1.b ∧ b.2 = B.1.f) ∨ (a.2 = B.1.f ∧ b.2 = A.1.b)) ∧
        ((φ a.2 = A.2.b ∧ φ b.2 = B.2.f) ∨ (φ a.2 = B.2.f ∧ φ b.2 = A.2.b)) := by
      rcases hab with ⟨h1, h2⟩ | ⟨h1, h2⟩
      · have x1 : a.2 = k.1.f := by omega
        have x2 : b.2 = d.1.b := by omega
        exact ⟨d, k, hd, hk, Ne.symm c, Or.inr ⟨x1, x2⟩, Or.inr ⟨by rw [x1]; exact (s.co k hk).1, by rw [x2]; exact (s.co d hd).2⟩⟩
      · have x1 : a.2 = k.1.b := by omega
        have x2 : b.2 = d.1.f := by omega
        exact ⟨k, d, hk, hd, c, Or.inl ⟨x1, x2⟩, Or.inl ⟨by rw [x1]; exact (s.co k hk).2, by rw [x2]; exact (s.co d hd).1⟩⟩
    obtain ⟨K1, hp⟩ := perm2 hA hB hAB
    have s2 : Sim _ _ φ ((A.1, A.2) :: (B.1, B.2) :: K1) := s1.perm hp
    have sa := s2.a
    have sb := s2.b
    simp only [List.map_cons] at sa sb
    have jn := sa.join g1
    have jn' := sb.join g2
    have onb : ∀ x, endp (Form45.push H a.2 p) b.2 = some x ∨ endp (Form45.push H' (φ a.2) p) (φ b.2) = some x → On b.1 x := e1.on b mb
    have ona : ∀ x, endp (Form45.push H a.2 p) a.2 = some x ∨ endp (Form45.push H' (φ a.2) p) (φ a.2) = some x → On b.1 x := by
      intro x hx
      rw [p1, q1] at hx
      simp only [Option.some_inj, or_self] at hx
      exact hx ▸ pb
    have s3 := s2.join jn jn' (v := b.1) (e.rise b mb) (by
        rcases g1 with ⟨x1, x2⟩ | ⟨x1, x2⟩ <;> rcases g2 with ⟨y1, y2⟩ | ⟨y1, y2⟩
        · rw [← x1, ← y1]; exact ona
        · exfalso; rw [x1, (s2.co _ List.mem_cons_self).2] at y1; exact sb.apart.1.2.2.2.1 y1
        · exfalso; rw [x2, (s2.co _ List.mem_cons_self).2] at y2; exact sb.apart.1.2.2.2.1 y2
        · rw [← x2, ← y2]; exact onb) (by
        rcases g1 with ⟨x1, x2⟩ | ⟨x1, x2⟩ <;> rcases g2 with ⟨y1, y2⟩ | ⟨y1, y2⟩
        · rw [← x2, ← y2]; exact onb
        · exfalso; rw [x1, (s2.co _ List.mem_cons_self).2] at y1; exact sb.apart.1.2.2.2.1 y1
        · exfalso; rw [x2, (s2.co _ List.mem_cons_self).2] at y2; exact sb.apart.1.2.2.2.1 y2
        · rw [← x1, ← y1]; exact ona)
    obtain ⟨u1, u2, u3⟩ := sa.joined_end jn
    obtain ⟨v1, v2, v3⟩ := sb.joined_end jn'
    have eM : Ends _ _ φ ((A.1, A.2) :: (B.1, B.2) :: K1) M := e1.head.2.head.2.kperm hp
    refine ⟨_, s3, ?_, ?_, List.Forall₂.nil, rfl, by simp⟩
    · have key : ∀ x ∈ M, (x.2 = A.1.f ∧ x.1.count = -1) ∨ (x.2 = B.1.b ∧ x.1.count = 1) ∨ ∃ k ∈ K1, (x.2 = k.1.f ∧ x.1.count = -1) ∨ (x.2 = k.1.b ∧ x.1.count = 1) := by
        intro x hx
        obtain ⟨n1, n2⟩ := hneM x hx
        obtain ⟨z, hz, hxz⟩ := eM.mem x hx
        rcases List.mem_cons.1 hz with rfl | hz
        · dsimp only at hxz; omega
        · rcases List.mem_cons.1 hz with rfl | hz
          · dsimp only at hxz; omega
          · exact Or.inr (Or.inr ⟨z, hz, hxz⟩)
      refine eM.keep ?_ ?_ ?_
      · intro x hx
        rcases key x hx with ⟨h, -⟩ | ⟨h, -⟩ | ⟨z, hz, h⟩
        · rw [h]; exact u1
        · rw [h]; exact u2
        · exact u3 z.1 (Sim.m1 hz) _ (by simp only [Chain.tails, List.mem_cons, List.not_mem_nil, or_false]; omega)
      · intro x hx
        rcases key x hx with ⟨h, -⟩ | ⟨h, -⟩ | ⟨z, hz, h⟩
        · rw [h, (s2.co _ List.mem_cons_self).1]; exact v1
        · rw [h, (s2.co _ (List.mem_cons_of_mem _ List.mem_cons_self)).2]; exact v2
        · exact v3 z.2 (Sim.m2 hz) _ (s2.side (List.mem_cons_of_mem _ (List.mem_cons_of_mem _ hz))
            (by simp only [Chain.tails, List.mem_cons, List.not_mem_nil, or_false]; omega)).m2
      · intro x hx
        rcases key x hx with h | h | ⟨z, hz, h⟩
        · exact ⟨_, List.mem_cons_self, Or.inl h⟩
        · exact ⟨_, List.mem_cons_self, Or.inr h⟩
        · exact ⟨z, List.mem_cons_of_mem _ hz, h⟩
    · rw [jn.ft, push_ft]

end Verif.Fr
