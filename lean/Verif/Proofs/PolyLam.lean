import Mathlib.Tactic.SplitIfs
import Mathlib.Data.List.Basic
/-!
# Non-crossing chains along a scanline

`o` pairs the ends of chains, `pos` orders the ends, `F t` is the signed count of a chain read from
its end `t`. The chains are nested or side by side, and so are the regions they cut off.
-/
namespace Verif.Proofs.PolyLam

structure Lam (pos : Nat → Int) (mem : Nat → Prop) (o : Nat → Nat) (F : Nat → Int) : Prop where
  rng : ∀ a, mem a → pos a < pos (o a) → F (o a) = 0 ∨ F (o a) = 1
  lam : ∀ a b, mem a → mem b → pos a < pos (o a) → pos b < pos (o b) → pos a < pos b →
    (pos (o a) < pos b ∧ (F (o a) = 0 ∨ F (o b) = 0)) ∨ (pos (o b) < pos (o a) ∧ F (o b) ≤ F (o a))

/-- Ends are paired. -/
structure Paired (pos : Nat → Int) (mem : Nat → Prop) (o : Nat → Nat) (F : Nat → Int) : Prop where
  inj : ∀ a b, mem a → mem b → pos a = pos b → a = b
  om : ∀ a, mem a → mem (o a)
  one : ∀ a, mem a → o a ≠ a
  oo : ∀ a, mem a → o (o a) = a
  neg : ∀ a, mem a → F (o a) = - F a

variable {pos : Nat → Int} {mem : Nat → Prop} {o : Nat → Nat} {F : Nat → Int}

/-- Two chains with ends `la < ua` and `lb < ub` and counts `va`, `vb` are side by side or nested. -/
def Rel (la ua va lb ub vb : Int) : Prop :=
  (ua < lb ∧ (va = 0 ∨ vb = 0)) ∨ (ub < la ∧ (va = 0 ∨ vb = 0)) ∨ (la < lb ∧ ub < ua ∧ vb ≤ va) ∨ (lb < la ∧ ua < ub ∧ va ≤ vb)

theorem rel_nest_lo {t a va b vb d e vd : Int} (h1 : Rel t a va d e vd) (h2 : Rel (t + 1) b vb d e vd) (hb : t + 1 < b) (hba : b < a)
    (hv : vb ≤ va) (ra : va = 0 ∨ va = 1) (rb : vb = 0 ∨ vb = 1) (rd : vd = 0 ∨ vd = 1) (de : d < e) (d1 : d ≠ t) (d2 : d ≠ t + 1)
    (d3 : e ≠ t) (d4 : e ≠ t + 1) : Rel b a (va - vb) d e vd := by
  unfold Rel at *
  rcases h1 with h1 | h1 | h1 | h1 <;> rcases h2 with h2 | h2 | h2 | h2 <;> omega

theorem rel_nest_hi {u b vb a va d e vd : Int} (h1 : Rel a u va d e vd) (h2 : Rel b (u + 1) vb d e vd) (ha : a < u) (hba : b < a)
    (hv : va ≤ vb) (ra : va = 0 ∨ va = 1) (rb : vb = 0 ∨ vb = 1) (rd : vd = 0 ∨ vd = 1) (de : d < e) (d1 : d ≠ u) (d2 : d ≠ u + 1)
    (d3 : e ≠ u) (d4 : e ≠ u + 1) : Rel b a (vb - va) d e vd := by
  unfold Rel at *
  rcases h1 with h1 | h1 | h1 | h1 <;> rcases h2 with h2 | h2 | h2 | h2 <;> omega

theorem rel_side {t a va b vb d e vd : Int} (h1 : Rel a t va d e vd) (h2 : Rel (t + 1) b vb d e vd) (ha : a < t) (hb : t + 1 < b)
    (hv : va = 0 ∨ vb = 0) (ra : va = 0 ∨ va = 1) (rb : vb = 0 ∨ vb = 1) (rd : vd = 0 ∨ vd = 1) (de : d < e) (d1 : d ≠ t) (d2 : d ≠ t + 1)
    (d3 : e ≠ t) (d4 : e ≠ t + 1) : Rel a b (va + vb) d e vd := by
  unfold Rel at *
  rcases h1 with h1 | h1 | h1 | h1 <;> rcases h2 with h2 | h2 | h2 | h2 <;> omega

/-- The facts about two chains given by their lower ends. -/
theorem two (hl : Lam pos mem o F) {a b : Nat} (ha : mem a) (hb : mem b) (h1 : pos a < pos (o a)) (h2 : pos b < pos (o b))
    (hne : pos a ≠ pos b) :
    (F (o a) = 0 ∨ F (o a) = 1) ∧ (F (o b) = 0 ∨ F (o b) = 1) ∧
    Rel (pos a) (pos (o a)) (F (o a)) (pos b) (pos (o b)) (F (o b)) := by
  refine ⟨hl.rng a ha h1, hl.rng b hb h2, ?_⟩
  unfold Rel
  rcases Int.lt_or_lt_of_ne hne with h | h
  · have := hl.lam a b ha hb h1 h2 h; omega
  · have := hl.lam b a hb ha h2 h1 h; omega

/-- `two` for ends that are the lower or the upper one. -/
theorem pair (hp : Paired pos mem o F) (hl : Lam pos mem o F) {a b : Nat} (ha : mem a) (hb : mem b) (hne : a ≠ b) (hno : o a ≠ b) :
    ∃ la ua lb ub va vb : Int, ((la = pos a ∧ ua = pos (o a) ∧ va = F (o a)) ∨ (la = pos (o a) ∧ ua = pos a ∧ va = F a)) ∧
      ((lb = pos b ∧ ub = pos (o b) ∧ vb = F (o b)) ∨ (lb = pos (o b) ∧ ub = pos b ∧ vb = F b)) ∧ la < ua ∧ lb < ub ∧
      (va = 0 ∨ va = 1) ∧ (vb = 0 ∨ vb = 1) ∧ Rel la ua va lb ub vb := by
  have hoa := hp.om a ha
  have hob := hp.om b hb
  have d1 : pos a ≠ pos (o a) := fun h => hp.one a ha (hp.inj a (o a) ha hoa h).symm
  have d2 : pos b ≠ pos (o b) := fun h => hp.one b hb (hp.inj b (o b) hb hob h).symm
  have d3 : pos a ≠ pos b := fun h => hne (hp.inj a b ha hb h)
  have d4 : pos (o a) ≠ pos b := fun h => hno (hp.inj (o a) b hoa hb h)
  have d5 : pos a ≠ pos (o b) := fun h => by
    have := hp.inj a (o b) ha hob h; apply hno; rw [this, hp.oo b hb]
  have d6 : pos (o a) ≠ pos (o b) := fun h => by
    have := hp.inj _ _ hoa hob h; apply hne; rw [← hp.oo a ha, this, hp.oo b hb]
  have ea := hp.oo a ha
  have eb := hp.oo b hb
  rcases Int.lt_or_lt_of_ne d1 with h1 | h1 <;> rcases Int.lt_or_lt_of_ne d2 with h2 | h2
  · have := two hl ha hb h1 h2 d3
    exact ⟨_, _, _, _, _, _, Or.inl ⟨rfl, rfl, rfl⟩, Or.inl ⟨rfl, rfl, rfl⟩, h1, h2, this.1, this.2.1, this.2.2⟩
  · have := two hl ha hob h1 (by rw [eb]; exact h2) d5
    rw [eb] at this
    exact ⟨_, _, _, _, _, _, Or.inl ⟨rfl, rfl, rfl⟩, Or.inr ⟨rfl, rfl, rfl⟩, h1, h2, this.1, this.2.1, this.2.2⟩
  · have := two hl hoa hb (by rw [ea]; exact h1) h2 d4
    rw [ea] at this
    exact ⟨_, _, _, _, _, _, Or.inr ⟨rfl, rfl, rfl⟩, Or.inl ⟨rfl, rfl, rfl⟩, h1, h2, this.1, this.2.1, this.2.2⟩
  · have := two hl hoa hob (by rw [ea]; exact h1) (by rw [eb]; exact h2) d6
    rw [ea, eb] at this
    exact ⟨_, _, _, _, _, _, Or.inr ⟨rfl, rfl, rfl⟩, Or.inr ⟨rfl, rfl, rfl⟩, h1, h2, this.1, this.2.1, this.2.2⟩

theorem uniq {l u v l' u' v' p q r w : Int} (h : (l = p ∧ u = q ∧ v = r) ∨ (l = q ∧ u = p ∧ v = w))
    (h' : (l' = p ∧ u' = q ∧ v' = r) ∨ (l' = q ∧ u' = p ∧ v' = w)) (a : l < u) (b : l' < u') : l = l' ∧ u = u' ∧ v = v' := by omega

theorem relF1 {lm um vm p q r w d e vd : Int} (h : (lm = p ∧ um = q ∧ vm = r) ∨ (lm = q ∧ um = p ∧ vm = w)) (a : lm < um)
    (b : p < q) (hd : p < d) (de : d < e) (hr : Rel lm um vm d e vd) : (q < d ∧ (r = 0 ∨ vd = 0)) ∨ (e < q ∧ vd ≤ r) := by unfold Rel at hr; omega

theorem relF2 {lm um vm p q r w d e vd : Int} (h : (lm = p ∧ um = q ∧ vm = r) ∨ (lm = q ∧ um = p ∧ vm = w)) (a : lm < um)
    (b : q < p) (hd : q < d) (de : d < e) (hr : Rel lm um vm d e vd) : (p < d ∧ (w = 0 ∨ vd = 0)) ∨ (e < p ∧ vd ≤ w) := by unfold Rel at hr; omega

theorem relF3 {lm um vm p q r w d e vd : Int} (h : (lm = p ∧ um = q ∧ vm = r) ∨ (lm = q ∧ um = p ∧ vm = w)) (a : lm < um)
    (b : p < q) (hd : d < p) (hr : Rel lm um vm d e vd) : (e < p ∧ (vd = 0 ∨ r = 0)) ∨ (q < e ∧ r ≤ vd) := by unfold Rel at hr; omega

theorem relF4 {lm um vm p q r w d e vd : Int} (h : (lm = p ∧ um = q ∧ vm = r) ∨ (lm = q ∧ um = p ∧ vm = w)) (a : lm < um)
    (b : q < p) (hd : d < q) (hr : Rel lm um vm d e vd) : (e < q ∧ (vd = 0 ∨ w = 0)) ∨ (p < e ∧ w ≤ vd) := by unfold Rel at hr; omega

/-- Joining two chains at neighbouring ends. -/
theorem lam_join (hp : Paired pos mem o F) (hl : Lam pos mem o F) {t u : Nat} (ht : mem t) (hu : mem u)
    (hadj : pos u = pos t + 1) (hne : o t ≠ u) {o' : Nat → Nat} {F' : Nat → Int}
    (ho1 : o' (o t) = o u) (ho2 : o' (o u) = o t) (ho' : ∀ a, a ≠ o t → a ≠ o u → o' a = o a)
    (hf1 : F' (o t) = F (o t) + F u) (hf2 : F' (o u) = F (o u) + F t) (hf' : ∀ a, a ≠ o t → a ≠ o u → F' a = F a) :
    Lam pos (fun a => mem a ∧ a ≠ t ∧ a ≠ u) o' F' ∧ Paired pos (fun a => mem a ∧ a ≠ t ∧ a ≠ u) o' F' := by
  have hot := hp.om t ht
  have hou := hp.om u hu
  have hnt := hp.neg t ht
  have hnu := hp.neg u hu
  have htu : t ≠ u := fun h => by rw [h] at hadj; omega
  have hoe : o t ≠ o u := fun h => htu (by rw [← hp.oo t ht, h, hp.oo u hu])
  have hut : o u ≠ t := fun h => hne (by rw [← h, hp.oo u hu])
  have e1 := hp.one t ht
  have e2 := hp.one u hu
  have hoo : ∀ a, mem a → a ≠ t → a ≠ u → a ≠ o t → a ≠ o u → mem (o a) ∧ o a ≠ t ∧ o a ≠ u ∧ o a ≠ o t ∧ o a ≠ o u := by
    intro a ha h1 h2 h3 h4
    refine ⟨hp.om a ha, fun h => h3 ?_, fun h => h4 ?_, fun h => h1 ?_, fun h => h2 ?_⟩
    · rw [← h, hp.oo a ha]
    · rw [← h, hp.oo a ha]
    · rw [← hp.oo a ha, h, hp.oo t ht]
    · rw [← hp.oo a ha, h, hp.oo u hu]
  have inj4 : ∀ a b, mem a → mem b → a ≠ b → pos a ≠ pos b := fun a b ha hb h e => h (hp.inj a b ha hb e)
  have p1 := inj4 t (o t) ht hot e1.symm
  have p2 := inj4 u (o u) hu hou e2.symm
  have p3 := inj4 (o t) u hot hu hne
  have p4 := inj4 (o u) t hou ht hut
  have p5 := inj4 (o t) (o u) hot hou hoe
  -- the two chains themselves
  obtain ⟨la, ua, lb, ub, va, vb, hA, hB, hla, hlb, rA, rB, hAB⟩ := pair hp hl ht hu htu hne
  -- the merged chain
  obtain ⟨lm, um, vm, hM, hlm, rM, hRel⟩ : ∃ lm um vm : Int,
      ((lm = pos (o t) ∧ um = pos (o u) ∧ vm = F' (o u)) ∨ (lm = pos (o u) ∧ um = pos (o t) ∧ vm = F' (o t))) ∧ lm < um ∧ (vm = 0 ∨ vm = 1) ∧
      ∀ d e vd : Int, Rel la ua va d e vd → Rel lb ub vb d e vd → (vd = 0 ∨ vd = 1) → d < e → d ≠ pos t → d ≠ pos u → e ≠ pos t → e ≠ pos u →
        Rel lm um vm d e vd := by
    rw [hf1, hf2]
    rcases hA with ⟨rfl, rfl, rfl⟩ | ⟨rfl, rfl, rfl⟩ <;> rcases hB with ⟨rfl, rfl, rfl⟩ | ⟨rfl, rfl, rfl⟩
    · have hn : pos (o u) < pos (o t) ∧ F (o u) ≤ F (o t) := by unfold Rel at hAB; omega
      refine ⟨_, _, _, Or.inr ⟨rfl, rfl, rfl⟩, hn.1, by omega, fun d e vd r1 r2 rd de d1 d2 d3 d4 => ?_⟩
      have : F (o t) + F u = F (o t) - F (o u) := by omega
      rw [this]; rw [hadj] at r2 d2 d4 hlb
      exact rel_nest_lo r1 r2 hlb hn.1 hn.2 rA rB rd de d1 d2 d3 d4
    · exfalso; unfold Rel at hAB; omega
    · have hn : F (o u) = 0 ∨ F t = 0 := by unfold Rel at hAB; omega
      refine ⟨_, _, _, Or.inl ⟨rfl, rfl, rfl⟩, by omega, by omega, fun d e vd r1 r2 rd de d1 d2 d3 d4 => ?_⟩
      have : F (o u) + F t = F t + F (o u) := by omega
      rw [this]; rw [hadj] at r2 d2 d4 hlb
      exact rel_side r1 r2 hla hlb hn.symm rA rB rd de d1 d2 d3 d4
    · have hn : pos (o u) < pos (o t) ∧ F t ≤ F u := by unfold Rel at hAB; omega
      refine ⟨_, _, _, Or.inr ⟨rfl, rfl, rfl⟩, hn.1, by omega, fun d e vd r1 r2 rd de d1 d2 d3 d4 => ?_⟩
      have : F (o t) + F u = F u - F t := by omega
      rw [this]; rw [hadj] at r2 d2 d4 hlb
      exact rel_nest_hi r1 r2 hla hn.1 hn.2 rA rB rd de d1 d2 d3 d4
  -- the merged chain against a third one
  have third : ∀ d, mem d → d ≠ t → d ≠ u → d ≠ o t → d ≠ o u → pos d < pos (o d) → Rel lm um vm (pos d) (pos (o d)) (F (o d)) := by
    intro d hd h1 h2 h3 h4 hlow
    obtain ⟨hod, h5, h6, h7, h8⟩ := hoo d hd h1 h2 h3 h4
    have q1 := inj4 d t hd ht h1
    have q2 := inj4 d u hd hu h2
    have q3 := inj4 (o d) t hod ht h5
    have q4 := inj4 (o d) u hod hu h6
    obtain ⟨la', ua', ld, ud, va', vd, hA', hD, hla', hld, rA', rD, hAD⟩ := pair hp hl ht hd h1.symm h3.symm
    obtain ⟨lb', ub', ld', ud', vb', vd', hB', hD', hlb', hld', rB', rD', hBD⟩ := pair hp hl hu hd h2.symm h4.symm
    have q5 := uniq hD (Or.inl ⟨rfl, rfl, rfl⟩) hld hlow
    have q6 := uniq hD' (Or.inl ⟨rfl, rfl, rfl⟩) hld' hlow
    have q7 := uniq hA' hA hla' hla
    have q8 := uniq hB' hB hlb' hlb
    obtain ⟨rfl, rfl, rfl⟩ := q7
    obtain ⟨rfl, rfl, rfl⟩ := q8
    obtain ⟨rfl, rfl, rfl⟩ := q5
    obtain ⟨x1, x2, x3⟩ := q6
    rw [x1, x2, x3] at hBD
    exact hRel _ _ _ hAD hBD rD hld q1 q2 q3 q4
  refine ⟨⟨?_, ?_⟩, ⟨fun a b ha hb => hp.inj a b ha.1 hb.1, ?_, ?_, ?_, ?_⟩⟩
  · rintro a ⟨ha, h1, h2⟩ hlow
    by_cases h3 : a = o t
    · rw [h3, ho1] at hlow ⊢; rw [← (uniq hM (Or.inl ⟨rfl, rfl, rfl⟩) hlm hlow).2.2]; exact rM
    by_cases h4 : a = o u
    · rw [h4, ho2] at hlow ⊢; rw [← (uniq hM (Or.inr ⟨rfl, rfl, rfl⟩) hlm hlow).2.2]; exact rM
    obtain ⟨-, -, -, h7, h8⟩ := hoo a ha h1 h2 h3 h4
    rw [ho' a h3 h4] at hlow ⊢
    rw [hf' _ h7 h8]; exact hl.rng a ha hlow
  · rintro a b ⟨ha, a1, a2⟩ ⟨hb, b1, b2⟩ la1 lb1 hab
    by_cases h3 : a = o t
    · subst h3
      rw [ho1] at la1 ⊢
      by_cases h5 : b = o t
      · rw [h5] at hab; omega
      by_cases h6 : b = o u
      · rw [h6, ho2] at lb1; omega
      rw [ho' b h5 h6] at lb1 ⊢
      obtain ⟨-, -, -, h7, h8⟩ := hoo b hb b1 b2 h5 h6
      rw [hf' _ h7 h8]
      exact relF1 hM hlm la1 hab lb1 (third b hb b1 b2 h5 h6 lb1)
    by_cases h4 : a = o u
    · subst h4
      rw [ho2] at la1 ⊢
      by_cases h5 : b = o t
      · rw [h5, ho1] at lb1; omega
      by_cases h6 : b = o u
      · rw [h6] at hab; omega
      rw [ho' b h5 h6] at lb1 ⊢
      obtain ⟨-, -, -, h7, h8⟩ := hoo b hb b1 b2 h5 h6
      rw [hf' _ h7 h8]
      exact relF2 hM hlm la1 hab lb1 (third b hb b1 b2 h5 h6 lb1)
    rw [ho' a h3 h4] at la1 ⊢
    obtain ⟨-, -, -, h7, h8⟩ := hoo a ha a1 a2 h3 h4
    rw [hf' _ h7 h8]
    by_cases h5 : b = o t
    · subst h5; rw [ho1] at lb1 ⊢; exact relF3 hM hlm lb1 hab (third a ha a1 a2 h3 h4 la1)
    by_cases h6 : b = o u
    · subst h6; rw [ho2] at lb1 ⊢; exact relF4 hM hlm lb1 hab (third a ha a1 a2 h3 h4 la1)
    rw [ho' b h5 h6] at lb1 ⊢
    obtain ⟨-, -, -, h9, h10⟩ := hoo b hb b1 b2 h5 h6
    rw [hf' _ h9 h10]
    exact hl.lam a b ha hb la1 lb1 hab
  · rintro a ⟨ha, h1, h2⟩
    by_cases h3 : a = o t
    · rw [h3, ho1]; exact ⟨hou, hut, e2⟩
    by_cases h4 : a = o u
    · rw [h4, ho2]; exact ⟨hot, e1, hne⟩
    obtain ⟨h5, h6, h7, -, -⟩ := hoo a ha h1 h2 h3 h4
    rw [ho' a h3 h4]; exact ⟨h5, h6, h7⟩
  · rintro a ⟨ha, h1, h2⟩
    by_cases h3 : a = o t
    · rw [h3, ho1]; exact hoe.symm
    by_cases h4 : a = o u
    · rw [h4, ho2]; exact hoe
    rw [ho' a h3 h4]; exact hp.one a ha
  · rintro a ⟨ha, h1, h2⟩
    by_cases h3 : a = o t
    · rw [h3, ho1, ho2]
    by_cases h4 : a = o u
    · rw [h4, ho2, ho1]
    obtain ⟨-, -, -, h7, h8⟩ := hoo a ha h1 h2 h3 h4
    rw [ho' a h3 h4, ho' _ h7 h8]; exact hp.oo a ha
  · rintro a ⟨ha, h1, h2⟩
    by_cases h3 : a = o t
    · rw [h3, ho1, hf1, hf2]; omega
    by_cases h4 : a = o u
    · rw [h4, ho2, hf1, hf2]; omega
    obtain ⟨-, -, -, h7, h8⟩ := hoo a ha h1 h2 h3 h4
    rw [ho' a h3 h4, hf' _ h7 h8, hf' _ h3 h4]; exact hp.neg a ha

/-- Only the order of the ends matters. -/
theorem lam_order {pos' : Nat → Int} (om : ∀ a, mem a → mem (o a)) (hl : Lam pos mem o F)
    (h : ∀ a b, mem a → mem b → (pos' a < pos' b ↔ pos a < pos b)) : Lam pos' mem o F := by
  refine ⟨fun a ha h1 => hl.rng a ha ((h a _ ha (om a ha)).1 h1), fun a b ha hb h1 h2 h3 => ?_⟩
  rw [h a _ ha (om a ha)] at h1
  rw [h b _ hb (om b hb)] at h2
  rw [h a b ha hb] at h3
  rw [h _ b (om a ha) hb, h _ _ (om b hb) (om a ha)]
  exact hl.lam a b ha hb h1 h2 h3

/-- Only the values on the members matter. -/
theorem lam_congr {mem' : Nat → Prop} {o' : Nat → Nat} {F' : Nat → Int} (hl : Lam pos mem o F) (hm : ∀ a, mem' a → mem a)
    (ho : ∀ a, mem' a → o' a = o a) (hF : ∀ a, mem' a → F' (o a) = F (o a)) : Lam pos mem' o' F' := by
  refine ⟨fun a ha h1 => ?_, fun a b ha hb h1 h2 h3 => ?_⟩
  · rw [ho a ha] at h1 ⊢; rw [hF a ha]; exact hl.rng a (hm a ha) h1
  · rw [ho a ha] at h1 ⊢; rw [ho b hb] at h2 ⊢; rw [hF a ha, hF b hb]; exact hl.lam a b (hm a ha) (hm b hb) h1 h2 h3

/-- A new chain that counts nothing yet. -/
theorem lam_new (hp : Paired pos mem o F) (hl : Lam pos mem o F) {p q : Nat} (hpq : p ≠ q) (hpm : ¬ mem p) (hqm : ¬ mem q)
    {o' : Nat → Nat} {F' : Nat → Int} (ho1 : o' p = q) (ho2 : o' q = p) (hf1 : F' p = 0) (hf2 : F' q = 0)
    (ho' : ∀ a, mem a → o' a = o a) (hf' : ∀ a, mem a → F' a = F a)
    (hadj : pos q = pos p + 1) (hpos : ∀ a, mem a → pos a ≠ pos p ∧ pos a ≠ pos q) :
    Lam pos (fun a => mem a ∨ a = p ∨ a = q) o' F' ∧ Paired pos (fun a => mem a ∨ a = p ∨ a = q) o' F' := by
  refine ⟨⟨?_, ?_⟩, ⟨?_, ?_, ?_, ?_, ?_⟩⟩
  · rintro a (ha | rfl | rfl) h1
    · rw [ho' a ha] at h1 ⊢; rw [hf' _ (hp.om a ha)]; exact hl.rng a ha h1
    · rw [ho1, hf2]; left; rfl
    · rw [ho2, hf1]; left; rfl
  · rintro a b (ha | rfl | rfl) (hb | rfl | rfl) h1 h2 h3
    · rw [ho' a ha] at h1 ⊢; rw [ho' b hb] at h2 ⊢; rw [hf' _ (hp.om a ha), hf' _ (hp.om b hb)]
      exact hl.lam a b ha hb h1 h2 h3
    · rw [ho' a ha] at h1 ⊢; rw [ho1, hf' _ (hp.om a ha), hf2]
      have := hl.rng a ha h1
      have x := hpos (o a) (hp.om a ha)
      omega
    · rw [ho2] at h2; omega
    · rw [ho' b hb] at h2 ⊢; rw [ho1, hf' _ (hp.om b hb), hf2]
      have := hl.rng b hb h2
      have x := hpos b hb
      omega
    · omega
    · rw [ho2] at h2; omega
    · rw [ho2] at h1; omega
    · rw [ho2] at h1; omega
    · omega
  · rintro a b (ha | rfl | rfl) (hb | rfl | rfl) e
    · exact hp.inj a b ha hb e
    · exact absurd e (hpos a ha).1
    · exact absurd e (hpos a ha).2
    · exact absurd e.symm (hpos b hb).1
    · rfl
    · omega
    · exact absurd e.symm (hpos b hb).2
    · omega
    · rfl
  · rintro a (ha | rfl | rfl)
    · rw [ho' a ha]; exact Or.inl (hp.om a ha)
    · rw [ho1]; exact Or.inr (Or.inr rfl)
    · rw [ho2]; exact Or.inr (Or.inl rfl)
  · rintro a (ha | rfl | rfl)
    · rw [ho' a ha]; exact hp.one a ha
    · rw [ho1]; exact hpq.symm
    · rw [ho2]; exact hpq
  · rintro a (ha | rfl | rfl)
    · rw [ho' a ha, ho' _ (hp.om a ha)]; exact hp.oo a ha
    · rw [ho1, ho2]
    · rw [ho2, ho1]
  · rintro a (ha | rfl | rfl)
    · rw [ho' a ha, hf' _ (hp.om a ha), hf' a ha]; exact hp.neg a ha
    · rw [ho1, hf1, hf2]; rfl
    · rw [ho2, hf1, hf2]; rfl

/-! ### Holes between the chains -/

/-- The chain with ends `l < u` spans the gap above position `q`. -/
def Sp (q l u : Int) : Prop := l ≤ q ∧ q < u

/-- A hole in the gap above position `q`, `v` whether it covers the point at hand, and a chain with
ends `l < u` that counts `e`: the hole lies inside if the chain spans the gap, and outside otherwise. -/
def Hr (q v l u e : Int) : Prop := (Sp q l u → v ≤ e) ∧ (¬ Sp q l u → v = 0 ∨ e = 0)

/-- The lower end of the covered gap next to an end. -/
def gp (p : Int) : Int := p - p % 2

def HR (pos : Nat → Int) (mem : Nat → Prop) (o : Nat → Nat) (F : Nat → Int) (q v : Int) : Prop :=
  ∀ c, mem c → pos c < pos (o c) → Hr q v (pos c) (pos (o c)) (F (o c))

theorem hr_zero (hl : Lam pos mem o F) (q : Int) : HR pos mem o F q 0 := fun c hc h => by
  have := hl.rng c hc h
  exact ⟨fun _ => by omega, fun _ => Or.inl rfl⟩

theorem hr_congr {mem' : Nat → Prop} {o' : Nat → Nat} {F' : Nat → Int} {q v : Int} (hl : HR pos mem o F q v) (hm : ∀ a, mem' a → mem a)
    (ho : ∀ a, mem' a → o' a = o a) (hF : ∀ a, mem' a → F' (o a) = F (o a)) : HR pos mem' o' F' q v := fun a ha h1 => by
  rw [ho a ha] at h1 ⊢; rw [hF a ha]; exact hl a (hm a ha) h1

/-- Positions and the gap moved together. -/
theorem hr_order {pos' : Nat → Int} {q q' v : Int} (om : ∀ a, mem a → mem (o a)) (hl : HR pos mem o F q v)
    (h : ∀ a b, mem a → mem b → (pos' a < pos' b ↔ pos a < pos b)) (hq : ∀ a, mem a → (pos' a ≤ q' ↔ pos a ≤ q)) : HR pos' mem o F q' v := fun a ha h1 => by
  rw [h a _ ha (om a ha)] at h1
  have := hl a ha h1
  have e : Sp q' (pos' a) (pos' (o a)) ↔ Sp q (pos a) (pos (o a)) := by
    have h2 := hq a ha
    have h3 := hq (o a) (om a ha)
    unfold Sp; omega
  unfold Hr at *
  rw [e]; exact this

/-- Where a hole goes when the neighbours at `T` and `T + 1` are joined, with other ends at `a`, `b`. -/
def Mv (T a b q q' : Int) : Prop :=
  (q' = q ∧ q ≠ T) ∨ (((T % 2 = 0 ∧ q = T) ∨ (T % 2 = 1 ∧ (q = T - 1 ∨ q = T + 1))) ∧ (q' = gp a ∨ q' = gp b))

theorem sp_gp {a d e : Int} (h1 : d ≠ a) (h2 : e ≠ a) : Sp (gp a) d e ↔ d < a ∧ a < e := by unfold Sp gp; omega

theorem hr_far {T a b q q' v d e vd : Int} (hm : Mv T a b q q') (ne : d ≠ T ∧ d ≠ T + 1 ∧ d ≠ a ∧ d ≠ b ∧ e ≠ T ∧ e ≠ T + 1 ∧ e ≠ a ∧ e ≠ b)
    (r1 : (d < T ∧ T < e) ↔ (d < a ∧ a < e)) (r2 : (d < T + 1 ∧ T + 1 < e) ↔ (d < b ∧ b < e))
    (h : Hr q v d e vd) : Hr q' v d e vd := by
  rcases hm with ⟨rfl, _⟩ | ⟨hq, hq'⟩
  · exact h
  have e1 : Sp q d e ↔ (d < T ∧ T < e) := by unfold Sp; omega
  have e2 : Sp q' d e ↔ (d < T ∧ T < e) := by
    rcases hq' with rfl | rfl
    · rw [sp_gp (by omega) (by omega), r1]
    · rw [sp_gp (by omega) (by omega), ← r2]; omega
  unfold Hr at *
  rw [e2]; rw [e1] at h; exact h

theorem hr_nest_lo {T a b q q' v v1 v2 : Int} (hm : Mv T a b q q') (pa : (T + a) % 2 = 1) (pb : (T + 1 + b) % 2 = 1) (hb : T + 1 < b) (hba : b < a)
    (hv : v2 ≤ v1) (h : Hr q v T a v1) (h' : Hr q v (T + 1) b v2) (rv : v = 0 ∨ v = 1) (rv1 : v1 = 0 ∨ v1 = 1) (rv2 : v2 = 0 ∨ v2 = 1) :
    Hr q' v b a (v1 - v2) := by
  have e : Sp q' b a ↔ (Sp q T a ∧ ¬ Sp q (T + 1) b) := by
    unfold Mv gp at hm; unfold Sp
    rcases hm with ⟨rfl, hm⟩ | ⟨hq | ⟨hq, hq2 | hq2⟩, hq' | hq'⟩ <;> omega
  have i : Sp q (T + 1) b → Sp q T a := by unfold Sp; omega
  unfold Hr at *
  rw [e]
  by_cases s1 : Sp q T a <;> by_cases s2 : Sp q (T + 1) b <;> simp only [s1, s2, not_true_eq_false, not_false_eq_true, and_true, and_false, forall_const, IsEmpty.forall_iff, true_and] at h h' i ⊢ <;> omega

theorem hr_nest_hi {T a b q q' v v1 v2 : Int} (hm : Mv T a b q q') (pa : (T + a) % 2 = 1) (pb : (T + 1 + b) % 2 = 1) (ha : a < T) (hba : b < a)
    (hv : v1 ≤ v2) (h : Hr q v a T v1) (h' : Hr q v b (T + 1) v2) (rv : v = 0 ∨ v = 1) (rv1 : v1 = 0 ∨ v1 = 1) (rv2 : v2 = 0 ∨ v2 = 1) :
    Hr q' v b a (v2 - v1) := by
  have e : Sp q' b a ↔ (Sp q b (T + 1) ∧ ¬ Sp q a T) := by
    unfold Mv gp at hm; unfold Sp
    rcases hm with ⟨rfl, hm⟩ | ⟨hq | ⟨hq, hq2 | hq2⟩, hq' | hq'⟩ <;> omega
  have i : Sp q a T → Sp q b (T + 1) := by unfold Sp; omega
  unfold Hr at *
  rw [e]
  by_cases s1 : Sp q a T <;> by_cases s2 : Sp q b (T + 1) <;> simp only [s1, s2, not_true_eq_false, not_false_eq_true, and_true, and_false, forall_const, IsEmpty.forall_iff, true_and] at h h' i ⊢ <;> omega

theorem hr_side {T a b q q' v v1 v2 : Int} (hm : Mv T a b q q') (pa : (T + a) % 2 = 1) (pb : (T + 1 + b) % 2 = 1) (ha : a < T) (hb : T + 1 < b)
    (h : Hr q v a T v1) (h' : Hr q v (T + 1) b v2) (rv1 : v1 = 0 ∨ v1 = 1) (rv2 : v2 = 0 ∨ v2 = 1) :
    Hr q' v a b (v1 + v2) := by
  have e : Sp q' a b ↔ (Sp q a T ∨ Sp q (T + 1) b) := by
    unfold Mv gp at hm; unfold Sp
    rcases hm with ⟨rfl, hm⟩ | ⟨hq | ⟨hq, hq2 | hq2⟩, hq' | hq'⟩ <;> omega
  have i : Sp q a T → ¬ Sp q (T + 1) b := by unfold Sp; omega
  unfold Hr at *
  rw [e]
  by_cases s1 : Sp q a T <;> by_cases s2 : Sp q (T + 1) b <;> simp only [s1, s2, not_true_eq_false, not_false_eq_true, forall_const, IsEmpty.forall_iff, true_and, and_true, or_true, or_false] at h h' i ⊢ <;> omega

theorem rel_cross {l1 u1 v1 d e vd T a w w' : Int} (h : (l1 = T ∧ u1 = a ∧ v1 = w) ∨ (l1 = a ∧ u1 = T ∧ v1 = w')) (hr : Rel l1 u1 v1 d e vd) (de : d < e) (lu : l1 < u1) :
    ((d < T ∧ T < e) ↔ (d < a ∧ a < e)) ∧ d ≠ a ∧ e ≠ a ∧ d ≠ T ∧ e ≠ T := by
  unfold Rel at hr
  rcases h with ⟨rfl, rfl, _⟩ | ⟨rfl, rfl, _⟩ <;> rcases hr with hr | hr | hr | hr <;> omega

/-- Joining two chains at neighbouring ends. -/
theorem hr_join (hp : Paired pos mem o F) (hl : Lam pos mem o F) {t u : Nat} (ht : mem t) (hu : mem u)
    (hadj : pos u = pos t + 1) (hne : o t ≠ u) {o' : Nat → Nat} {F' : Nat → Int}
    (ho1 : o' (o t) = o u) (ho2 : o' (o u) = o t) (ho' : ∀ a, a ≠ o t → a ≠ o u → o' a = o a)
    (hf1 : F' (o t) = F (o t) + F u) (hf2 : F' (o u) = F (o u) + F t) (hf' : ∀ a, a ≠ o t → a ≠ o u → F' a = F a)
    (pt : (pos t + pos (o t)) % 2 = 1) (pu : (pos u + pos (o u)) % 2 = 1) {q q' v : Int} (rv : v = 0 ∨ v = 1)
    (hm : Mv (pos t) (pos (o t)) (pos (o u)) q q') (h : HR pos mem o F q v) :
    HR pos (fun a => mem a ∧ a ≠ t ∧ a ≠ u) o' F' q' v := by
  have hot := hp.om t ht
  have hou := hp.om u hu
  have hnt := hp.neg t ht
  have hnu := hp.neg u hu
  have htu : t ≠ u := fun h => by rw [h] at hadj; omega
  have hoe : o t ≠ o u := fun h => htu (by rw [← hp.oo t ht, h, hp.oo u hu])
  have hut : o u ≠ t := fun h => hne (by rw [← h, hp.oo u hu])
  have e1 := hp.one t ht
  have e2 := hp.one u hu
  have inj4 : ∀ a b, mem a → mem b → a ≠ b → pos a ≠ pos b := fun a b ha hb h e => h (hp.inj a b ha hb e)
  have p3 := inj4 (o t) u hot hu hne
  have p4 := inj4 (o u) t hou ht hut
  have p5 := inj4 (o t) (o u) hot hou hoe
  -- what the old chains say
  have old : ∀ c, mem c → ∀ l w x, ((l = pos c ∧ w = pos (o c) ∧ x = F (o c)) ∨ (l = pos (o c) ∧ w = pos c ∧ x = F c)) → l < w → Hr q v l w x := by
    rintro c hc l w x (⟨rfl, rfl, rfl⟩ | ⟨rfl, rfl, rfl⟩) hlw
    · exact h c hc hlw
    · have := h (o c) (hp.om c hc) (by rw [hp.oo c hc]; exact hlw)
      rw [hp.oo c hc] at this; exact this
  -- the two chains themselves
  obtain ⟨la, ua, lb, ub, va, vb, hA, hB, hla, hlb, rA, rB, hAB⟩ := pair hp hl ht hu htu hne
  have oA := old t ht la ua va hA hla
  have oB := old u hu lb ub vb hB hlb
  obtain ⟨lm, um, vm, hM, hlm, hH⟩ : ∃ lm um vm : Int,
      ((lm = pos (o t) ∧ um = pos (o u) ∧ vm = F' (o u)) ∨ (lm = pos (o u) ∧ um = pos (o t) ∧ vm = F' (o t))) ∧ lm < um ∧ Hr q' v lm um vm := by
    rw [hf1, hf2]
    rcases hA with ⟨rfl, rfl, rfl⟩ | ⟨rfl, rfl, rfl⟩ <;> rcases hB with ⟨rfl, rfl, rfl⟩ | ⟨rfl, rfl, rfl⟩
    · have hn : pos (o u) < pos (o t) ∧ F (o u) ≤ F (o t) := by unfold Rel at hAB; omega
      refine ⟨_, _, _, Or.inr ⟨rfl, rfl, rfl⟩, hn.1, ?_⟩
      have : F (o t) + F u = F (o t) - F (o u) := by omega
      rw [this]; rw [hadj] at oB pu hlb
      exact hr_nest_lo hm pt pu hlb hn.1 hn.2 oA oB rv rA rB
    · exfalso; unfold Rel at hAB; omega
    · refine ⟨_, _, _, Or.inl ⟨rfl, rfl, rfl⟩, by omega, ?_⟩
      have : F (o u) + F t = F t + F (o u) := by omega
      rw [this]; rw [hadj] at oB pu hlb
      exact hr_side hm pt pu hla hlb oA oB rA rB
    · have hn : pos (o u) < pos (o t) ∧ F t ≤ F u := by unfold Rel at hAB; omega
      refine ⟨_, _, _, Or.inr ⟨rfl, rfl, rfl⟩, hn.1, ?_⟩
      have : F (o t) + F u = F u - F t := by omega
      rw [this]; rw [hadj] at oB pu hlb
      exact hr_nest_hi hm pt pu hla hn.1 hn.2 oA oB rv rA rB
  rintro c ⟨hc, h1, h2⟩ hlow
  by_cases h3 : c = o t
  · subst h3
    rw [ho1] at hlow ⊢
    obtain ⟨x1, x2, x3⟩ := uniq hM (Or.inl ⟨rfl, rfl, rfl⟩) hlm hlow
    rw [← x1, ← x2, ← x3]; exact hH
  by_cases h4 : c = o u
  · subst h4
    rw [ho2] at hlow ⊢
    obtain ⟨x1, x2, x3⟩ := uniq hM (Or.inr ⟨rfl, rfl, rfl⟩) hlm hlow
    rw [← x1, ← x2, ← x3]; exact hH
  have h7 : o c ≠ o t := fun e => h1 (by rw [← hp.oo c hc, e, hp.oo t ht])
  have h8 : o c ≠ o u := fun e => h2 (by rw [← hp.oo c hc, e, hp.oo u hu])
  rw [ho' c h3 h4] at hlow ⊢
  rw [hf' _ h7 h8]
  obtain ⟨la', ua', ld, ud, va', vd, hA', hD, hla', hld, rA', rD, hAD⟩ := pair hp hl ht hc h1.symm (Ne.symm h3)
  obtain ⟨lb', ub', ld', ud', vb', vd', hB', hD', hlb', hld', rB', rD', hBD⟩ := pair hp hl hu hc h2.symm (Ne.symm h4)
  obtain ⟨rfl, rfl, rfl⟩ := uniq hD (Or.inl ⟨rfl, rfl, rfl⟩) hld hlow
  obtain ⟨x1, x2, x3⟩ := uniq hD' (Or.inl ⟨rfl, rfl, rfl⟩) hld' hlow
  rw [x1, x2, x3] at hBD
  obtain ⟨c1, c2, c3, c4, c5⟩ := rel_cross hA' hAD hld hla'
  obtain ⟨k1, k2, k3, k4, k5⟩ := rel_cross hB' hBD hld hlb'
  rw [hadj] at k1 k4 k5
  exact hr_far hm ⟨c4, k4, c2, k2, c5, k5, c3, k3⟩ c1 k1 (h c hc hlow)

end Verif.Proofs.PolyLam
