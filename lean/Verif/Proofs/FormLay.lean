import Verif.Proofs.PolyInv
/-!
# The open ends of the formation along the scanline: which chains lie inside which

Chains are pairs of ends along the scanline that do not cross. A chain counts what it and its two pending edges contribute to the winding around
a point; a hole counts the negative of its winding. `Lay` says how the counts of chains and holes bound each other.
-/
namespace Verif.Proofs.FormLay
open Verif.Proofs.PolyLam Verif.Proofs.PolyInv
open Verif.Proofs.PolyWeb (ps ps_inj ps_append ps_mid mem_lt ps_order ps_adj mem_mid nodup_mid)

/-- `T` the open ends from bottom to top, `o` the other end of a chain, `F` the counts, `hs` the counts of the holes at an end, `fl` those of the holes
that have no polygon yet and lie in the gap above position `q`. -/
structure Lay (T : List Nat) (o : Nat → Nat) (F : Nat → Int) (hs : Nat → List Int) (fl : List Int) (q : Int) : Prop where
  nd : T.Nodup
  lam : Lam (ps T) (· ∈ T) o F
  prd : Paired (ps T) (· ∈ T) o F
  par : ∀ t ∈ T, (ps T t + ps T (o t)) % 2 = 1
  rng : ∀ t ∈ T, ∀ v ∈ hs t, v = 0 ∨ v = 1
  nest : ∀ t ∈ T, ∀ v ∈ hs t, HR (ps T) (· ∈ T) o F (gp (ps T t)) v
  frng : ∀ v ∈ fl, v = 0 ∨ v = 1
  fnest : ∀ v ∈ fl, HR (ps T) (· ∈ T) o F q v
  sum : (T.map (fun t => (hs t).sum)).sum + fl.sum ≤ 1

variable {T A B : List Nat} {o o' : Nat → Nat} {F F' : Nat → Int} {hs hs' : Nat → List Int} {fl : List Int} {q : Int}

theorem sum_nonneg : ∀ {L : List Int}, (∀ v ∈ L, v = 0 ∨ v = 1) → 0 ≤ L.sum
  | [], _ => by simp
  | a :: L, h => by
    have h1 := h a (by simp)
    have h2 := sum_nonneg (L := L) (fun v hv => h v (by simp [hv]))
    rw [List.sum_cons]; omega

/-- Only the values at the ends matter. -/
theorem Lay.congr (h : Lay T o F hs fl q) (ho : ∀ t ∈ T, o' t = o t) (hF : ∀ t ∈ T, F' t = F t) (hh : ∀ t ∈ T, (hs' t).Perm (hs t)) : Lay T o' F' hs' fl q where
  nd := h.nd
  lam := lam_congr h.lam (fun _ ha => ha) ho (fun a ha => hF _ (h.prd.om a ha))
  prd := ⟨h.prd.inj, fun a ha => by rw [ho a ha]; exact h.prd.om a ha, fun a ha => by rw [ho a ha]; exact h.prd.one a ha,
    fun a ha => by rw [ho a ha, ho _ (h.prd.om a ha)]; exact h.prd.oo a ha,
    fun a ha => by rw [ho a ha, hF _ (h.prd.om a ha), hF a ha]; exact h.prd.neg a ha⟩
  par := fun t ht => by rw [ho t ht]; exact h.par t ht
  rng := fun t ht v hv => h.rng t ht v ((hh t ht).mem_iff.1 hv)
  nest := fun t ht v hv => hr_congr (h.nest t ht v ((hh t ht).mem_iff.1 hv)) (fun _ ha => ha) ho (fun a ha => hF _ (h.prd.om a ha))
  frng := h.frng
  fnest := fun v hv => hr_congr (h.fnest v hv) (fun _ ha => ha) ho (fun a ha => hF _ (h.prd.om a ha))
  sum := by
    rw [List.map_congr_left (fun t ht => (hh t ht).sum_eq)]; exact h.sum

theorem ps_cong (h : (A ++ B).Nodup) {t u : Nat} (ht : t ∉ A ++ B) (hu : u ∉ A ++ B) (htu : t ≠ u) : (A ++ t :: u :: B).Nodup := by
  have := List.nodup_append.1 h
  simp only [List.mem_append, not_or] at ht hu
  refine List.nodup_append.2 ⟨this.1, ?_, ?_⟩
  · simp only [List.nodup_cons, List.mem_cons, not_or]
    exact ⟨⟨htu, ht.2⟩, hu.2, this.2.1⟩
  · intro a ha b hb e
    subst e
    rcases List.mem_cons.1 hb with rfl | hb
    · exact ht.1 ha
    rcases List.mem_cons.1 hb with rfl | hb
    · exact hu.1 ha
    exact this.2.2 a ha a hb rfl

/-- A new chain that counts nothing, its ends next to each other. -/
theorem Lay.new (h : Lay (A ++ B) o F hs fl q) {t u : Nat} (ht : t ∉ A ++ B) (hu : u ∉ A ++ B) (htu : t ≠ u)
    (ho1 : o' t = u) (ho2 : o' u = t) (ho : ∀ a ∈ A ++ B, o' a = o a) (hF1 : F' t = 0) (hF2 : F' u = 0) (hF : ∀ a ∈ A ++ B, F' a = F a)
    (hh1 : hs' t = []) (hh2 : hs' u = []) (hh : ∀ a ∈ A ++ B, hs' a = hs a) {q' : Int} (hq : fl = [] ∨ Shf A.length q' q) :
    Lay (A ++ t :: u :: B) o' F' hs' fl q' := by
  have hn := ps_cong h.nd ht hu htu
  have hm := fun a => mem_mid (a := a) hn
  have hadj := ps_adj hn
  have split : ∀ n, n ∈ A ++ t :: u :: B ↔ n ∈ A ++ B ∨ n = t ∨ n = u := by
    intro n; simp only [List.mem_append, List.mem_cons]; tauto
  have om : ∀ a ∈ A ++ B, o a ∈ A ++ B := h.prd.om
  have l0 : Lam (ps (A ++ t :: u :: B)) (· ∈ A ++ B) o F := lam_order om h.lam
    (fun a b ha hb => (ps_order ((hm a).1 ha).2.1 ((hm a).1 ha).2.2 ((hm b).1 hb).2.1 ((hm b).1 hb).2.2).symm)
  have p0 : Paired (ps (A ++ t :: u :: B)) (· ∈ A ++ B) o F := ⟨fun a b ha _ e => ps_inj ((hm a).1 ha).1 e, h.prd.om, h.prd.one, h.prd.oo, h.prd.neg⟩
  have l1 := lam_new p0 l0 htu ht hu ho1 ho2 hF1 hF2 ho hF (by omega) (fun a ha => by
    have := (hm a).1 ha
    exact ⟨fun e => this.2.1 (ps_inj this.1 e), fun e => this.2.2 (ps_inj this.1 e)⟩)
  have hr : ∀ {q q' v : Int}, Shf A.length q' q → HR (ps (A ++ B)) (· ∈ A ++ B) o F q v → HR (ps (A ++ t :: u :: B)) (· ∈ A ++ t :: u :: B) o' F' q' v :=
    fun h1 h2 => hr_in hn om h1 h2 ho1 ho2 hF2 ho hF
  constructor
  · exact hn
  · exact lam_congr l1.1 (fun a ha => (split a).1 ha) (fun _ _ => rfl) (fun _ _ => rfl)
  · exact ⟨fun a b ha hb => l1.2.inj a b ((split a).1 ha) ((split b).1 hb), fun a ha => (split _).2 (l1.2.om a ((split a).1 ha)),
      fun a ha => l1.2.one a ((split a).1 ha), fun a ha => l1.2.oo a ((split a).1 ha), fun a ha => l1.2.neg a ((split a).1 ha)⟩
  · intro n hn'
    rcases (split n).1 hn' with a | a | a
    · have a1 := (hm n).1 a
      have a2 := (hm _).1 (om n a)
      have := h.par n a
      rw [ho n a, Int.add_emod, ps_par a1.2.1 a1.2.2, ps_par a2.2.1 a2.2.2]; omega
    · rw [a, ho1]; omega
    · rw [a, ho2]; omega
  · intro n hn' v hv
    rcases (split n).1 hn' with a | a | a
    · rw [hh n a] at hv; exact h.rng n a v hv
    · rw [a, hh1] at hv; simp at hv
    · rw [a, hh2] at hv; simp at hv
  · intro n hn' v hv
    rcases (split n).1 hn' with a | a | a
    · rw [hh n a] at hv
      exact hr (shf_gp ((hm n).1 a).2.1 ((hm n).1 a).2.2 a) (h.nest n a v hv)
    · rw [a, hh1] at hv; simp at hv
    · rw [a, hh2] at hv; simp at hv
  · exact h.frng
  · intro v hv
    rcases hq with e | e
    · rw [e] at hv; simp at hv
    · exact hr e (h.fnest v hv)
  · have e1 : A.map (fun t => (hs' t).sum) = A.map (fun t => (hs t).sum) := List.map_congr_left (fun a ha => by rw [hh a (by simp [ha])])
    have e2 : B.map (fun t => (hs' t).sum) = B.map (fun t => (hs t).sum) := List.map_congr_left (fun a ha => by rw [hh a (by simp [ha])])
    have := h.sum
    rw [List.map_append, List.map_cons, List.map_cons, e1, e2, hh1, hh2]
    rw [List.map_append] at this
    simp only [List.sum_append, List.sum_cons, List.sum_nil] at this ⊢
    omega

/-- The other ends of the ends that stay. -/
theorem Lay.om_out {t u : Nat} (h : Lay (A ++ t :: u :: B) o F hs fl q) (hc : o t = u) : ∀ a ∈ A ++ B, o a ∈ A ++ B := by
  have hm := fun a => mem_mid (a := a) h.nd
  have ht : t ∈ A ++ t :: u :: B := by simp
  have hu : o u = t := by rw [← hc]; exact h.prd.oo t ht
  intro a ha
  obtain ⟨h1, h2, h3⟩ := (hm a).1 ha
  refine (hm _).2 ⟨h.prd.om a h1, fun e => h3 ?_, fun e => h2 ?_⟩
  · rw [← h.prd.oo a h1, e, hc]
  · rw [← h.prd.oo a h1, e, hu]

/-- Taking out a chain whose ends are next to each other; `fl'` may hold its holes and itself. -/
theorem Lay.out {t u : Nat} (h : Lay (A ++ t :: u :: B) o F hs fl q) (hc : o t = u) {fl' : List Int} {q' : Int}
    (hr' : ∀ v ∈ fl', v = 0 ∨ v = 1)
    (hn' : ∀ v ∈ fl', ∃ q0, Shf A.length q0 q' ∧ ∀ a ∈ A ++ B, ps (A ++ t :: u :: B) a < ps (A ++ t :: u :: B) (o a) →
      Hr q0 v (ps (A ++ t :: u :: B) a) (ps (A ++ t :: u :: B) (o a)) (F (o a)))
    (hs1 : ((A ++ B).map (fun t => (hs t).sum)).sum + fl'.sum ≤ 1) :
    Lay (A ++ B) o F hs fl' q' := by
  have hm := fun a => mem_mid (a := a) h.nd
  have om := h.om_out hc
  constructor
  · exact nodup_mid h.nd
  · have l1 : Lam (ps (A ++ t :: u :: B)) (· ∈ A ++ B) o F := lam_congr h.lam (fun a ha => ((hm a).1 ha).1) (fun _ _ => rfl) (fun _ _ => rfl)
    exact lam_order om l1 (fun a b ha hb => ps_order ((hm a).1 ha).2.1 ((hm a).1 ha).2.2 ((hm b).1 hb).2.1 ((hm b).1 hb).2.2)
  · exact ⟨fun a b ha _ e => ps_inj ha e, om, fun a ha => h.prd.one a ((hm a).1 ha).1, fun a ha => h.prd.oo a ((hm a).1 ha).1, fun a ha => h.prd.neg a ((hm a).1 ha).1⟩
  · intro n hn
    have a1 := (hm n).1 hn
    have a2 := (hm _).1 (om n hn)
    have := h.par n a1.1
    rw [Int.add_emod, ← ps_par (t := t) (u := u) a1.2.1 a1.2.2, ← ps_par (t := t) (u := u) a2.2.1 a2.2.2]; omega
  · exact fun n hn v hv => h.rng n ((hm n).1 hn).1 v hv
  · intro n hn v hv
    have a1 := (hm n).1 hn
    exact hr_out h.nd om (shf_gp a1.2.1 a1.2.2 hn) (fun c hc' => h.nest n a1.1 v hv c hc'.1)
  · exact hr'
  · intro v hv
    obtain ⟨q0, h1, h2⟩ := hn' v hv
    exact hr_out h.nd om h1 (fun c hc' => h2 c ((hm c).2 hc'))
  · exact hs1

theorem Lay.hs_nonneg (h : Lay T o F hs fl q) {t : Nat} (ht : t ∈ T) : 0 ≤ (hs t).sum := sum_nonneg (h.rng t ht)

theorem map_nonneg {f : Nat → Int} : ∀ {A : List Nat}, (∀ a ∈ A, 0 ≤ f a) → 0 ≤ (A.map f).sum
  | [], _ => by simp
  | a :: A, h => by
    have h1 := h a (by simp)
    have h2 := map_nonneg (f := f) (A := A) (fun v hv => h v (by simp [hv]))
    rw [List.map_cons, List.sum_cons]; omega

theorem sum_pos : ∀ {L : List Int}, 0 < L.sum → (∀ v ∈ L, v = 0 ∨ v = 1) → (1 : Int) ∈ L
  | [], h, _ => by simp at h
  | a :: L, h, h' => by
    rcases h' a (by simp) with e | e
    · subst e
      rw [List.sum_cons] at h
      exact List.mem_cons_of_mem _ (sum_pos (by omega) (fun v hv => h' v (by simp [hv])))
    · subst e; simp

/-- A chain closed to an outer boundary: it covers the point once or not, and its holes lie inside it, apart from each other. -/
theorem Lay.closeSolid {t u : Nat} (h : Lay (A ++ t :: u :: B) o F hs [] q) (hc : o t = u) (hA : (A.length : Int) % 2 = 0) (q' : Int) :
    Lay (A ++ B) o F hs [] q' ∧ (F u = 0 ∨ F u = 1) ∧ (∀ v ∈ hs t ++ hs u, v = 0 ∨ v = 1) ∧ (hs t ++ hs u).sum ≤ F u := by
  have ht : t ∈ A ++ t :: u :: B := by simp
  have hu : u ∈ A ++ t :: u :: B := by simp
  have hadj := ps_adj h.nd
  have hm := fun a => mem_mid (a := a) h.nd
  have hlow : ps (A ++ t :: u :: B) t < ps (A ++ t :: u :: B) (o t) := by rw [hc]; omega
  have h0 := h.sum
  have nA := map_nonneg (f := fun t => (hs t).sum) (A := A) (fun a ha => h.hs_nonneg (by simp [ha]))
  have nB := map_nonneg (f := fun t => (hs t).sum) (A := B) (fun a ha => h.hs_nonneg (by simp [ha]))
  have n1 := h.hs_nonneg ht
  have n2 := h.hs_nonneg hu
  simp only [List.map_append, List.map_cons, List.sum_append, List.sum_cons, List.sum_nil] at h0
  have rv : ∀ v ∈ hs t ++ hs u, v = 0 ∨ v = 1 := fun v hv => (List.mem_append.1 hv).elim (h.rng t ht v) (h.rng u hu v)
  have rF := h.lam.rng t ht hlow
  rw [hc] at rF
  refine ⟨h.out hc (by simp) (by simp) ?_, rF, rv, ?_⟩
  · simp only [List.map_append, List.sum_append, List.sum_nil]
    omega
  · by_cases c : 0 < (hs t ++ hs u).sum
    · have m := sum_pos c rv
      have e : (hs t ++ hs u).sum ≤ 1 := by rw [List.sum_append]; omega
      have k : (1 : Int) ≤ F u := by
        rcases List.mem_append.1 m with m | m
        · have := h.nest t ht 1 m t ht hlow
          rw [hc, hadj.1, hadj.2] at this
          exact this.1 (by unfold Sp gp; omega)
        · have := h.nest u hu 1 m t ht hlow
          rw [hc, hadj.1, hadj.2] at this
          exact this.1 (by unfold Sp gp; omega)
      omega
    · omega

/-- A chain closed to a hole: it and the holes it was given lie in the gap where it was. -/
theorem Lay.closeHole {t u : Nat} (h : Lay (A ++ t :: u :: B) o F hs [] q) (hc : o t = u) (hA : (A.length : Int) % 2 = 1) {L : List Int}
    (hL : L.Perm (F u :: (hs t ++ hs u))) : Lay (A ++ B) o F hs L ((A.length : Int) - 1) := by
  have ht : t ∈ A ++ t :: u :: B := by simp
  have hu : u ∈ A ++ t :: u :: B := by simp
  have hadj := ps_adj h.nd
  have hm := fun a => mem_mid (a := a) h.nd
  have hlow : ps (A ++ t :: u :: B) t < ps (A ++ t :: u :: B) (o t) := by rw [hc]; omega
  have h0 := h.sum
  have nA := map_nonneg (f := fun t => (hs t).sum) (A := A) (fun a ha => h.hs_nonneg (by simp [ha]))
  have nB := map_nonneg (f := fun t => (hs t).sum) (A := B) (fun a ha => h.hs_nonneg (by simp [ha]))
  have n1 := h.hs_nonneg ht
  have n2 := h.hs_nonneg hu
  simp only [List.map_append, List.map_cons, List.sum_append, List.sum_cons, List.sum_nil] at h0
  have rv : ∀ v ∈ hs t ++ hs u, v = 0 ∨ v = 1 := fun v hv => (List.mem_append.1 hv).elim (h.rng t ht v) (h.rng u hu v)
  have rF := h.lam.rng t ht hlow
  rw [hc] at rF
  -- the chains that span the gap below the chain span the one above it
  have hpos : ∀ a ∈ A ++ B, ps (A ++ t :: u :: B) a < A.length ∨ (A.length : Int) + 1 < ps (A ++ t :: u :: B) a := by
    intro a ha
    obtain ⟨h1, h2, h3⟩ := (hm a).1 ha
    rw [ps_mid h2 h3]
    split_ifs with c
    · left; exact mem_lt c
    · right; omega
  refine h.out hc ?_ ?_ ?_
  · intro v hv
    rcases List.mem_cons.1 (hL.mem_iff.1 hv) with rfl | hv
    · exact rF
    · exact rv v hv
  · intro v hv
    refine ⟨(A.length : Int) - 1, Or.inl ⟨le_refl _, rfl⟩, fun a ha hl => ?_⟩
    have p1 := hpos a ha
    have p2 := hpos _ (h.om_out hc a ha)
    have ham := ((hm a).1 ha).1
    rcases List.mem_cons.1 (hL.mem_iff.1 hv) with rfl | hv
    · have rl := (h.lam.rng a ham hl)
      constructor
      · intro hsp
        unfold Sp at hsp
        rcases h.lam.lam a t ham ht hl hlow (by omega) with k | k
        · omega
        · rw [hc] at k; exact k.2
      · intro hsp
        unfold Sp at hsp
        by_cases k : ps (A ++ t :: u :: B) a < ps (A ++ t :: u :: B) t
        · rcases h.lam.lam a t ham ht hl hlow k with k | k
          · rw [hc] at k; exact k.2.symm
          · rw [hc] at k; omega
        · rcases h.lam.lam t a ht ham hlow hl (by omega) with k | k
          · rw [hc] at k; exact k.2
          · rw [hc] at k; omega
    · rcases List.mem_append.1 hv with m | m
      · have := h.nest t ht v m a ham hl
        rw [hadj.1] at this
        have e : gp (A.length : Int) = (A.length : Int) - 1 := by unfold gp; omega
        rwa [e] at this
      · have := h.nest u hu v m a ham hl
        rw [hadj.2] at this
        have e : gp ((A.length : Int) + 1) = (A.length : Int) + 1 := by unfold gp; omega
        rw [e] at this
        have k : Sp ((A.length : Int) - 1) (ps (A ++ t :: u :: B) a) (ps (A ++ t :: u :: B) (o a)) ↔
            Sp ((A.length : Int) + 1) (ps (A ++ t :: u :: B) a) (ps (A ++ t :: u :: B) (o a)) := by
          unfold Sp; omega
        exact ⟨fun c => this.1 (k.1 c), fun c => this.2 (fun c' => c (k.2 c'))⟩
  · rw [hL.sum_eq]
    simp only [List.map_append, List.sum_append, List.sum_cons]
    -- the chain counts one only if no hole counts
    by_cases c : F u = 0
    · omega
    have key : ∀ b ∈ A ++ t :: u :: B, (hs b).sum = 0 := by
      intro b hb
      refine List.sum_eq_zero (fun v hv => ?_)
      have := (h.nest b hb v hv t ht hlow).2 (by
        rw [hc, hadj.1, hadj.2]
        unfold Sp gp; omega)
      rw [hc] at this
      omega
    have kA : (A.map (fun t => (hs t).sum)).sum = 0 := by
      refine List.sum_eq_zero (fun v hv => ?_)
      obtain ⟨b, hb, rfl⟩ := List.mem_map.1 hv
      exact key b (by simp [hb])
    have kB : (B.map (fun t => (hs t).sum)).sum = 0 := by
      refine List.sum_eq_zero (fun v hv => ?_)
      obtain ⟨b, hb, rfl⟩ := List.mem_map.1 hv
      exact key b (by simp [hb])
    have k1 := key t ht
    have k2 := key u hu
    omega

/-- The holes without polygon go to an end next to their gap. -/
theorem Lay.attach {a : Nat} (h : Lay T o F hs fl q) (ha : a ∈ T) (hq : fl = [] ∨ q = gp (ps T a)) (h1 : (hs' a).Perm (hs a ++ fl)) (h2 : ∀ b ∈ T, b ≠ a → hs' b = hs b) (q' : Int) :
    Lay T o F hs' [] q' where
  nd := h.nd
  lam := h.lam
  prd := h.prd
  par := h.par
  rng := fun t ht v hv => by
    by_cases c : t = a
    · subst c
      rcases List.mem_append.1 (h1.mem_iff.1 hv) with m | m
      · exact h.rng t ht v m
      · exact h.frng v m
    · rw [h2 t ht c] at hv; exact h.rng t ht v hv
  nest := fun t ht v hv => by
    by_cases c : t = a
    · subst c
      rcases List.mem_append.1 (h1.mem_iff.1 hv) with m | m
      · exact h.nest t ht v m
      · rcases hq with e | e
        · rw [e] at m; simp at m
        · rw [← e]; exact h.fnest v m
    · rw [h2 t ht c] at hv; exact h.nest t ht v hv
  frng := by simp
  fnest := by simp
  sum := by
    have := sum_update (f := fun t => (hs t).sum) (g := fun t => (hs' t).sum) T h.nd ha (fun b hb hne => by rw [h2 b hb hne])
    rw [this, h1.sum_eq, List.sum_append]
    have := h.sum
    simp only [List.sum_nil]
    omega

/-- Two chains joined at ends next to each other; the holes at these ends go to an end that stays. -/
theorem Lay.link {t u x : Nat} (h : Lay (A ++ t :: u :: B) o F hs [] q) (hne : o t ≠ u) (hx : x = o t ∨ x = o u)
    (ho1 : o' (o t) = o u) (ho2 : o' (o u) = o t) (ho' : ∀ a ∈ A ++ B, a ≠ o t → a ≠ o u → o' a = o a)
    (hf1 : F' (o t) = F (o t) + F u) (hf2 : F' (o u) = F (o u) + F t) (hf' : ∀ a ∈ A ++ B, a ≠ o t → a ≠ o u → F' a = F a)
    (hh1 : (hs' x).Perm (hs x ++ (hs t ++ hs u))) (hh2 : ∀ a ∈ A ++ B, a ≠ x → hs' a = hs a) (q' : Int) :
    Lay (A ++ B) o' F' hs' [] q' := by
  -- take the functions as they are outside the ends that stay
  classical
  obtain ⟨p, hp⟩ : ∃ p : Nat → Nat, p = fun a => if a = o t then o u else if a = o u then o t else o a := ⟨_, rfl⟩
  obtain ⟨G, hG⟩ : ∃ G : Nat → Int, G = fun a => if a = o t then F (o t) + F u else if a = o u then F (o u) + F t else F a := ⟨_, rfl⟩
  have hm := fun a => mem_mid (a := a) h.nd
  have ht : t ∈ A ++ t :: u :: B := by simp
  have hu : u ∈ A ++ t :: u :: B := by simp
  have hot := h.prd.om t ht
  have hou := h.prd.om u hu
  have hadj := ps_adj h.nd
  have htu : t ≠ u := by intro e; subst e; omega
  have hoe : o t ≠ o u := fun e => htu (by rw [← h.prd.oo t ht, e, h.prd.oo u hu])
  have hut : o u ≠ t := fun e => hne (by rw [← e, h.prd.oo u hu])
  have e1 := h.prd.one t ht
  have e2 := h.prd.one u hu
  have mo1 : o t ∈ A ++ B := (hm _).2 ⟨hot, e1, hne⟩
  have mo2 : o u ∈ A ++ B := (hm _).2 ⟨hou, hut, e2⟩
  have p1 : p (o t) = o u := by rw [hp]; exact if_pos rfl
  have p2 : p (o u) = o t := by rw [hp]; dsimp only; rw [if_neg hoe.symm, if_pos rfl]
  have p3 : ∀ a, a ≠ o t → a ≠ o u → p a = o a := fun a c1 c2 => by rw [hp]; dsimp only; rw [if_neg c1, if_neg c2]
  have g1 : G (o t) = F (o t) + F u := by rw [hG]; exact if_pos rfl
  have g2 : G (o u) = F (o u) + F t := by rw [hG]; dsimp only; rw [if_neg hoe.symm, if_pos rfl]
  have g3 : ∀ a, a ≠ o t → a ≠ o u → G a = F a := fun a c1 c2 => by rw [hG]; dsimp only; rw [if_neg c1, if_neg c2]
  have eo : ∀ a ∈ A ++ B, o' a = p a := by
    intro a ha
    by_cases c1 : a = o t
    · rw [c1, p1, ho1]
    by_cases c2 : a = o u
    · rw [c2, p2, ho2]
    rw [p3 a c1 c2, ho' a ha c1 c2]
  have eF : ∀ a ∈ A ++ B, F' a = G a := by
    intro a ha
    by_cases c1 : a = o t
    · rw [c1, g1, hf1]
    by_cases c2 : a = o u
    · rw [c2, g2, hf2]
    rw [g3 a c1 c2, hf' a ha c1 c2]
  refine Lay.congr (o := p) (F := G) (hs := hs') ?_ eo eF (fun _ _ => List.Perm.refl _)
  have j := lam_join h.prd h.lam ht hu (by omega) hne p1 p2 p3 g1 g2 g3
  have om : ∀ a ∈ A ++ B, p a ∈ A ++ B := fun a ha => (hm _).2 (j.2.om a ((hm a).1 ha))
  have hxm : x ∈ A ++ B := by rcases hx with e | e <;> rw [e] <;> assumption
  have key : ∀ v q q' q'', (v = 0 ∨ v = 1) → HR (ps (A ++ t :: u :: B)) (· ∈ A ++ t :: u :: B) o F q v →
      Mv (ps (A ++ t :: u :: B) t) (ps (A ++ t :: u :: B) (o t)) (ps (A ++ t :: u :: B) (o u)) q q' → Shf A.length q' q'' →
      HR (ps (A ++ B)) (· ∈ A ++ B) p G q'' v := by
    intro v q q' q'' rv h1 h2 h3
    exact hr_out h.nd om h3 (hr_join h.prd h.lam ht hu (by omega) hne p1 p2 p3 g1 g2 g3 (h.par t ht) (h.par u hu) rv h2 h1)
  constructor
  · exact nodup_mid h.nd
  · have l1 : Lam (ps (A ++ t :: u :: B)) (· ∈ A ++ B) p G := lam_congr j.1 (fun a ha => (hm a).1 ha) (fun _ _ => rfl) (fun _ _ => rfl)
    exact lam_order om l1 (fun a b ha hb => ps_order ((hm a).1 ha).2.1 ((hm a).1 ha).2.2 ((hm b).1 hb).2.1 ((hm b).1 hb).2.2)
  · exact ⟨fun a b ha _ e => ps_inj ha e, om, fun a ha => j.2.one a ((hm a).1 ha), fun a ha => j.2.oo a ((hm a).1 ha), fun a ha => j.2.neg a ((hm a).1 ha)⟩
  · have k1 := h.par t ht
    have k2 := h.par u hu
    intro n hn
    have hn' := (hm n).1 hn
    by_cases a : n = o t
    · rw [a, p1, Int.add_emod, ← ps_par (t := t) (u := u) e1 hne, ← ps_par (t := t) (u := u) hut e2]; omega
    by_cases b : n = o u
    · rw [b, p2, Int.add_emod, ← ps_par (t := t) (u := u) e1 hne, ← ps_par (t := t) (u := u) hut e2]; omega
    rw [p3 n a b, Int.add_emod]
    have hon : o n ≠ t ∧ o n ≠ u := ⟨fun e => a (by rw [← e, h.prd.oo n hn'.1]), fun e => b (by rw [← e, h.prd.oo n hn'.1])⟩
    have := h.par n hn'.1
    rw [← ps_par (t := t) (u := u) hn'.2.1 hn'.2.2, ← ps_par (t := t) (u := u) hon.1 hon.2]; omega
  · intro n hn v hv
    by_cases c : n = x
    · subst c
      rcases List.mem_append.1 (hh1.mem_iff.1 hv) with m | m
      · exact h.rng n ((hm n).1 hn).1 v m
      · rcases List.mem_append.1 m with m | m
        · exact h.rng t ht v m
        · exact h.rng u hu v m
    · rw [hh2 n hn c] at hv; exact h.rng n ((hm n).1 hn).1 v hv
  · intro b hb v hv
    have hb' := (hm b).1 hb
    have hsh := shf_gp hb'.2.1 hb'.2.2 hb
    have k1 := h.par t ht
    have k2 := h.par u hu
    have hbp : gp (ps (A ++ t :: u :: B) b) ≠ ps (A ++ t :: u :: B) t := by
      have q1 : ps (A ++ t :: u :: B) b ≠ ps (A ++ t :: u :: B) t := fun e => hb'.2.1 (ps_inj hb'.1 e)
      have q2 : ps (A ++ t :: u :: B) b ≠ ps (A ++ t :: u :: B) u := fun e => hb'.2.2 (ps_inj hb'.1 e)
      unfold gp; omega
    have stay : v ∈ hs b → HR (ps (A ++ B)) (· ∈ A ++ B) p G (gp (ps (A ++ B) b)) v := fun h0 =>
      key v _ _ _ (h.rng b hb'.1 v h0) (h.nest b hb'.1 v h0) (Or.inl ⟨rfl, hbp⟩) hsh
    by_cases c : b = x
    · have hx' : gp (ps (A ++ t :: u :: B) b) = gp (ps (A ++ t :: u :: B) (o t)) ∨ gp (ps (A ++ t :: u :: B) b) = gp (ps (A ++ t :: u :: B) (o u)) := by
        rcases hx with e | e
        · left; rw [c, e]
        · right; rw [c, e]
      rw [c] at hv
      rcases List.mem_append.1 (hh1.mem_iff.1 hv) with m | m
      · rw [← c] at m; exact stay m
      · rcases List.mem_append.1 m with m | m
        · refine key v _ _ _ (h.rng t ht v m) (h.nest t ht v m) (Or.inr ⟨?_, hx'⟩) hsh
          unfold gp; omega
        · refine key v _ _ _ (h.rng u hu v m) (h.nest u hu v m) (Or.inr ⟨?_, hx'⟩) hsh
          unfold gp; omega
    · rw [hh2 b hb c] at hv; exact stay hv
  · simp
  · simp
  · have := sum_update (f := fun t => (hs t).sum) (g := fun t => (hs' t).sum) (A ++ B) (nodup_mid h.nd) hxm (fun b hb hne => by rw [hh2 b hb hne])
    rw [this, hh1.sum_eq]
    have h0 := h.sum
    simp only [List.map_append, List.map_cons, List.sum_append, List.sum_cons, List.sum_nil] at h0 ⊢
    omega

/-- The members of pairs one after the other. -/
def flatN (Q : List (Nat × Nat)) : List Nat := Q.flatMap (fun x => [x.1, x.2])

/-- Chains with neighbouring ends are left out. -/
theorem Lay.drop : ∀ {Q : List (Nat × Nat)}, Lay (A ++ (flatN Q ++ B)) o F hs fl ((A.length : Int) - 1) → (∀ x ∈ Q, o x.1 = x.2) →
    Lay (A ++ B) o F hs fl ((A.length : Int) - 1)
  | [], h, _ => h
  | x :: Q, h, hQ => by
    have e : A ++ (flatN (x :: Q) ++ B) = A ++ x.1 :: x.2 :: (flatN Q ++ B) := rfl
    rw [e] at h
    refine Lay.drop (Q := Q) ?_ (fun y hy => hQ y (by simp [hy]))
    refine h.out (hQ x (by simp)) h.frng (fun v hv => ⟨(A.length : Int) - 1, Or.inl ⟨le_refl _, rfl⟩, fun a ha hl => h.fnest v hv a ((mem_mid h.nd).1 ha).1 hl⟩) ?_
    have h0 := h.sum
    have n1 := h.hs_nonneg (t := x.1) (by simp)
    have n2 := h.hs_nonneg (t := x.2) (by simp)
    rw [List.map_append, List.map_cons, List.map_cons] at h0
    rw [List.map_append]
    simp only [List.sum_append, List.sum_cons] at h0 ⊢
    omega

/-- Chains that count nothing are put in. -/
theorem Lay.ins : ∀ {Q : List (Nat × Nat)}, Lay (A ++ B) o F hs fl q → q ≤ (A.length : Int) - 1 → (A ++ (flatN Q ++ B)).Nodup →
    (∀ x ∈ Q, o x.1 = x.2 ∧ o x.2 = x.1 ∧ F x.1 = 0 ∧ F x.2 = 0 ∧ hs x.1 = [] ∧ hs x.2 = []) → Lay (A ++ (flatN Q ++ B)) o F hs fl q
  | [], h, _, _, _ => h
  | x :: Q, h, hq, hn, hQ => by
    have e : A ++ (flatN (x :: Q) ++ B) = A ++ x.1 :: x.2 :: (flatN Q ++ B) := rfl
    rw [e] at hn ⊢
    have ih := Lay.ins (Q := Q) h hq (nodup_mid hn) (fun y hy => hQ y (by simp [hy]))
    obtain ⟨q1, q2, q3, q4, q5, q6⟩ := hQ x (by simp)
    have hm := fun a => mem_mid (a := a) hn
    have hadj := ps_adj hn
    exact ih.new (fun c => ((hm _).1 c).2.1 rfl) (fun c => ((hm _).1 c).2.2 rfl) (fun c => by rw [c] at hadj; omega) q1 q2 (fun _ _ => rfl) q3 q4 (fun _ _ => rfl) q5 q6
      (fun _ _ => rfl) (Or.inr (Or.inl ⟨hq, rfl⟩))

/-- A new chain around chains that count nothing. -/
theorem Lay.wrap {Q : List (Nat × Nat)} {t u : Nat} (h : Lay (A ++ (flatN Q ++ B)) o F hs fl ((A.length : Int) - 1))
    (hQ : ∀ x ∈ Q, o x.1 = x.2 ∧ o x.2 = x.1 ∧ F x.1 = 0 ∧ F x.2 = 0 ∧ hs x.1 = [] ∧ hs x.2 = [])
    (ht : t ∉ A ++ (flatN Q ++ B)) (hu : u ∉ A ++ (flatN Q ++ B)) (htu : t ≠ u)
    (ho1 : o' t = u) (ho2 : o' u = t) (ho : ∀ a ∈ A ++ (flatN Q ++ B), o' a = o a) (hF1 : F' t = 0) (hF2 : F' u = 0) (hF : ∀ a ∈ A ++ (flatN Q ++ B), F' a = F a)
    (hh1 : hs' t = []) (hh2 : hs' u = []) (hh : ∀ a ∈ A ++ (flatN Q ++ B), hs' a = hs a) :
    Lay (A ++ t :: (flatN Q ++ u :: B)) o' F' hs' fl ((A.length : Int) - 1) := by
  have sub : ∀ a ∈ A ++ B, a ∈ A ++ (flatN Q ++ B) := by
    intro a ha; simp only [List.mem_append] at ha ⊢; tauto
  have mQ : ∀ x ∈ Q, x.1 ∈ A ++ (flatN Q ++ B) ∧ x.2 ∈ A ++ (flatN Q ++ B) := by
    intro x hx
    have : x.1 ∈ flatN Q ∧ x.2 ∈ flatN Q := ⟨List.mem_flatMap.2 ⟨x, hx, by simp⟩, List.mem_flatMap.2 ⟨x, hx, by simp⟩⟩
    simp [this.1, this.2]
  have h1 := h.drop (fun x hx => (hQ x hx).1)
  have h2 := h1.new (o' := o') (F' := F') (hs' := hs') (fun c => ht (sub _ c)) (fun c => hu (sub _ c)) htu ho1 ho2 (fun a ha => ho a (sub a ha)) hF1 hF2
    (fun a ha => hF a (sub a ha)) hh1 hh2 (fun a ha => hh a (sub a ha)) (q' := (A.length : Int) - 1) (Or.inr (Or.inl ⟨le_refl _, rfl⟩))
  have e1 : A ++ t :: u :: B = (A ++ [t]) ++ (u :: B) := by simp
  have e2 : A ++ t :: (flatN Q ++ u :: B) = (A ++ [t]) ++ (flatN Q ++ u :: B) := by simp
  rw [e1] at h2
  rw [e2]
  refine h2.ins (by simp) ?_ (fun x hx => ?_)
  · have p1 : ((A ++ [t]) ++ (flatN Q ++ u :: B)).Perm (t :: u :: (A ++ (flatN Q ++ B))) := by
      rw [List.perm_iff_count]; intro a; simp only [List.count_append, List.count_cons, List.count_nil]; omega
    rw [p1.nodup_iff, List.nodup_cons, List.nodup_cons, List.mem_cons, not_or]
    exact ⟨⟨htu, ht⟩, hu, h.nd⟩
  · obtain ⟨q1, q2, q3, q4, q5, q6⟩ := hQ x hx
    obtain ⟨m1, m2⟩ := mQ x hx
    rw [ho _ m1, ho _ m2, hF _ m1, hF _ m2, hh _ m1, hh _ m2]
    exact ⟨q1, q2, q3, q4, q5, q6⟩

/-- Another place for the gap of no holes. -/
theorem Lay.gap (h : Lay T o F hs [] q) (q' : Int) : Lay T o F hs [] q' :=
  ⟨h.nd, h.lam, h.prd, h.par, h.rng, h.nest, h.frng, fun _ hv => by simp at hv, h.sum⟩

end Verif.Proofs.FormLay
