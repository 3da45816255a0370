import Verif.Proofs.PolyBottom
/-!
# The top end of a vertical edge
-/
namespace Verif.Proofs.PolyTop
open Verif.PolyForm Verif.Proofs.PolyGross Verif.Proofs.PolyPath Verif.Proofs.PolyLam Verif.Proofs.PolyWeb Verif.Proofs.PolyInv Verif.Proofs.PolyCol Verif.Proofs.PolyBottom Verif.Interval

variable {fr : Bool} {X : Int} {fm fp : Int → Int} {base : Bs} {es : List Ivl} {y : Int} {D U : List (Int × Nat)} {c : Nat} {Z : List Nat} {s : St}

/-- Inside an edge nothing else happens. -/
theorem mid_edge (h : Mid fr X fm fp base y D U c Z s) {hi e : Int} (hlt : y < hi) (hm : ∀ j, y ≤ j → j < hi → fm j = e ∧ fp j = 1 - e) :
    (∀ a ∈ U, hi ≤ a.1) ∧ ((D.length : Int) + 1) % 2 = e ∧ (∀ j, j < hi → fp j = cnt D j % 2) := by
  have h0 : ((D.length : Int) + 1) % 2 = e := by
    have := h.hfm y (le_refl _)
    rw [(hm y (le_refl _) hlt).1, cnt_none h.hU] at this; omega
  refine ⟨?_, h0, fun j hj => ?_⟩
  · intro a ha
    by_contra hlt'
    cases hU : U with
    | nil => rw [hU] at ha; simp at ha
    | cons b U' =>
      rw [hU] at ha
      have hs := (srt_append.1 h.srt).2.1
      rw [hU] at hs
      have hs' := List.pairwise_cons.1 hs
      have hb : b.1 < hi := by
        rcases List.mem_cons.1 ha with rfl | ha'
        · omega
        · have := hs'.1 a ha'; omega
      have hby := h.hU b (by rw [hU]; simp)
      have := h.hfm b.1 (by omega)
      rw [(hm b.1 (by omega) hb).1, hU, cnt_cons, if_pos (le_refl _), cnt_none (L := U') hs'.1] at this
      omega
  · by_cases hy : j < y
    · exact h.hfp j hy
    · rw [(hm j (by omega) hj).2, cnt_all (L := D) (fun e he => by have := h.hD e he; omega)]; omega

theorem mem_S {D U : List (Int × Nat)} {c : Nat} {e : Int × Nat} (he : e ∈ D ++ U) : e.2 ∈ D.map (·.2) ++ c :: U.map (·.2) := by
  rcases List.mem_append.1 he with a | a
  · exact List.mem_append_left _ (List.mem_map.2 ⟨e, a, rfl⟩)
  · exact List.mem_append_right _ (List.mem_cons_of_mem _ (List.mem_map.2 ⟨e, a, rfl⟩))

/-- The current end meets the next one. -/
theorem mid_joint {hi : Int} {t : Nat} (h : Mid fr X fm fp base y D ((hi, t) :: U) c Z s) : Joint X s.H c t := by
  obtain ⟨b, q, hp, hb⟩ := h.cp
  have hent := h.ent (hi, t) (by simp)
  obtain ⟨x, o1, o2⟩ := h.old (hi, t) (by simp)
  have hlt := h.hU (hi, t) (by simp)
  dsimp only at o1 hlt
  refine ⟨by rw [h.cv]; exact hent.1, by rw [h.cv]; simp [hp], fun a a' ha ha' => ?_, fun a a' ha ha' => ?_⟩
  · rw [hp] at ha; simp at ha
    have : (pth s.H t).head? = some hi := hent.2
    rw [this] at ha'; simp at ha'; omega
  · rw [hp] at ha; simp at ha
    rw [o1] at ha'; simp at ha'; omega

theorem mid_maps {hi : Int} {t : Nat} (h : Mid fr X fm fp base y D ((hi, t) :: U) c Z s) :
    findAtNext s.map s.nm hi = some t ∧ mnext s.map hi = U.head?.map (·.1) ∧ merase s.map hi = D ++ U ∧ (∀ v, mset s.map hi v = D ++ (hi, v) :: U) ∧
    (∀ a ∈ D, a.1 < hi) ∧ (∀ a ∈ U, hi < a.1) ∧ Srt (D ++ U) ∧ y < hi := by
  obtain ⟨s1, s2, s3⟩ := srt_drop h.srt
  have hlt := h.hU (hi, t) (by simp)
  refine ⟨?_, ?_, ?_, fun v => ?_, s2, s3, s1, hlt⟩
  · rw [h.map, findAt_eq h.nm s2]; exact find_mid s2
  · have e : D ++ (hi, t) :: U = (D ++ [(hi, t)]) ++ U := by simp
    rw [h.map, e]
    refine next_mid (fun e he => ?_) s3
    rcases List.mem_append.1 he with a | a
    · have := s2 e a; dsimp only at this; omega
    · rw [List.mem_singleton.1 a]
  · rw [h.map]; exact erase_mid s2 s3
  · rw [h.map]; exact set_mid s2 s3

/-- The current end and the next one as neighbours. -/
theorem mid_S {hi : Int} {t : Nat} : D.map (·.2) ++ c :: ((hi, t) :: U).map (·.2) = D.map (·.2) ++ c :: t :: U.map (·.2) := by simp

/-- The paths at the two ends that meet. -/
theorem mid_paths {hi : Int} {t : Nat} (h : Mid fr X fm fp base y D ((hi, t) :: U) c Z s) :
    ∃ b q x q', pth s.H c = X :: b :: q ∧ b < hi ∧ pth s.H t = hi :: x :: q' ∧ x < X ∧ vrt s.H t = false := by
  obtain ⟨b, q, hp, hb⟩ := h.cp
  have hlt := h.hU (hi, t) (by simp)
  have hg := h.g
  rw [mid_S] at hg
  obtain ⟨x, q', hp'⟩ := ent_path hg.web (e := (hi, t)) (by simp) (h.ent (hi, t) (by simp))
  obtain ⟨x', o1, o2⟩ := h.old (hi, t) (by simp)
  dsimp only at o1 hp' hlt; rw [hp'] at o1; simp at o1
  exact ⟨b, q, x, q', hp, by omega, hp', by omega, (h.ent (hi, t) (by simp)).1⟩

theorem edge_ne {hi : Int} {trailing : Bool} (hm : ∀ j, y ≤ j → j < hi → fm j = (if trailing then 1 else 0) ∧ fp j = 1 - (if trailing then 1 else 0)) :
    ∀ j, y ≤ j → j < hi → fm j ≠ fp j := fun j h1 h2 => by
  have := hm j h1 h2
  cases trailing <;> simp at this <;> omega

theorem sum_hs_le {fr : Bool} {X : Int} {H : Heap} {S Z : List Nat} (g : G fr X H S Z) (i j : Int) : ∀ L : List Nat, (L.map (hs H i j)).sum ≤ 0
  | [] => by simp
  | a :: L => by
    have := sum_hs_le g i j L
    have := hs_le g i j a
    rw [List.map_cons, List.sum_cons]; omega

theorem sum_hs_neg {fr : Bool} {X : Int} {H : Heap} {S Z : List Nat} (g : G fr X H S Z) {i j : Int} : ∀ {L : List Nat}, (L.map (hs H i j)).sum < 0 → ∃ b ∈ L, hs H i j b < 0
  | [], h => by simp at h
  | a :: L, h => by
    rw [List.map_cons, List.sum_cons] at h
    by_cases ha : hs H i j a < 0
    · exact ⟨a, by simp, ha⟩
    · obtain ⟨b, hb, h'⟩ := sum_hs_neg g (i := i) (j := j) (L := L) (by omega)
      exact ⟨b, by simp [hb], h'⟩

/-- The holes of a closing shell lie in it, apart from each other. -/
theorem shell_nonneg {A B : List Nat} {H : Heap} {t : Nat} (g : G fr X H (A ++ c :: t :: B) Z) (hc : oth H c = t) (hA : (A.length : Int) % 2 = 0)
    {i j : Int} (hi : i < X) : 0 ≤ fv H i j t + hs H i j c + hs H i j t := by
  have hadj := ps_adj g.web.nodup
  have hcS : c ∈ A ++ c :: t :: B := by simp
  have htS : t ∈ A ++ c :: t :: B := by simp
  have hN := g.nest i j hi
  have h1 := hN.sum
  have h2 := sum_hs_le g i j A
  have h3 := sum_hs_le g i j B
  simp only [List.map_append, List.map_cons, List.sum_append, List.sum_cons] at h1
  have hr := (g.web.lam i j hi).rng c hcS (by rw [hc]; omega)
  rw [hc] at hr
  have key : ∀ b ∈ A ++ c :: t :: B, gp (ps (A ++ c :: t :: B) b) = A.length → hs H i j b < 0 → fv H i j t = 1 := by
    intro b hb hq hneg
    obtain ⟨k, hk, hw⟩ := hs_neg g hneg
    have := hN.rel b hb k hk c hcS (by rw [hc]; omega)
    rw [hc, hq, hw, hadj.1, hadj.2] at this
    have := this.1 ⟨le_refl _, by omega⟩
    omega
  have k1 := key c hcS (by rw [hadj.1]; unfold gp; omega)
  have k2 := key t htS (by rw [hadj.2]; unfold gp; omega)
  have l1 := hs_le g i j c
  have l2 := hs_le g i j t
  by_cases e1 : hs H i j c < 0
  · have := k1 e1; omega
  · by_cases e2 : hs H i j t < 0
    · have := k2 e2; omega
    · omega

/-- A shell closes. -/
theorem close_shell {A B out : List Nat} {H : Heap} {t : Nat} (g : G fr X H (A ++ c :: t :: B) Z) (hc : oth H c = t) (hj : Joint X H c t)
    (hv : vrt H c = true) (hA : (A.length : Int) % 2 = 0) (hout : ∀ n ∈ out, n ∈ Z)
    (ht : ∀ i j, i < X → tot H (A ++ c :: t :: B) out none i j = base.c i j ∧ ∀ n ∈ out, 0 ≤ ov H i j n) :
    H.joinChains c t false = (H.copyHoles c t, [c], none) ∧ G fr X (H.copyHoles c t) (A ++ B) (c :: Z) ∧ (∀ n, Near H (H.copyHoles c t) n) ∧
    (∀ n ∈ out ++ [c], n ∈ c :: Z) ∧ (∀ i j, i < X → tot (H.copyHoles c t) (A ++ B) (out ++ [c]) none i j = base.c i j ∧ ∀ n ∈ out ++ [c], 0 ≤ ov (H.copyHoles c t) i j n) := by
  obtain ⟨g1, gw⟩ := g_close g hc hj hv
  have hadj := ps_adj g.web.nodup
  have hct : c ≠ t := by intro e; rw [e] at hadj; omega
  have he := copyHoles_eq H c t
  have hcS : c ∈ A ++ c :: t :: B := by simp
  have htS : t ∈ A ++ c :: t :: B := by simp
  have hm := fun a => mem_mid (a := a) g.web.nodup
  refine ⟨?_, ?_, ?_, ?_, ?_⟩
  · unfold Heap.joinChains
    have : (H.tail c).other = t := hc
    rw [if_pos this]; rfl
  · refine g_holes g1 he rfl (fun n h hh => ?_) (fun i j hi => ?_)
    rotate_left
    · have hho : ∀ n ∈ A ++ B, ((H.copyHoles c t).tail n).holes = (H.tail n).holes := fun n hn => by
        rw [copyHoles_holes, if_neg ((hm n).1 hn).2.1, if_neg ((hm n).1 hn).2.2]
      have hN := g1.nest i j hi
      constructor
      · rw [List.map_congr_left (fun n hn => hs_congr (hho n hn) (fun h _ => (he h).2.1))]; exact hN.sum
      · intro b hb h hh
        rw [hho b hb] at hh
        rw [(he h).2.1]
        exact hr_congr (hN.rel b hb h hh) (fun _ ha => ha) (fun a _ => (he a).1) (fun a _ => by unfold fv; rw [(he _).2.1, (he _).2.2])
    rw [copyHoles_holes] at hh
    split_ifs at hh
    · rcases List.mem_append.1 hh with a | a
      · exact g1.hol n h a
      · exact g1.hol t h a
    · simp at hh
    · exact g1.hol n h hh
  · intro n; exact ⟨(he n).2.2, by rw [(he n).2.1]⟩
  · intro n hn
    rcases List.mem_append.1 hn with a | a
    · exact List.mem_cons_of_mem _ (hout n a)
    · rw [List.mem_singleton.1 a]; simp
  · intro i j hi
    rw [← (ht i j hi).1]
    have hsn : ∀ n, n ≠ c → n ≠ t → hs (H.copyHoles c t) i j n = hs H i j n := fun n a b =>
      hs_congr (by rw [copyHoles_holes, if_neg a, if_neg b]) (fun h _ => (he h).2.1)
    have hsc : hs (H.copyHoles c t) i j c = hs H i j c + hs H i j t := by
      unfold hs
      rw [copyHoles_holes, if_pos rfl, List.map_append, List.sum_append]
      congr 1 <;> (congr 1; exact List.map_congr_left (fun h _ => by rw [(he h).2.1]))
    have hov1 : ∀ n ∈ out, ov (H.copyHoles c t) i j n = ov H i j n := by
      intro n hn
      have hz := g.z.zS n (hout n hn)
      unfold ov
      rw [(he n).2.1, hsn n (fun e => hz.1 (e ▸ hcS)) (fun e => hz.1 (e ▸ htS))]
    have hov : out.map (ov (H.copyHoles c t) i j) = out.map (ov H i j) := List.map_congr_left hov1
    have hwA : ∀ e (L : List Nat), wsum (fv (H.copyHoles c t) i j) e L = wsum (fv H i j) e L := fun e L =>
      wsum_congr L e (fun n _ => by unfold fv; rw [(he n).2.1, (he n).2.2])
    have hsL : ∀ L : List Nat, (∀ n ∈ L, n ∈ A ++ B) → L.map (hs (H.copyHoles c t) i j) = L.map (hs H i j) := fun L hL =>
      List.map_congr_left (fun n hn => hsn n ((hm n).1 (hL n hn)).2.1 ((hm n).1 (hL n hn)).2.2)
    have f0 : PolyInv.flip A.length true = true := by unfold PolyInv.flip; rw [if_pos (by omega)]
    obtain ⟨w1, w2⟩ := gw i j hi
    have : ov (H.copyHoles c t) i j c = fv H i j t + hs H i j c + hs H i j t := by
      unfold ov; rw [(he c).2.1, hsc, w1]; rw [w2]; ring
    refine ⟨?_, fun n hn => ?_⟩
    rotate_left
    · rcases List.mem_append.1 hn with a | a
      · rw [hov1 n a]; exact (ht i j hi).2 n a
      · rw [List.mem_singleton.1 a, this]; exact shell_nonneg g hc hA hi
    unfold tot cs pdv
    rw [hwA, hsL _ (fun n hn => hn), List.map_append (f := ov (H.copyHoles c t) i j), hov, List.map_cons, List.map_nil, List.sum_append (l₁ := out.map (ov H i j)), List.sum_cons, List.sum_nil]
    rw [this, wsum_append, wsum_append, wsum, wsum, f0]
    simp only [List.map_append, List.map_cons, List.sum_append, List.sum_cons, Bool.not_true, Bool.not_false, Bool.false_eq_true, if_false, if_true]
    ring

/-- A hole closes. -/
theorem close_hole {A B out : List Nat} {H : Heap} {t : Nat} (g : G fr X H (A ++ c :: t :: B) Z) (hc : oth H c = t) (hj : Joint X H c t)
    (hv : vrt H c = true) (hA : (A.length : Int) % 2 = 1) (hout : ∀ n ∈ out, n ∈ Z)
    (ht : ∀ i j, i < X → tot H (A ++ c :: t :: B) out none i j = base.c i j ∧ ∀ n ∈ out, 0 ≤ ov H i j n) :
    G fr X H (A ++ B) (c :: Z) ∧ (∀ n ∈ out, n ∈ c :: Z) ∧ (∀ n ∈ out, n ≠ c ∧ n ≠ oth H c) ∧
    (∀ i j, i < X → tot H (A ++ B) out (some c) i j = base.c i j ∧ ∀ n ∈ out, 0 ≤ ov H i j n) ∧
    (∀ i j, i < X → Pend H (A ++ B) c (A.length - 1) i j) := by
  obtain ⟨g1, gw⟩ := g_close g hc hj hv
  have hcS : c ∈ A ++ c :: t :: B := by simp
  have htS : t ∈ A ++ c :: t :: B := by simp
  refine ⟨g1, fun n hn => List.mem_cons_of_mem _ (hout n hn), fun n hn => ?_, fun i j hi => ?_, fun i j hi => ?_⟩
  · have hz := g.z.zS n (hout n hn)
    rw [hc]
    exact ⟨fun e => hz.1 (e ▸ hcS), fun e => hz.1 (e ▸ htS)⟩
  · rw [← (ht i j hi).1]
    refine ⟨?_, (ht i j hi).2⟩
    have f0 : PolyInv.flip A.length true = false := by unfold PolyInv.flip; rw [if_neg (by omega)]; rfl
    obtain ⟨w1, w2⟩ := gw i j hi
    unfold tot cs pdv
    dsimp only
    rw [hc, w1, wsum_append, wsum_append, wsum, wsum, f0]
    simp only [List.map_append, List.map_cons, List.sum_append, List.sum_cons, Bool.not_true, Bool.not_false, Bool.false_eq_true, if_false, if_true]
    ring

  · have hadj := ps_adj g.web.nodup
    have hm := fun a => mem_mid (a := a) g.web.nodup
    obtain ⟨w1, w2⟩ := gw i j hi
    have hN := g.nest i j hi
    have hL := g.web.lam i j hi
    have hou : oth H t = c := by rw [← hc]; exact g.web.oo c hcS
    have hr := hL.rng c hcS (by rw [hc]; omega)
    rw [hc] at hr
    constructor
    · have h1 := hN.sum
      have e : ((A ++ B).map (hs H i j)).sum + pdv H i j (some c) = ((A ++ c :: t :: B).map (hs H i j)).sum - fv H i j t := by
        unfold pdv
        simp only [List.map_append, List.map_cons, List.sum_append, List.sum_cons, hc, w1, w2]; ring
      rw [e]
      by_cases h2 : ((A ++ c :: t :: B).map (hs H i j)).sum < 0
      · obtain ⟨b, hb, hneg⟩ := sum_hs_neg g h2
        obtain ⟨k, hk, hw⟩ := hs_neg g hneg
        have := (hN.rel b hb k hk c hcS (by rw [hc]; omega)).2
        rw [hc, hw, hadj.1, hadj.2] at this
        have := this (by unfold Sp gp; omega)
        omega
      · omega
    · intro h hh
      rcases hh with rfl | hh | hh
      · rw [w1, show - fv H i j h = fv H i j t by omega]
        refine hr_out g.web.nodup g1.web.om (Or.inl ⟨le_refl _, rfl⟩) ?_
        intro a ⟨ha, a1, a2⟩ hlt
        have q1 : ps (A ++ h :: t :: B) a ≠ A.length := fun e => a1 (ps_inj ha (by rw [e, hadj.1]))
        have q2 : ps (A ++ h :: t :: B) a ≠ A.length + 1 := fun e => a2 (ps_inj ha (by rw [e, hadj.2]))
        rcases Int.lt_or_le (ps (A ++ h :: t :: B) a) A.length with q | q
        · have := hL.lam a h ha hcS hlt (by rw [hc]; omega) (by omega)
          rw [hc, hadj.1, hadj.2] at this
          unfold Hr Sp
          omega
        · have := hL.lam h a hcS ha (by rw [hc]; omega) hlt (by omega)
          rw [hc, hadj.2] at this
          unfold Hr Sp
          omega
      · refine hr_close g hc (q := gp (ps (A ++ c :: t :: B) c)) (Or.inl ⟨?_, ?_⟩) (hN.rel c hcS h hh)
        · rw [hadj.1]; unfold gp; omega
        · rw [hadj.1]; unfold gp; omega
      · rw [hc] at hh
        refine hr_close g hc (q := gp (ps (A ++ c :: t :: B) t)) (Or.inr ⟨?_, ?_⟩) (hN.rel t htS h hh)
        · rw [hadj.2]; unfold gp; omega
        · rw [hadj.2]; unfold gp; omega

/-- An edge of the other kind follows. -/
theorem shared_spec (h : Mid fr X fm fp base y D U c Z s) {hi : Int} {trailing : Bool} (hlt : y < hi)
    (hm : ∀ j, y ≤ j → j < hi → fm j = (if trailing then 1 else 0) ∧ fp j = 1 - (if trailing then 1 else 0))
    (hat : fm hi = 1 - (if trailing then 1 else 0)) :
    ∃ D' U' c' Z' s', shared fr trailing X hi s = some s' ∧ Mid fr X fm fp base hi D' U' c' Z' s' := by
  obtain ⟨m1, m2, m3⟩ := mid_edge h hlt hm
  obtain ⟨t, U', rfl⟩ : ∃ t U', U = (hi, t) :: U' := by
    have := h.hfm hi (by omega)
    rw [hat] at this
    cases U with
    | nil => rw [cnt_nil] at this; omega
    | cons a U' =>
      have ha := m1 a (by simp)
      by_cases e : a.1 = hi
      · exact ⟨a.2, U', by rw [← e]⟩
      · have hs := List.pairwise_cons.1 (srt_append.1 h.srt).2.1
        rw [cnt_none (fun b hb => ?_)] at this
        · omega
        · rcases List.mem_cons.1 hb with rfl | hb
          · omega
          · have := hs.1 b hb; omega
  obtain ⟨f1, f2, f3, f4, f5, f6, f7, _⟩ := mid_maps h
  have hj := mid_joint h
  have hg := h.g
  rw [mid_S] at hg
  have ht := h.tot
  rw [mid_S] at ht
  have hcS : c ∈ D.map (·.2) ++ c :: t :: U'.map (·.2) := by simp
  have htS : t ∈ D.map (·.2) ++ c :: t :: U'.map (·.2) := by simp
  have hadj := ps_adj hg.web.nodup
  have hct : c ≠ t := by intro e; rw [e] at hadj; omega
  have hsrt : ∀ v, Srt (D ++ [(hi, v)] ++ U') := fun v => by rw [List.append_assoc]; exact srt_mid v f7 f5 f6
  have hDv : ∀ v : Nat, ∀ e ∈ D ++ [(hi, v)], e.1 ≤ hi := fun v e he => by
    rcases List.mem_append.1 he with a | a
    · have := f5 e a; omega
    · rw [List.mem_singleton.1 a]
  have hfp : ∀ v : Nat, ∀ j, j < hi → fp j = cnt (D ++ [(hi, v)]) j % 2 := fun v j hj => by
    rw [m3 j hj, cnt_append, cnt_none (L := [(hi, v)]) (fun e he => by rw [List.mem_singleton.1 he]; exact hj), Int.add_zero]
  have hfm : ∀ v : Nat, ∀ j, hi ≤ j → fm j = ((D ++ [(hi, v)]).length + 1 + cnt U' j) % 2 := fun v j hj => by
    rw [h.hfm j (by omega), cnt_cons, if_pos hj, List.length_append]; simp only [List.length_singleton]; push_cast; omega
  cases trailing with
  | true =>
    have hDe : ((D.map (·.2)).length : Int) % 2 = 0 := by rw [List.length_map]; simp only [if_true] at m2; omega
    -- the join
    obtain ⟨H1, o1, Z1, j1, j2, j3, j4, j5, j6⟩ : ∃ H1 o1 Z1, s.H.joinChains c t false = (H1, o1, none) ∧ G fr X H1 (D.map (·.2) ++ U'.map (·.2)) Z1 ∧
        (∀ n ∈ D.map (·.2) ++ U'.map (·.2), Near s.H H1 n) ∧ (∀ n ∈ s.out ++ o1, n ∈ Z1) ∧
        (∀ i j, i < X → tot H1 (D.map (·.2) ++ U'.map (·.2)) (s.out ++ o1) none i j = base.c i j ∧ ∀ n ∈ s.out ++ o1, 0 ≤ ov H1 i j n) ∧
        (fr = false → Gr base.h base.v X (gx fm fp hi) H1 (D.map (·.2) ++ U'.map (·.2)) (s.out ++ o1) none) := by
      obtain ⟨b, q, x, q', y1, y2, y3, y4, y5⟩ := mid_paths h
      have hgr := h.gr
      rw [mid_S] at hgr
      by_cases hc : oth s.H c = t
      · obtain ⟨a1, a2, a3, a4, a5⟩ := close_shell hg hc hj h.cv hDe h.out ht
        exact ⟨_, _, _, a1, a2, fun n _ => a3 n, a4, a5, fun hf => gr_shell hg (hgr hf) h.out hc h.cv y5 y1 y3 y2 y4 (gx_end hlt (edge_ne hm))⟩
      · obtain ⟨H1, a1, a2, a3, a4, a5⟩ := g_join hg hc hj false
        refine ⟨H1, [], Z, a1, a2, a4, by simpa using h.out, ?_⟩
        rw [List.append_nil]
        exact ⟨out_op hg a3 base.c h.out ht, fun hf => gr_join hg (hgr hf) h.out (fun _ hh => absurd hh (by simp)) hc a1 a2 h.cv y5 y1 y3 y2 y4 a3 (gx_end hlt (edge_ne hm))⟩
    obtain ⟨n1, n2, n3, n4, n5, n6⟩ := g_new (y := hi) j2
    have hS2 : (D ++ [(hi, H1.fresh + 1)]).map (·.2) ++ H1.fresh :: U'.map (·.2) = D.map (·.2) ++ (H1.fresh + 1) :: H1.fresh :: U'.map (·.2) := by simp
    have hmem : ∀ e ∈ D ++ U', e.2 ∈ D.map (·.2) ++ U'.map (·.2) := fun e he => by
      rw [← List.map_append]; exact List.mem_map.2 ⟨e, he, rfl⟩
    have hnear : ∀ e ∈ D ++ U', Near s.H (H1.newPair X hi).1 e.2 := fun e he => (j3 _ (hmem e he)).trans (n3 _ (hmem e he))
    refine ⟨D ++ [(hi, H1.fresh + 1)], U', H1.fresh, Z1, { H := (H1.newPair X hi).1, map := mset s.map hi (H1.fresh + 1), nm := mnext s.map hi, cur := some H1.fresh, out := s.out ++ o1 }, ?_, ?_⟩
    · unfold shared
      simp only [f1, h.cur, Option.bind_eq_bind, Option.bind_some, if_true, j1]
      rfl
    · constructor
      · rw [List.append_assoc]; exact f4 _
      · exact hsrt _
      · exact hDv _
      · exact f6
      · rfl
      · rw [hS2]; exact n1
      · intro e he
        rw [List.append_assoc] at he
        rcases List.mem_append.1 he with a | a
        · exact ent_near (h.ent e (by simp [a])) (hnear e (by simp [a]))
        · rcases List.mem_append.1 a with a | a
          · rw [List.mem_singleton.1 a]
            unfold Ent vrt pth; dsimp only; rw [n5]; exact ⟨rfl, rfl⟩
          · exact ent_near (h.ent e (by simp [a])) (hnear e (by simp [a]))
      · intro e he; exact old_near (h.old e (by simp [he])) (hnear e (by simp [he]))
      · unfold vrt; dsimp only; rw [n4]
      · refine ⟨hi, [], ?_, le_refl _⟩
        unfold pth; dsimp only; rw [n4]
      · exact hfp _
      · exact hfm _
      · dsimp only; rw [f2]; exact nm_head U' (srt_append.1 f7).2.1
      · exact j4
      · rw [hS2]; exact out_op j2 n2 base.c j4 j5
      · intro hf
        rw [hS2]
        exact PolyGross.gr_new j2 (j6 hf) j4 (fun _ hh => absurd hh (by simp)) n2 (mx_start hi)
  | false =>
    obtain ⟨b, q, hp, hb⟩ := h.cp
    obtain ⟨H1, p1, p2, p3, p4, p5, p6, p7, p8, p9⟩ := g_push hg hcS (c := hi) hp (by rw [h.cv]; simp) (by omega)
    have near1 := p6 t htS hct.symm
    have hent1 : Ent H1 (hi, t) := ent_near (h.ent (hi, t) (by simp)) near1
    obtain ⟨x', o1, o2⟩ := old_near (h.old (hi, t) (by simp)) near1
    obtain ⟨x, q', hp'⟩ := ent_path p2.web (e := (hi, t)) htS hent1
    dsimp only at hp'
    dsimp only at o1
    rw [hp'] at o1; simp at o1
    have hv1 : vrt H1 t = false := hent1.1
    obtain ⟨H2, r1, r2, r3, r4, r5, r6, r7, r8, r9⟩ := g_push p2 htS (c := X) hp' (by rw [hv1]; simp) (by omega)
    have near2 := r6 c hcS hct
    have hS2 : (D ++ [(hi, c)]).map (·.2) ++ t :: U'.map (·.2) = D.map (·.2) ++ c :: t :: U'.map (·.2) := by simp
    have hnear : ∀ e ∈ D ++ U', Near s.H H2 e.2 := fun e he => by
      have := (mem_mid (a := e.2) hg.web.nodup).1 (by rw [← List.map_append]; exact List.mem_map.2 ⟨e, he, rfl⟩)
      exact (p6 _ this.1 this.2.1).trans (r6 _ this.1 this.2.2)
    refine ⟨D ++ [(hi, c)], U', t, Z, { s with H := H2, map := mset s.map hi c, nm := mnext s.map hi, cur := some t }, ?_, ?_⟩
    · unfold shared
      simp only [f1, h.cur, Option.bind_eq_bind, Option.bind_some, Bool.false_eq_true, if_false, p1, r1]
    · constructor
      · rw [List.append_assoc]; exact f4 _
      · exact hsrt _
      · exact hDv _
      · exact f6
      · rfl
      · rw [hS2]; exact r2
      · intro e he
        rw [List.append_assoc] at he
        rcases List.mem_append.1 he with a | a
        · exact ent_near (h.ent e (by simp [a])) (hnear e (by simp [a]))
        · rcases List.mem_append.1 a with a | a
          · rw [List.mem_singleton.1 a]
            refine ent_near ⟨?_, ?_⟩ near2
            · dsimp only; rw [p5, h.cv]; rfl
            · dsimp only; rw [p4]; rfl
          · exact ent_near (h.ent e (by simp [a])) (hnear e (by simp [a]))
      · intro e he; exact old_near (h.old e (by simp [he])) (hnear e (by simp [he]))
      · dsimp only; rw [r5, hv1]; rfl
      · exact ⟨hi, x :: q', r4, le_refl _⟩
      · exact hfp _
      · exact hfm _
      · dsimp only; rw [f2]; exact nm_head U' (srt_append.1 f7).2.1
      · exact h.out
      · rw [hS2]; exact out_op hg (p3.trans r3) base.c h.out ht
      · intro hf
        have hgr := h.gr hf
        rw [mid_S] at hgr
        rw [hS2]
        refine gr_pushX p2 (gr_pushY hg hgr h.out (fun _ hh => absurd hh (by simp)) hcS hp h.cv (by omega) p1 p3 (gx_end hlt (edge_ne hm))) h.out
          (fun _ hh => absurd hh (by simp)) htS hp' hv1 (by omega) r1 r3 (mx_start hi)

/-- A hole finds its place, or waits for the next edge. -/
theorem holeUp_spec {hi : Int} {t : Nat} (h : Mid fr X fm fp base y D ((hi, t) :: U) c Z s) (hc : oth s.H c = t)
    (hDo : (D.length : Int) % 2 = 1) (hm3 : ∀ j, j < hi → fp j = cnt D j % 2) (hed : ∀ j, y ≤ j → j < hi → fm j ≠ fp j)
    (hfin : ∃ J, ∀ j, J ≤ j → fm j = 0) {haveNext : Bool} {umax leftY rightY : Int} (_hes : ∀ d ∈ es, hi < d.lo)
    (hatt : ∀ k, (∀ j, hi ≤ j → j < k → fm j = 1) → (!haveNext || (decide (k < leftY) && decide (k < rightY))) = true → ∀ d ∈ es, k ≤ d.lo)
    (hpen : ∀ k, (!haveNext || (decide (k < leftY) && decide (k < rightY))) = false → ∃ d ∈ es, d.lo ≤ k) :
    ∃ D' U' Z' s', holeUp fr haveNext umax leftY rightY { s with H := s.H, nm := mnext s.map hi, cur := none, out := s.out ++ [] } c = some s' ∧
      Gap fr X fm fp base es hi D' U' Z' { s' with map := merase s'.map hi } := by
  obtain ⟨f1, f2, f3, f4, f5, f6, f7, hlt⟩ := mid_maps h
  have hj := mid_joint h
  have hg := h.g
  rw [mid_S] at hg
  have ht := h.tot
  rw [mid_S] at ht
  have hcS : c ∈ D.map (·.2) ++ c :: t :: U.map (·.2) := by simp
  have htS : t ∈ D.map (·.2) ++ c :: t :: U.map (·.2) := by simp
  have hadj := ps_adj hg.web.nodup
  have hct : c ≠ t := by intro e; rw [e] at hadj; omega
  -- there is an end above
  obtain ⟨k, u, U', rfl⟩ : ∃ k u U', U = (k, u) :: U' := by
    cases U with
    | nil =>
      obtain ⟨J, hJ⟩ := hfin
      have h1 := hJ (max J hi) (by omega)
      have h2 := h.hfm (max J hi) (by omega)
      rw [h1, cnt_cons, if_pos (by dsimp only; omega), cnt_nil] at h2
      omega
    | cons a U' => exact ⟨a.1, a.2, U', rfl⟩
  have hk : hi < k := f6 (k, u) (by simp)
  have hU' : ∀ e ∈ U', k < e.1 := (List.pairwise_cons.1 (srt_append.1 f7).2.1).1
  have hDl : ((D.map (·.2)).length : Int) % 2 = 1 := by rw [List.length_map]; exact hDo
  have hfm1 : ∀ j, hi ≤ j → fm j = (D.length + cnt ((k, u) :: U') j) % 2 := fun j hj => by
    rw [h.hfm j (by omega), cnt_cons, if_pos hj]; omega
  have hone : ∀ j, hi ≤ j → j < k → fm j = 1 := fun j h1 h2 => by
    rw [hfm1 j h1, cnt_none (fun e he => ?_)]
    · omega
    · rcases List.mem_cons.1 he with rfl | he
      · exact h2
      · have := hU' e he; omega
  have hDk : ∀ e ∈ D ++ [(hi, t)], e.1 < k := fun e he => by
    rcases List.mem_append.1 he with a | a
    · have := f5 e a; omega
    · rw [List.mem_singleton.1 a]; exact hk
  have hmk : mfind s.map k = some u := by
    have e : D ++ (hi, t) :: (k, u) :: U' = (D ++ [(hi, t)]) ++ (k, u) :: U' := by simp
    rw [h.map, e]
    exact find_mid hDk
  have hnm : NmOk (some k) ((k, u) :: U') := by rw [show some k = ((k, u) :: U').head?.map (·.1) from rfl]; exact nm_head _ (srt_append.1 f7).2.1
  have hmn : mnext s.map hi = some k := by rw [f2]; rfl
  have hDle : ∀ e ∈ D, e.1 ≤ hi := fun e he => by have := f5 e he; omega
  have huent := h.ent (k, u) (by simp)
  have huold := h.old (k, u) (by simp)
  obtain ⟨b, q, hp, hb⟩ := h.cp
  obtain ⟨x, q', hp'⟩ := ent_path hg.web (e := (hi, t)) htS (h.ent (hi, t) (by simp))
  have hx : x < X := by
    obtain ⟨x', o1, o2⟩ := h.old (hi, t) (by simp)
    dsimp only at o1 hp'; rw [hp'] at o1; simp at o1; omega
  have hvt : vrt s.H t = false := (h.ent (hi, t) (by simp)).1
  dsimp only at hp'
  unfold holeUp
  dsimp only
  rw [hmn]
  simp only [Option.getD_some]
  by_cases hcond : (!haveNext || (decide (k < leftY) && decide (k < rightY))) = true
  · rw [if_pos hcond]
    have hle := hatt k hone hcond
    simp only [Option.bind_eq_bind, Option.bind_some, hmk]
    cases fr with
    | false =>
      -- attached to the end above
      obtain ⟨c1, c2, c3, c4, c5⟩ := close_hole hg hc hj h.cv hDl h.out ht
      have hS : D.map (·.2) ++ u :: U'.map (·.2) = D.map (·.2) ++ ((k, u) :: U').map (·.2) := by simp
      obtain ⟨H1, a1, a2, a3, a4, a5, a6, a7, a8⟩ := g_addHole c1 (t := u) (by simp) (hole := c) (by simp) (out := s.out) (fun n hn => ⟨c2 n hn, c3 n hn⟩) (fun i j hi => by
        have hgp : gp (ps (D.map (·.2) ++ ((k, u) :: U').map (·.2)) u) = (D.map (·.2)).length - 1 := by
          rw [← hS, ps_at (by rw [hS]; exact c1.web.nodup)]; unfold gp; omega
        rw [hgp]
        exact c5 i j hi)
      rw [a1]
      simp only [Option.bind_some, Bool.false_eq_true, if_false, List.append_nil]
      refine ⟨D, (k, u) :: U', c :: Z, _, rfl, ?_⟩
      constructor
      · exact f3
      · exact f7
      · exact hDle
      · exact f6
      · have e : D.map (·.2) ++ cl false H1 none ++ ((k, u) :: U').map (·.2) = D.map (·.2) ++ ((k, u) :: U').map (·.2) := by simp [cl]
        dsimp only; rw [e]; exact a2
      · intro e he
        refine ent_near (h.ent e ?_) (a3 _)
        rcases List.mem_append.1 he with a | a
        · simp [a]
        · simp only [List.mem_append]; right; exact List.mem_cons_of_mem _ a
      · intro e he; exact Or.inl (old_near (h.old e (List.mem_cons_of_mem _ he)) (a3 _))
      · intro c' hc'; simp at hc'
      · exact hm3
      · exact hfm1
      · exact hnm
      · exact c2
      · have e : D.map (·.2) ++ cl false H1 none ++ ((k, u) :: U').map (·.2) = D.map (·.2) ++ ((k, u) :: U').map (·.2) := by simp [cl]
        dsimp only; rw [e]
        intro i j hi
        obtain ⟨h1, h2⟩ := a8 i j
        rw [nil_pd]
        exact ⟨by rw [h1]; exact (c4 i j hi).1, fun n hn => by rw [h2 n hn]; exact (c4 i j hi).2 n hn⟩
      · intro _
        have e : D.map (·.2) ++ cl false H1 none ++ ((k, u) :: U').map (·.2) = D.map (·.2) ++ ((k, u) :: U').map (·.2) := by simp [cl]
        dsimp only; rw [e]
        have hgr := h.gr rfl
        rw [mid_S] at hgr
        exact gr_addHole c1 (gr_hole hg hgr hc h.cv hvt hp hp' (by omega) hx (gx_end hlt hed)) (by simp) (by simp) (fun n hn => ⟨c2 n hn, c3 n hn⟩) a1
    | true =>
      -- cut open towards the end above
      obtain ⟨H1, p1, p2, p3, p4, p5, p6, p7, p8, p9⟩ := g_push hg htS (c := X) hp' (by rw [hvt]; simp) (by omega)
      rw [hvt] at p5
      have hSS : D.map (·.2) ++ c :: t :: ((k, u) :: U').map (·.2) = (D.map (·.2) ++ [c]) ++ t :: u :: U'.map (·.2) := by simp
      rw [hSS] at p2 p3 p6 hg ht
      have huS : u ∈ (D.map (·.2) ++ [c]) ++ t :: u :: U'.map (·.2) := by simp
      have hcS' : c ∈ (D.map (·.2) ++ [c]) ++ t :: u :: U'.map (·.2) := by simp
      have hut : u ≠ t := by intro e; have := ps_adj p2.web.nodup; rw [e] at this; omega
      have huc : u ≠ c := by
        intro e
        have nd := List.nodup_append.1 p2.web.nodup
        exact nd.2.2 c (by simp) u (by simp) e.symm
      have near1u := p6 u huS hut
      have near1c := p6 c hcS' hct
      have ent1 : Ent H1 (k, u) := ent_near huent near1u
      obtain ⟨x', o1, o2⟩ := old_near huold near1u
      have hoc : oth s.H t = c := by rw [← hc]; exact hg.web.oo c hcS'
      have hne : oth H1 t ≠ u := by rw [p7, hoc]; exact huc.symm
      have hj1 : Joint X H1 t u := by
        refine ⟨by rw [p5]; exact ent1.1, by rw [p5]; simp [p4], fun a a' ha ha' => ?_, fun a a' ha ha' => ?_⟩
        · rw [p4] at ha; simp at ha
          have : (pth H1 u).head? = some k := ent1.2
          rw [this] at ha'; simp at ha'; omega
        · rw [p4] at ha; simp at ha
          dsimp only at o1
          rw [o1] at ha'; simp at ha'; omega
      obtain ⟨H2, j1, j2, j3, j4, j5⟩ := g_join' p2 hne hj1 false
      have hS2 : D.map (·.2) ++ [c] ++ U'.map (·.2) = D.map (·.2) ++ c :: U'.map (·.2) := by simp
      have hcS2 : c ∈ D.map (·.2) ++ [c] ++ U'.map (·.2) := by simp
      have near2c := near1c.trans (j4 c hcS2)
      have hv2 : vrt H2 c = true := near2c.1.trans h.cv
      obtain ⟨r'', hp2⟩ : ∃ r'', pth H2 c = X :: b :: r'' := by
        have := take2 near2c.2
        rw [hp] at this
        match hh : pth H2 c with
        | [] => rw [hh] at this; simp at this
        | [_] => rw [hh] at this; simp at this
        | a :: b' :: r => rw [hh] at this; simp at this; exact ⟨r, by rw [this.1, this.2]⟩
      obtain ⟨H3, r1, r2, r3, r4, r5, r6, r7, r8, r9⟩ := g_push j2 hcS2 (c := k) hp2 (by rw [hv2]; simp) (by omega)
      rw [hv2] at r5
      have haH : s.H.addHole u c true = some (H2, c) := by
        unfold Heap.addHole
        have hv' : (s.H.tail (s.H.tail c).other).vert = false := by
          change vrt s.H (oth s.H c) = false; rw [hc]; exact hvt
        have hh : (s.H.tail c).path.head? = some X := by
          change (pth s.H c).head? = _; rw [hp]; rfl
        have p1' : s.H.push (s.H.tail c).other X = some H1 := by
          change s.H.push (oth s.H c) X = _; rw [hc]; exact p1
        have j1' : H1.joinChains u (s.H.tail c).other false = (H2, [], none) := by
          change H1.joinChains u (oth s.H c) false = _; rw [hc]; exact j1
        simp only [Bool.not_true, Bool.false_eq_true, if_false, hv', hh, Option.bind_eq_bind, Option.bind_some, p1', j1']
      have hms : mset s.map k c = D ++ (hi, t) :: (k, c) :: U' := by
        have e : D ++ (hi, t) :: (k, u) :: U' = (D ++ [(hi, t)]) ++ (k, u) :: U' := by simp
        rw [h.map, e, set_mid hDk hU']; simp
      rw [haH]
      simp only [Option.bind_some, r1, if_true, List.append_nil]
      have hU3 : ∀ e ∈ (k, c) :: U', hi < e.1 := fun e he => by
        rcases List.mem_cons.1 he with rfl | he
        · exact hk
        · have := hU' e he; omega
      refine ⟨D, (k, c) :: U', Z, _, rfl, ?_⟩
      have hS3 : D.map (·.2) ++ cl true H3 none ++ ((k, c) :: U').map (·.2) = D.map (·.2) ++ [c] ++ U'.map (·.2) := by simp [cl]
      have hnear : ∀ e ∈ D ++ U', Near s.H H3 e.2 := fun e he => by
        have hn : e.2 ∈ D.map (·.2) ++ [c] ++ U'.map (·.2) := by rw [hS2]; exact mem_S he
        have hne' := nd_ne (D := D) (U := U') (c := c) (by rw [← hS2]; exact j2.web.nodup) e he
        have := (mem_mid (a := e.2) p2.web.nodup).1 hn
        exact ((p6 _ this.1 this.2.1).trans (j4 _ hn)).trans (r6 _ hn hne')
      constructor
      · dsimp only; rw [hms]; exact erase_mid f5 hU3
      · obtain ⟨s1, s2, s3⟩ := srt_drop (D := D) (e := (k, u)) (U := U') f7
        exact srt_mid c s1 s2 s3
      · exact hDle
      · exact hU3
      · dsimp only; rw [hS3]; exact r2
      · intro e he
        rcases List.mem_append.1 he with a | a
        · exact ent_near (h.ent e (by simp [a])) (hnear e (by simp [a]))
        · rcases List.mem_cons.1 a with rfl | a
          · exact ⟨r5, by dsimp only; rw [r4]; rfl⟩
          · exact ent_near (h.ent e (by simp [a])) (hnear e (by simp [a]))
      · intro e he
        rcases List.mem_cons.1 he with rfl | he
        · right
          exact ⟨rfl, rfl, hle, b, r'', r4, by dsimp only; omega⟩
        · exact Or.inl (old_near (h.old e (by simp [he])) (hnear e (by simp [he])))
      · intro c' hc'; simp at hc'
      · exact hm3
      · intro j hj'
        rw [hfm1 j hj', cnt_cons, cnt_cons]
      · intro p hp0 e he
        rcases List.mem_cons.1 he with rfl | he
        · exact hnm p hp0 (k, u) (by simp)
        · exact hnm p hp0 e (by simp [he])
      · exact h.out
      · dsimp only; rw [hS3, nil_pd]
        exact out_op hg ((p3.trans j3).trans r3) base.c h.out ht
      · intro hf; simp at hf
  · rw [if_neg hcond]
    have hcond' : (!haveNext || (decide (k < leftY) && decide (k < rightY))) = false := by
      simpa using hcond
    obtain ⟨d, hd, hdk⟩ := hpen k hcond'
    have hall : ∀ e ∈ (k, u) :: U', ∃ d ∈ es, d.lo ≤ e.1 := fun e he => by
      refine ⟨d, hd, ?_⟩
      rcases List.mem_cons.1 he with rfl | he
      · exact hdk
      · have := hU' e he; omega
    cases fr with
    | false =>
      obtain ⟨c1, c2, c3, c4, c5⟩ := close_hole hg hc hj h.cv hDl h.out ht
      refine ⟨D, (k, u) :: U', c :: Z, _, rfl, ?_⟩
      constructor
      · exact f3
      · exact f7
      · exact hDle
      · exact f6
      · have e : D.map (·.2) ++ cl false s.H (some c) ++ ((k, u) :: U').map (·.2) = D.map (·.2) ++ ((k, u) :: U').map (·.2) := by simp [cl]
        dsimp only; rw [e]; exact c1
      · intro e he
        refine h.ent e ?_
        rcases List.mem_append.1 he with a | a
        · simp [a]
        · simp only [List.mem_append]; right; exact List.mem_cons_of_mem _ a
      · intro e he; exact Or.inl (h.old e (List.mem_cons_of_mem _ he))
      · intro c' hc'
        simp only [Option.some.injEq] at hc'
        subst hc'
        refine ⟨hall, by simp, ?_⟩
        simp only [Bool.false_eq_true, if_false]
        refine ⟨⟨by simp, fun n hn => ?_⟩, hDo, fun i j hi => by rw [List.length_map] at c5; exact c5 i j hi⟩
        rw [List.append_nil] at hn
        exact c3 n hn
      · exact hm3
      · exact hfm1
      · exact hnm
      · intro n hn
        rw [List.append_nil] at hn
        exact c2 n hn
      · have e : D.map (·.2) ++ cl false s.H (some c) ++ ((k, u) :: U').map (·.2) = D.map (·.2) ++ ((k, u) :: U').map (·.2) := by simp [cl]
        dsimp only; rw [e, List.append_nil]
        exact c4
      · intro _
        have e : D.map (·.2) ++ cl false s.H (some c) ++ ((k, u) :: U').map (·.2) = D.map (·.2) ++ ((k, u) :: U').map (·.2) := by simp [cl]
        dsimp only; rw [e, List.append_nil]
        have hgr := h.gr rfl
        rw [mid_S] at hgr
        exact gr_hole hg hgr hc h.cv hvt hp hp' (by omega) hx (gx_end hlt hed)
    | true =>
      refine ⟨D, (k, u) :: U', Z, _, rfl, ?_⟩
      have e : D.map (·.2) ++ cl true s.H (some c) ++ ((k, u) :: U').map (·.2) = D.map (·.2) ++ c :: t :: ((k, u) :: U').map (·.2) := by simp [cl, hc]
      constructor
      · exact f3
      · exact f7
      · exact hDle
      · exact f6
      · dsimp only; rw [e]; exact hg
      · intro e he
        refine h.ent e ?_
        rcases List.mem_append.1 he with a | a
        · simp [a]
        · simp only [List.mem_append]; right; exact List.mem_cons_of_mem _ a
      · intro e he; exact Or.inl (h.old e (List.mem_cons_of_mem _ he))
      · intro c' hc'
        simp only [Option.some.injEq] at hc'
        subst hc'
        refine ⟨hall, by simp, ?_⟩
        rw [if_pos rfl]
        dsimp only
        rw [hc]
        exact ⟨h.cv, ⟨b, q, hp, by omega⟩, hvt, x, q', hp', hx⟩
      · exact hm3
      · exact hfm1
      · exact hnm
      · intro n hn
        rw [List.append_nil] at hn
        exact h.out n hn
      · dsimp only; rw [e, List.append_nil]
        exact ht
      · intro hf; simp at hf

/-- The top end of an edge. -/
theorem top_spec (h : Mid fr X fm fp base y D U c Z s) {hi : Int} {trailing : Bool} (hlt : y < hi)
    (hm : ∀ j, y ≤ j → j < hi → fm j = (if trailing then 1 else 0) ∧ fp j = 1 - (if trailing then 1 else 0))
    (hfin : ∃ J, ∀ j, J ≤ j → fm j = 0) {haveNext : Bool} {umax leftY rightY : Int} (_hes : ∀ d ∈ es, hi < d.lo)
    (hatt : trailing = false → ∀ k, (∀ j, hi ≤ j → j < k → fm j = 1) → (!haveNext || (decide (k < leftY) && decide (k < rightY))) = true → ∀ d ∈ es, k ≤ d.lo)
    (hpen : trailing = false → ∀ k, (!haveNext || (decide (k < leftY) && decide (k < rightY))) = false → ∃ d ∈ es, d.lo ≤ k) :
    ∃ D' U' Z' s', topEnd fr haveNext trailing umax leftY rightY hi s = some s' ∧ Gap fr X fm fp base es hi D' U' Z' s' := by
  obtain ⟨m1, m2, m3⟩ := mid_edge h hlt hm
  by_cases hf : ∃ t U', U = (hi, t) :: U'
  · obtain ⟨t, U', rfl⟩ := hf
    obtain ⟨f1, f2, f3, f4, f5, f6, f7, _⟩ := mid_maps h
    have hj := mid_joint h
    have hg := h.g
    rw [mid_S] at hg
    have ht := h.tot
    rw [mid_S] at ht
    have hDle : ∀ e ∈ D, e.1 ≤ hi := fun e he => by have := f5 e he; omega
    have hfm1 : ∀ j, hi ≤ j → fm j = (D.length + cnt U' j) % 2 := fun j hj => by
      rw [h.hfm j (by omega), cnt_cons, if_pos hj]; omega
    have hnm : NmOk (mnext s.map hi) U' := by rw [f2]; exact nm_head _ (srt_append.1 f7).2.1
    have hmem : ∀ e ∈ D ++ U', e.2 ∈ D.map (·.2) ++ U'.map (·.2) := fun e he => by
      rw [← List.map_append]; exact List.mem_map.2 ⟨e, he, rfl⟩
    have hentU : ∀ e ∈ D ++ U', Ent s.H e := fun e he => by
      refine h.ent e ?_
      rcases List.mem_append.1 he with a | a <;> simp [a]
    -- joined or closed
    have fin : ∀ (H1 : Heap) (o1 Z1 : List Nat), s.H.joinChains c t (!trailing) = (H1, o1, none) → G fr X H1 (D.map (·.2) ++ U'.map (·.2)) Z1 →
        (∀ n ∈ D.map (·.2) ++ U'.map (·.2), Near s.H H1 n) → (∀ n ∈ s.out ++ o1, n ∈ Z1) →
        (∀ i j, i < X → tot H1 (D.map (·.2) ++ U'.map (·.2)) (s.out ++ o1) none i j = base.c i j ∧ ∀ n ∈ s.out ++ o1, 0 ≤ ov H1 i j n) →
        (fr = false → Gr base.h base.v X (gx fm fp hi) H1 (D.map (·.2) ++ U'.map (·.2)) (s.out ++ o1) none) →
        ∃ D' U' Z' s', topEnd fr haveNext trailing umax leftY rightY hi s = some s' ∧ Gap fr X fm fp base es hi D' U' Z' s' := by
      intro H1 o1 Z1 j1 j2 j3 j4 j5 j6
      refine ⟨D, U', Z1, { s with H := H1, map := merase s.map hi, nm := mnext s.map hi, cur := none, out := s.out ++ o1 }, ?_, ?_⟩
      · unfold topEnd
        simp only [f1, h.cur, Option.bind_eq_bind, Option.bind_some, j1]
      · have e : D.map (·.2) ++ cl fr H1 none ++ U'.map (·.2) = D.map (·.2) ++ U'.map (·.2) := by simp [cl]
        constructor
        · exact f3
        · exact f7
        · exact hDle
        · exact f6
        · dsimp only; rw [e]; exact j2
        · intro a ha; exact ent_near (hentU a ha) (j3 _ (hmem a ha))
        · intro a ha; exact Or.inl (old_near (h.old a (by simp [ha])) (j3 _ (hmem a (by simp [ha]))))
        · intro c' hc'; simp at hc'
        · exact m3
        · exact hfm1
        · exact hnm
        · exact j4
        · dsimp only; rw [e, nil_pd]; exact j5
        · intro hf; dsimp only; rw [e, nil_pd]; exact j6 hf
    obtain ⟨b, q, x, q', y1, y2, y3, y4, y5⟩ := mid_paths h
    have hgr := h.gr
    rw [mid_S] at hgr
    by_cases hc : oth s.H c = t
    · cases trailing with
      | true =>
        have hDe : ((D.map (·.2)).length : Int) % 2 = 0 := by rw [List.length_map]; simp only [if_true] at m2; omega
        obtain ⟨a1, a2, a3, a4, a5⟩ := close_shell hg hc hj h.cv hDe h.out ht
        exact fin _ _ _ a1 a2 (fun n _ => a3 n) a4 a5 (fun hf => gr_shell hg (hgr hf) h.out hc h.cv y5 y1 y3 y2 y4 (gx_end hlt (edge_ne hm)))
      | false =>
        have hDo : (D.length : Int) % 2 = 1 := by simp only [Bool.false_eq_true, if_false] at m2; omega
        obtain ⟨D', U'', Z', s', a1, a2⟩ := holeUp_spec (umax := umax) h hc hDo m3 (edge_ne hm) hfin _hes (hatt rfl) (hpen rfl)
        refine ⟨D', U'', Z', _, ?_, a2⟩
        unfold topEnd
        have hjc : s.H.joinChains c t (!false) = (s.H, [], some c) := by
          unfold Heap.joinChains
          have : (s.H.tail c).other = t := hc
          rw [if_pos this]; rfl
        simp only [f1, h.cur, Option.bind_eq_bind, Option.bind_some, hjc, a1]
    · obtain ⟨H1, a1, a2, a3, a4, a5⟩ := g_join hg hc hj (!trailing)
      refine fin H1 [] Z a1 a2 a4 (by simpa using h.out) ?_ ?_
      · rw [List.append_nil]
        exact out_op hg a3 base.c h.out ht
      · rw [List.append_nil]
        exact fun hf => gr_join hg (hgr hf) h.out (fun _ hh => absurd hh (by simp)) hc a1 a2 h.cv y5 y1 y3 y2 y4 a3 (gx_end hlt (edge_ne hm))
  · -- nothing there
    have hU : ∀ e ∈ U, hi < e.1 := by
      intro e he
      cases U with
      | nil => simp at he
      | cons a U' =>
        have ha := m1 a (by simp)
        have hs := List.pairwise_cons.1 (srt_append.1 h.srt).2.1
        have : a.1 ≠ hi := fun e' => hf ⟨a.2, U', by rw [← e']⟩
        rcases List.mem_cons.1 he with rfl | he
        · omega
        · have := hs.1 e he; omega
    have hD : ∀ e ∈ D, e.1 < hi := fun e he => by have := h.hD e he; omega
    have hfind : findAtNext s.map s.nm hi = none := by
      rw [h.map, findAt_eq h.nm hD]
      refine find_none (fun e he => ?_)
      rcases List.mem_append.1 he with a | a
      · have := hD e a; omega
      · have := hU e a; omega
    have hg := h.g
    have hcS : c ∈ D.map (·.2) ++ c :: U.map (·.2) := by simp
    obtain ⟨b, q, hp, hb⟩ := h.cp
    obtain ⟨H1, p1, p2, p3, p4, p5, p6, p7, p8, p9⟩ := g_push hg hcS (c := hi) hp (by rw [h.cv]; simp) (by omega)
    rw [h.cv] at p5
    refine ⟨D ++ [(hi, c)], U, Z, { s with H := H1, map := minsert hi c s.map, cur := none }, ?_, ?_⟩
    · unfold topEnd
      simp only [hfind, h.cur, Option.bind_eq_bind, Option.bind_some, p1]
    · have e : (D ++ [(hi, c)]).map (·.2) ++ cl fr H1 none ++ U.map (·.2) = D.map (·.2) ++ c :: U.map (·.2) := by simp [cl]
      have hnear : ∀ e ∈ D ++ U, Near s.H H1 e.2 := fun e he => p6 _ (mem_S he) (nd_ne hg.web.nodup e he)
      constructor
      · dsimp only; rw [h.map, insert_mid hi c hD hU]; simp
      · rw [List.append_assoc]; exact srt_mid c h.srt hD hU
      · intro a ha
        rcases List.mem_append.1 ha with a' | a'
        · have := hD a a'; omega
        · rw [List.mem_singleton.1 a']
      · exact hU
      · dsimp only; rw [e]; exact p2
      · intro a ha
        rw [List.append_assoc] at ha
        rcases List.mem_append.1 ha with a' | a'
        · exact ent_near (h.ent a (by simp [a'])) (hnear a (by simp [a']))
        · rcases List.mem_append.1 a' with a' | a'
          · rw [List.mem_singleton.1 a']
            exact ⟨p5, by dsimp only; rw [p4]; rfl⟩
          · exact ent_near (h.ent a (by simp [a'])) (hnear a (by simp [a']))
      · intro a ha; exact Or.inl (old_near (h.old a ha) (hnear a (by simp [ha])))
      · intro c' hc'; simp at hc'
      · intro j hj
        rw [m3 j hj, cnt_append, cnt_none (L := [(hi, c)]) (fun e he => by rw [List.mem_singleton.1 he]; exact hj), Int.add_zero]
      · intro j hj
        rw [h.hfm j (by omega), List.length_append]; simp only [List.length_singleton]; push_cast; omega
      · exact h.nm
      · exact h.out
      · dsimp only; rw [e, nil_pd]
        exact out_op hg p3 base.c h.out h.tot
      · intro hf; dsimp only; rw [e, nil_pd]
        exact gr_pushY hg (h.gr hf) h.out (fun _ hh => absurd hh (by simp)) hcS hp h.cv (by omega) p1 p3 (gx_end hlt (edge_ne hm))

end Verif.Proofs.PolyTop
