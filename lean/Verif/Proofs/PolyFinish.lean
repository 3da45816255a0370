import Verif.Proofs.PolyRound
/-!
# From one column to the next
-/
namespace Verif.Proofs.PolyFinish
open Verif.PolyForm Verif.Proofs.PolyGross Verif.Proofs.PolyPath Verif.Proofs.PolyLam Verif.Proofs.PolyWeb Verif.Proofs.PolyInv Verif.Proofs.PolyCol Verif.Proofs.PolyBottom Verif.Proofs.PolyTop Verif.Proofs.PolyRound Verif.Interval

/-! ### alternating sums -/

theorem wsum_sum (f : Nat → Int) : ∀ (S : List Nat) (e : Bool), S.Nodup → wsum f e S = (S.map (fun t => if PolyInv.flip (S.idxOf t) e then 0 else f t)).sum
  | [], _, _ => rfl
  | a :: S, e, h => by
    rw [List.nodup_cons] at h
    rw [wsum, wsum_sum f S (!e) h.2, List.map_cons, List.sum_cons, List.idxOf_cons_self]
    congr 1
    congr 1
    refine List.map_congr_left (fun t ht => ?_)
    have : a ≠ t := fun e => h.1 (e ▸ ht)
    rw [List.idxOf_cons_ne _ this, flip_succ]

theorem sum_perm {o : Nat → Nat} {S : List Nat} (hn : S.Nodup) (hm : ∀ t ∈ S, o t ∈ S) (ho : ∀ t ∈ S, o (o t) = t) (f : Nat → Int) :
    (S.map (fun t => f (o t))).sum = (S.map f).sum := by
  have : (S.map o).Perm S := by
    rw [List.perm_ext_iff_of_nodup ?_ hn]
    · intro a
      constructor
      · intro h
        obtain ⟨b, hb, rfl⟩ := List.mem_map.1 h
        exact hm b hb
      · intro h
        exact List.mem_map.2 ⟨o a, hm a h, ho a h⟩
    · refine (List.nodup_map_iff_inj_on hn).2 (fun a ha b hb e => ?_)
      rw [← ho a ha, e, ho b hb]
  have := (this.map f).sum_eq
  rw [List.map_map] at this
  exact this

theorem sum_sub (f g : Nat → Int) : ∀ S : List Nat, (S.map (fun t => f t - g t)).sum = (S.map f).sum - (S.map g).sum
  | [] => rfl
  | a :: S => by rw [List.map_cons, List.sum_cons, sum_sub f g S, List.map_cons, List.map_cons, List.sum_cons, List.sum_cons]; ring

def alt (j : Int) : Bool → List (Int × Nat) → Int
  | _, [] => 0
  | e, a :: r => (if e then - st j a.1 else st j a.1) + alt j (!e) r

theorem alt_not (j : Int) : ∀ (M : List (Int × Nat)) (e : Bool), alt j (!e) M = - alt j e M
  | [], _ => by simp [alt]
  | a :: M, e => by rw [alt, alt, alt_not j M (!e)]; cases e <;> simp <;> ring

theorem cnt_le (j : Int) : ∀ M : List (Int × Nat), cnt M j ≤ M.length
  | [] => by simp [cnt]
  | a :: M => by
    have := cnt_le j M
    rw [cnt_cons, List.length_cons]; split_ifs <;> push_cast <;> omega

theorem alt_eq (j : Int) : ∀ M : List (Int × Nat), Srt M → alt j true M =
    if ((M.length : Int) - cnt M j) % 2 = 0 then 0 else if cnt M j % 2 = 0 then -1 else 1
  | [], _ => by simp [alt, cnt]
  | a :: M, h => by
    have h' := List.pairwise_cons.1 h
    have ih := alt_eq j M h'.2
    have hn := alt_not j M true
    rw [alt, hn, ih, cnt_cons, List.length_cons]
    simp only [if_true]
    by_cases ha : a.1 ≤ j
    · have : st j a.1 = 0 := by unfold st; rw [if_neg (by omega)]
      rw [this, if_pos ha]
      push_cast
      split_ifs <;> omega
    · have : st j a.1 = 1 := by unfold st; rw [if_pos (by omega)]
      have hc : cnt M j = 0 := cnt_none (fun e he => by have := h'.1 e he; omega)
      rw [this, if_neg ha, hc]
      push_cast
      split_ifs <;> omega

/-- `alt` over the entries as a difference over the ends. -/
theorem alt_wsum (j : Int) (k : Nat → Int) : ∀ (M : List (Int × Nat)) (e : Bool), (∀ a ∈ M, k a.2 = a.1) →
    wsum (fun t => st j (k t)) e (M.map (·.2)) - wsum (fun t => st j (k t)) (!e) (M.map (·.2)) = alt j e M
  | [], _, _ => by simp [wsum, alt]
  | a :: M, e, h => by
    have ih := alt_wsum j k M (!e) (fun b hb => h b (by simp [hb]))
    rw [List.map_cons, wsum, wsum, alt, ← ih, h a (by simp)]
    cases e <;> simp <;> ring

/-! ### the ends right of the last edges -/

variable {fr : Bool} {X : Int} {H : Heap} {M : List (Int × Nat)} {Z : List Nat}

theorem ps_srt : ∀ {M : List (Int × Nat)}, Srt M → (M.map (·.2)).Nodup → ∀ a ∈ M, ∀ b ∈ M, ps (M.map (·.2)) a.2 < ps (M.map (·.2)) b.2 → a.1 < b.1
  | [], _, _, a, ha, _, _, _ => by simp at ha
  | c :: M, h, hn, a, ha, b, hb, hlt => by
    have h' := List.pairwise_cons.1 h
    rw [List.map_cons, List.nodup_cons] at hn
    have hne : ∀ d ∈ M, c.2 ≠ d.2 := fun d hd e => hn.1 (e ▸ List.mem_map.2 ⟨d, hd, rfl⟩)
    have hz : ps ((c :: M).map (·.2)) c.2 = 0 := by unfold ps; rw [List.map_cons, List.idxOf_cons_self]; rfl
    have hs : ∀ d ∈ M, ps ((c :: M).map (·.2)) d.2 = ps (M.map (·.2)) d.2 + 1 := fun d hd => by
      unfold ps; rw [List.map_cons, List.idxOf_cons_ne _ (hne d hd)]; push_cast; rfl
    rcases List.mem_cons.1 ha with rfl | ha'
    · rcases List.mem_cons.1 hb with rfl | hb'
      · omega
      · exact h'.1 b hb'
    · rcases List.mem_cons.1 hb with rfl | hb'
      · have := hs a ha'
        have h0 : 0 ≤ ps (M.map (·.2)) a.2 := by unfold ps; omega
        omega
      · rw [hs a ha', hs b hb'] at hlt
        exact ps_srt h'.2 hn.2 a ha' b hb' (by omega)

/-- The partner of an entry. -/
theorem partner (g : G fr X H (M.map (·.2)) Z) {e : Int × Nat} (he : e ∈ M) : ∃ e' ∈ M, e'.2 = oth H e.2 := by
  have := g.web.om e.2 (List.mem_map.2 ⟨e, he, rfl⟩)
  obtain ⟨e', h, h'⟩ := List.mem_map.1 this
  exact ⟨e', h, h'⟩

theorem fv_end (g : G fr X H (M.map (·.2)) Z) (hent : ∀ e ∈ M, Ent H e) {e e' : Int × Nat} (he : e ∈ M) (he' : e' ∈ M) (ho : e'.2 = oth H e.2)
    {i : Int} (hi : X ≤ i) (j : Int) : fv H i j e.2 = st j e.1 - st j e'.1 := by
  have hS : e.2 ∈ M.map (·.2) := List.mem_map.2 ⟨e, he, rfl⟩
  have hv := hent e he
  have hv' := hent e' he'
  have hlast := g.web.vt e.2 hS
  rw [← ho, hv'.1, hv.1] at hlast
  have hodd : (pth H e.2).length % 2 = 1 := by
    unfold lastT at hlast
    by_contra h
    rw [if_pos (by omega)] at hlast; simp at hlast
  have hr := g.web.rev e.2 hS
  have hx := g.web.xle e.2 hS
  rw [hv.1] at hx
  unfold fv
  rw [hv.1]
  refine F_tele i j _ _ _ hodd hv.2 ?_ (Xle_mono hi _ _ hx)
  have h2 := hv'.2
  rw [ho, hr, List.head?_reverse] at h2
  exact h2

theorem hs_right (g : G fr X H (M.map (·.2)) Z) {i : Int} (hi : X ≤ i) (j : Int) (t : Nat) : hs H i j t = 0 := by
  unfold hs
  refine List.sum_eq_zero (fun x hx => ?_)
  obtain ⟨h, hh, rfl⟩ := List.mem_map.1 hx
  have hz := (g.hol t h hh).2
  exact W_ge (g.z.loop h hz).1 (Xle_mono hi _ _ (g.z.xle h hz))

/-- The next column. -/
theorem web_next (g : G fr X H (M.map (·.2)) Z) (hs : Srt M) (hent : ∀ e ∈ M, Ent H e) {Y : Int} (hY : X ≤ Y) : G fr Y H (M.map (·.2)) Z := by
  have hlam : ∀ i j, Lam (ps (M.map (·.2))) (· ∈ M.map (·.2)) (oth H) (fv H i j) := by
    intro i j
    by_cases hi : i < X
    · exact g.web.lam i j hi
    have hL := g.web.lam (X - 1) j (by omega)
    have key : ∀ a ∈ M.map (·.2), ∃ e ∈ M, ∃ e' ∈ M, e.2 = a ∧ e'.2 = oth H a ∧ fv H i j (oth H a) = st j e'.1 - st j e.1 := by
      intro a ha
      obtain ⟨e, he, rfl⟩ := List.mem_map.1 ha
      obtain ⟨e', he', ho⟩ := partner g he
      refine ⟨e, he, e', he', rfl, ho, ?_⟩
      have : e.2 = oth H e'.2 := by rw [ho]; exact (g.web.oo e.2 ha).symm
      rw [← ho]
      exact fv_end g hent he' he this (by omega) j
    constructor
    · intro a ha hlt
      obtain ⟨e, he, e', he', h1, h2, h3⟩ := key a ha
      have := ps_srt hs g.web.nodup e he e' he' (by rw [h1, h2]; exact hlt)
      rw [h3]; unfold st; split_ifs <;> omega
    · intro a b ha hb hla hlb hab
      obtain ⟨e, he, e', he', h1, h2, h3⟩ := key a ha
      obtain ⟨d, hd, d', hd', k1, k2, k3⟩ := key b hb
      have q1 := ps_srt hs g.web.nodup e he e' he' (by rw [h1, h2]; exact hla)
      have q2 := ps_srt hs g.web.nodup d hd d' hd' (by rw [k1, k2]; exact hlb)
      have q3 := ps_srt hs g.web.nodup e he d hd (by rw [h1, k1]; exact hab)
      rcases hL.lam a b ha hb hla hlb hab with ⟨c1, _⟩ | ⟨c1, _⟩
      · left
        have q4 := ps_srt hs g.web.nodup e' he' d hd (by rw [h2, k1]; exact c1)
        refine ⟨c1, ?_⟩
        rw [h3, k3]; unfold st; split_ifs <;> omega
      · right
        have q4 := ps_srt hs g.web.nodup d' hd' e' he' (by rw [h2, k2]; exact c1)
        refine ⟨c1, ?_⟩
        rw [h3, k3]; unfold st; split_ifs <;> omega
  refine ⟨web_later g.web hY (fun i j _ => hlam i j), g.par, ?_, g.hol, fun i j _ => ?_⟩
  · exact ⟨g.z.zS, g.z.zf, g.z.vt, g.z.rev, g.z.loop, g.z.rng, fun z hz => Xle_mono hY _ _ (g.z.xle z hz)⟩
  · by_cases hi : i < X
    · exact g.nest i j hi
    · refine ⟨?_, fun b hb h hh => ?_⟩
      · rw [List.sum_eq_zero (fun x hx => by
          obtain ⟨t, _, rfl⟩ := List.mem_map.1 hx
          exact hs_right g (by omega) j t)]
        omega
      · have hz := (g.hol b h hh).2
        rw [W_ge (g.z.loop h hz).1 (Xle_mono (show X ≤ i by omega) _ _ (g.z.xle h hz))]
        exact hr_zero (hlam i j) _

theorem ov_right (g : G fr X H (M.map (·.2)) Z) {i : Int} (hi : X ≤ i) (j : Int) {n : Nat} (hn : n ∈ Z) : ov H i j n = 0 := by
  unfold ov
  rw [hs_right g hi, W_ge (g.z.loop n hn).1 (Xle_mono hi _ _ (g.z.xle n hn))]; ring

/-- Right of everything, the open chains count the parity of the entries below. -/
theorem cs_right (g : G fr X H (M.map (·.2)) Z) (hs : Srt M) (hent : ∀ e ∈ M, Ent H e) (hev : (M.length : Int) % 2 = 0)
    {i : Int} (hi : X ≤ i) (j : Int) : cs H (M.map (·.2)) i j = cnt M j % 2 := by
  have h0 : ((M.map (·.2)).map (PolyInv.hs H i j)).sum = 0 := List.sum_eq_zero (fun x hx => by
    obtain ⟨t, _, rfl⟩ := List.mem_map.1 hx
    exact hs_right g hi j t)
  -- the key of an end
  let k : Nat → Int := fun t => (pth H t).headD 0
  have hk : ∀ a ∈ M, k a.2 = a.1 := fun a ha => by
    have := (hent a ha).2
    show (pth H a.2).headD 0 = a.1
    rw [List.headD_eq_head?_getD, this]; rfl
  have hfv : ∀ t ∈ M.map (·.2), fv H i j t = st j (k t) - st j (k (oth H t)) := by
    intro t ht
    obtain ⟨e, he, rfl⟩ := List.mem_map.1 ht
    obtain ⟨e', he', ho⟩ := partner g he
    rw [fv_end g hent he he' ho hi, hk e he, ← ho, hk e' he']
  unfold cs
  rw [h0, Int.add_zero, wsum_congr _ _ hfv, wsum_sum _ _ _ g.web.nodup]
  have e1 : (M.map (·.2)).map (fun t => if PolyInv.flip ((M.map (·.2)).idxOf t) true then 0 else st j (k t) - st j (k (oth H t))) =
      (M.map (·.2)).map (fun t => (if PolyInv.flip ((M.map (·.2)).idxOf t) true then 0 else st j (k t)) - (if PolyInv.flip ((M.map (·.2)).idxOf t) true then 0 else st j (k (oth H t)))) := by
    refine List.map_congr_left (fun t _ => ?_)
    split_ifs <;> ring
  rw [e1, sum_sub]
  have e2 : ((M.map (·.2)).map (fun t => if PolyInv.flip ((M.map (·.2)).idxOf t) true then 0 else st j (k (oth H t)))).sum =
      ((M.map (·.2)).map (fun t => if PolyInv.flip ((M.map (·.2)).idxOf t) false then 0 else st j (k t))).sum := by
    rw [← sum_perm g.web.nodup g.web.om g.web.oo (fun t => if PolyInv.flip ((M.map (·.2)).idxOf t) false then 0 else st j (k t))]
    congr 1
    refine List.map_congr_left (fun t ht => ?_)
    have hp := g.par t ht
    have f1 : PolyInv.flip ((M.map (·.2)).idxOf (oth H t)) false = PolyInv.flip ((M.map (·.2)).idxOf t) true := by
      unfold PolyInv.flip
      unfold ps at hp
      by_cases h : List.idxOf t (M.map (·.2)) % 2 = 0
      · rw [if_pos h, if_neg (by omega)]; rfl
      · rw [if_neg h, if_pos (by omega)]; rfl
    rw [f1]
  rw [e2, ← wsum_sum (fun t => st j (k t)) _ _ g.web.nodup, ← wsum_sum (fun t => st j (k t)) _ _ g.web.nodup]
  have := alt_wsum j k M true hk
  rw [Bool.not_true] at this
  rw [this, alt_eq j M hs]
  have := cnt_nonneg M j
  split_ifs <;> omega

/-! ### pieces right of the chains -/

theorem K_h_right {i y : Int} : ∀ (p : List Int) (v : Bool), Xle i v p → K (hW i y) v p = 0
  | [], _, _ => rfl
  | [_], _, _ => rfl
  | [_, _], _, _ => rfl
  | a :: b :: c :: r, v, h => by
    rw [K, K_h_right (b :: c :: r) (!v) h.2]
    cases v
    · simp [hW]
    · have h1 := h.1 rfl
      have h2 := h.2.2.1 rfl
      simp only [hW, if_true]
      rw [if_neg (by omega)]; rfl

theorem K_v_right {i j : Int} : ∀ (p : List Int) (v : Bool), Xle (i - 1) v p → K (vW i j) v p = 0
  | [], _, _ => rfl
  | [_], _, _ => rfl
  | [_, _], _, _ => rfl
  | a :: b :: c :: r, v, h => by
    rw [K, K_v_right (b :: c :: r) (!v) h.2]
    cases v
    · have h1 := h.2.1 rfl
      simp only [vW, Bool.false_eq_true, if_false]
      rw [if_neg (by omega)]; rfl
    · simp [vW]

theorem Xle_loop {Y : Int} {p : List Int} (hl : LoopP p) (h : Xle Y true p) : Xle Y true (p ++ p.take 2) := by
  rw [Xle_append, if_pos hl.1]
  refine ⟨h, ?_⟩
  match p, h with
  | [], _ => simp [Xle]
  | [a], h => simpa [Xle] using h
  | a :: b :: r, h => exact ⟨h.1, ⟨h.2.1, trivial⟩⟩

theorem Lp_h_right {i y : Int} {p : List Int} (hl : LoopP p) (h : Xle i true p) : Lp (hW i y) p = 0 := K_h_right _ _ (Xle_loop hl h)
theorem Lp_v_right {i j : Int} {p : List Int} (hl : LoopP p) (h : Xle (i - 1) true p) : Lp (vW i j) p = 0 := K_v_right _ _ (Xle_loop hl h)

theorem go_h_right {S : List Nat} (g : G fr X H S Z) {n : Nat} (hn : n ∈ Z) {i : Int} (hi : X ≤ i) (y : Int) : go (hW i y) H n = 0 := by
  unfold go hg
  rw [Lp_h_right (g.z.loop n hn) (Xle_mono hi _ _ (g.z.xle n hn)), List.sum_eq_zero (fun x hx => by
    obtain ⟨h, hh, rfl⟩ := List.mem_map.1 hx
    have := (g.hol n h hh).2
    exact Lp_h_right (g.z.loop h this) (Xle_mono hi _ _ (g.z.xle h this)))]; rfl

theorem go_v_right {S : List Nat} (g : G fr X H S Z) {n : Nat} (hn : n ∈ Z) {i : Int} (hi : X < i) (j : Int) : go (vW i j) H n = 0 := by
  unfold go hg
  rw [Lp_v_right (g.z.loop n hn) (Xle_mono (by omega) _ _ (g.z.xle n hn)), List.sum_eq_zero (fun x hx => by
    obtain ⟨h, hh, rfl⟩ := List.mem_map.1 hx
    have := (g.hol n h hh).2
    exact Lp_v_right (g.z.loop h this) (Xle_mono (by omega) _ _ (g.z.xle h this)))]; rfl

theorem sum_key {f : Nat → Int} (y : Int) : ∀ {M : List (Int × Nat)}, (∀ e ∈ M, f e.2 = 2 * (if e.1 = y then 1 else 0)) →
    ((M.map (·.2)).map f).sum = 2 * (cnt M y - cnt M (y - 1))
  | [], _ => by simp [cnt]
  | a :: M, h => by
    have ih := sum_key (M := M) y (fun e he => h e (by simp [he]))
    rw [List.map_cons, List.map_cons, List.sum_cons, ih, h a (by simp), cnt_cons, cnt_cons]
    split_ifs <;> omega

theorem cnt_step (y : Int) : ∀ {M : List (Int × Nat)}, Srt M → cnt M y - cnt M (y - 1) = 0 ∨ cnt M y - cnt M (y - 1) = 1
  | [], _ => by simp [cnt]
  | a :: M, h => by
    have h' := List.pairwise_cons.1 h
    rw [cnt_cons, cnt_cons]
    by_cases ha : a.1 = y
    · have hc : cnt M y = 0 := cnt_none (fun e he => by have := h'.1 e he; omega)
      have hc' : cnt M (y - 1) = 0 := cnt_none (fun e he => by have := h'.1 e he; omega)
      rw [hc, hc']; split_ifs <;> omega
    · have ih := cnt_step y h'.2
      split_ifs <;> omega

/-- Right of the column the open chains run where the depth changes. -/
theorem gs_h_right (g : G fr X H (M.map (·.2)) Z) (hs : Srt M) (hent : ∀ e ∈ M, Ent H e) {i : Int} (hi : X ≤ i) (y : Int) :
    gs (hW i y) H (M.map (·.2)) = 2 * (if cnt M y % 2 = cnt M (y - 1) % 2 then 0 else 1) := by
  have h0 : ((M.map (·.2)).map (hg (hW i y) H)).sum = 0 := List.sum_eq_zero (fun x hx => by
    obtain ⟨t, _, rfl⟩ := List.mem_map.1 hx
    unfold hg
    exact List.sum_eq_zero (fun x hx => by
      obtain ⟨h, hh, rfl⟩ := List.mem_map.1 hx
      have := (g.hol t h hh).2
      exact Lp_h_right (g.z.loop h this) (Xle_mono hi _ _ (g.z.xle h this))))
  unfold gs
  rw [h0, sum_key (f := en (hW i y) H) y (fun e he => ?_)]
  · have := cnt_step y hs
    split_ifs <;> omega
  · have hS : e.2 ∈ M.map (·.2) := List.mem_map.2 ⟨e, he, rfl⟩
    obtain ⟨x, q, hp⟩ := ent_path g.web hS (hent e he)
    have hx := g.web.xle e.2 hS
    unfold en
    rw [K_h_right _ _ (Xle_mono hi _ _ hx)]
    rw [hp, (hent e he).1] at hx
    have := hx.2.1 rfl
    rw [hp, (hent e he).1]
    simp only [R, hW, Bool.false_eq_true, if_false]
    split_ifs <;> omega

/-! ### columns -/

/-- What holds between two columns: `f` is the depth left of column `X`. -/
structure Btw (fr : Bool) (X : Int) (f : Int → Int) (H : Heap) (M : List (Int × Nat)) (Z : List Nat) : Prop where
  srt : Srt M
  g : G fr X H (M.map (·.2)) Z
  ent : ∀ e ∈ M, Ent H e
  old : ∀ e ∈ M, Old X H e.2
  hf : ∀ j, f j = cnt M j % 2
  gv : fr = false → ∀ i j, X ≤ i → gs (vW i j) H (M.map (·.2)) = 0

/-- One column. -/
theorem column {umax : Int} {fm fp : Int → Int} {l r : List Ivl} {Y : Int} (h : Btw fr X fm H M Z) (hY : X < Y)
    (hc : ∀ y, Col umax fm fp y l r) (hm0 : ∃ J, ∀ j, J ≤ j → fm j = 0) (hp0 : ∃ J, ∀ j, J ≤ j → fp j = 0) (hp1 : ∃ J, ∀ j, j < J → fp j = 0) :
    ∃ H' M' out Z', processEdges fr umax X l r H M = some (H', M', out) ∧ Btw fr Y fp H' M' Z' ∧ (∀ n ∈ out, n ∈ Z') ∧
      (∀ i j, i < X → cs H' (M'.map (·.2)) i j + (out.map (ov H' i j)).sum = cs H (M.map (·.2)) i j) ∧
      (∀ i j, X ≤ i → cs H' (M'.map (·.2)) i j = fp j ∧ ∀ n ∈ out, ov H' i j n = 0) ∧ (∀ n ∈ out, ∀ i j, 0 ≤ ov H' i j n) ∧
      (fr = false → (∀ i y, i < X → gs (hW i y) H' (M'.map (·.2)) + 2 * (out.map (go (hW i y) H')).sum = gs (hW i y) H (M.map (·.2))) ∧
        (∀ i y, X ≤ i → gs (hW i y) H' (M'.map (·.2)) = 2 * (if fp y = fp (y - 1) then 0 else 1) ∧ ∀ n ∈ out, go (hW i y) H' n = 0) ∧
        (∀ i j, gs (vW i j) H' (M'.map (·.2)) + 2 * (out.map (go (vW i j) H')).sum =
          if i = X then 2 * (if fm j = fp j then 0 else 1) else gs (vW i j) H (M.map (·.2))) ∧
        ∀ i j, X < i → ∀ n ∈ out, go (vW i j) H' n = 0) := by
  obtain ⟨J, hJ⟩ := hp1
  -- below everything
  have hlow : ∃ y, y ≤ J ∧ (∀ e ∈ M, y < e.1) ∧ ∀ d ∈ l ++ r, y < d.lo := by
    have b1 : ∀ L : List Int, ∃ y, y ≤ J ∧ ∀ a ∈ L, y < a := by
      intro L
      induction L with
      | nil => exact ⟨J, le_refl _, by simp⟩
      | cons a L ih =>
        obtain ⟨y, h1, h2⟩ := ih
        refine ⟨min y (a - 1), by omega, fun b hb => ?_⟩
        rcases List.mem_cons.1 hb with rfl | hb
        · omega
        · have := h2 b hb; omega
    obtain ⟨y, h1, h2⟩ := b1 (M.map (·.1) ++ (l ++ r).map (·.lo))
    exact ⟨y, h1, fun e he => h2 _ (List.mem_append_left _ (List.mem_map.2 ⟨e, he, rfl⟩)), fun d hd => h2 _ (List.mem_append_right _ (List.mem_map.2 ⟨d, hd, rfl⟩))⟩
  obtain ⟨y, hy, hyM, hyE⟩ := hlow
  have hgap : Gap fr X fm fp ⟨fun i j => cs H (M.map (·.2)) i j, fun i y => gs (hW i y) H (M.map (·.2)), fun i y => gs (vW i y) H (M.map (·.2))⟩ (l ++ r) y [] M Z ⟨H, M, M.head?.map (·.1), none, []⟩ := by
    constructor
    · rfl
    · exact h.srt
    · simp
    · exact hyM
    · exact h.g
    · exact h.ent
    · exact fun e he => Or.inl (h.old e he)
    · intro c hc; simp at hc
    · intro j hj; rw [cnt_nil, hJ j (by omega)]; rfl
    · intro j _; rw [h.hf j]; simp
    · exact nm_head M h.srt
    · simp
    · intro i j _; rw [nil_pd]; simp [tot, pdv, cl]
    · intro hf; rw [nil_pd]
      have e1 : ([] : List (Int × Nat)).map (·.2) ++ cl fr H none ++ M.map (·.2) = M.map (·.2) := by simp [cl]
      dsimp only
      rw [e1]
      constructor
      · intro i y _
        simp only [GT, gpd, List.map_nil, List.sum_nil]
        omega
      · intro i j
        simp only [GT, gpd, List.map_nil, List.sum_nil]
        rcases Int.lt_or_le i X with hi | hi
        · rw [if_pos hi]; omega
        · rw [if_neg (by omega), h.gv hf i j hi]
          have : gx fm fp y j = 0 := by
            unfold gx
            by_cases hj : j < y
            · rw [if_pos hj, if_pos]
              rw [hJ j (by omega), h.hf j, cnt_none (fun e he => by have := hyM e he; omega)]; rfl
            · rw [if_neg hj]
          rw [this]; split_ifs <;> rfl
  obtain ⟨y', D, U, Z', s', p1, p2, p3⟩ := procGo_spec (bot := false) hm0 (l.length + r.length) rfl (hc y) (by
    refine ⟨hyE, [], M, Z, hgap⟩)
  have hcur : s'.cur = none := by
    cases hcc : s'.cur with
    | none => rfl
    | some c =>
      obtain ⟨a, b, _⟩ := p2.pend c hcc
      cases U with
      | nil => exact absurd rfl b
      | cons e U => obtain ⟨d, hd, _⟩ := a e (by simp); simp at hd
  have hg := p2.g
  have ht := p2.tot
  rw [hcur] at hg ht
  have eS : D.map (·.2) ++ cl fr s'.H none ++ U.map (·.2) = (D ++ U).map (·.2) := by simp [cl]
  rw [eS] at hg ht
  rw [nil_pd] at ht
  have hgr := p2.gr
  rw [hcur, eS, nil_pd] at hgr
  have hgo : fr = false → ∀ i j, gs (vW i j) s'.H ((D ++ U).map (·.2)) + 2 * (s'.out.map (go (vW i j) s'.H)).sum =
          if i = X then 2 * (if fm j = fp j then 0 else 1) else gs (vW i j) H (M.map (·.2)) := by
    intro hf i j
    have := (hgr hf).v i j
    simp only [GT, gpd] at this
    have hx : gx fm fp y' j = if fm j = fp j then 0 else 1 := by
      unfold gx
      by_cases hj : j < y'
      · rw [if_pos hj]
      · rw [if_neg hj, if_pos (p3 j (by omega))]
    rw [hx] at this
    rcases Int.lt_trichotomy i X with hi | hi | hi
    · rw [if_pos hi] at this; rw [if_neg (by omega)]; omega
    · rw [if_neg (by omega), if_pos hi] at this; rw [if_pos hi]; omega
    · rw [if_neg (by omega), if_neg (by omega)] at this; rw [if_neg (by omega), h.gv hf i j (by omega)]; omega
  have hfp : ∀ j, fp j = cnt (D ++ U) j % 2 := by
    intro j
    rw [cnt_append]
    by_cases hj : j < y'
    · rw [p2.hfp j hj, cnt_none (L := U) (fun e he => by have := p2.hU e he; omega)]; omega
    · rw [← p3 j (by omega), p2.hfm j (by omega), cnt_all (L := D) (fun e he => by have := p2.hD e he; omega)]
  have hev : ((D ++ U).length : Int) % 2 = 0 := by
    obtain ⟨K, hK⟩ := hp0
    have b1 : ∀ L : List (Int × Nat), ∃ y, K ≤ y ∧ ∀ a ∈ L, a.1 ≤ y := by
      intro L
      induction L with
      | nil => exact ⟨K, le_refl _, by simp⟩
      | cons a L ih =>
        obtain ⟨y, h1, h2⟩ := ih
        refine ⟨max y a.1, by omega, fun b hb => ?_⟩
        rcases List.mem_cons.1 hb with rfl | hb
        · omega
        · have := h2 b hb; omega
    obtain ⟨z, h1, h2⟩ := b1 (D ++ U)
    have := hfp z
    rw [hK z h1, cnt_all h2] at this
    omega
  refine ⟨s'.H, s'.map, s'.out, Z', ?_, ?_, p2.out, ?_, ?_, ?_, ?_⟩
  · unfold processEdges; simp only [p1, Option.bind_eq_bind, Option.bind_some]
  · rw [p2.map]
    refine ⟨p2.srt, web_next hg p2.srt p2.ent (by omega), p2.ent, fun e he => ?_, hfp, fun hf i j hi => ?_⟩
    rotate_left
    · have := hgo hf i j
      rw [if_neg (by omega), h.gv hf i j (by omega), List.sum_eq_zero (fun x hx => by
        obtain ⟨n, hn, rfl⟩ := List.mem_map.1 hx
        exact go_v_right hg (p2.out n hn) (show X < i by omega) j)] at this
      omega
    have hS : e.2 ∈ (D ++ U).map (·.2) := List.mem_map.2 ⟨e, he, rfl⟩
    obtain ⟨x, q, hp⟩ := ent_path hg.web hS (p2.ent e he)
    have hx := hg.web.xle e.2 hS
    rw [hp, (p2.ent e he).1] at hx
    have := hx.2.1 rfl
    exact ⟨x, by rw [hp]; rfl, by omega⟩
  · intro i j hi
    rw [p2.map]
    have := (ht i j hi).1
    unfold tot pdv at this
    dsimp only at this
    rw [← this]; ring
  · intro i j hi
    rw [p2.map]
    refine ⟨?_, fun n hn => ov_right hg hi j (p2.out n hn)⟩
    rw [cs_right hg p2.srt p2.ent hev hi j, hfp j]
  · intro n hn i j
    by_cases hi : i < X
    · exact (ht i j hi).2 n hn
    · rw [ov_right hg (by omega) j (p2.out n hn)]
  · intro hf
    rw [p2.map]
    refine ⟨fun i y hi => ?_, fun i y hi => ⟨?_, fun n hn => go_h_right hg (p2.out n hn) hi y⟩, hgo hf, fun i j hi n hn => go_v_right hg (p2.out n hn) hi j⟩
    · have := (hgr hf).h i y hi
      simp only [GT, gpd] at this
      omega
    · rw [gs_h_right hg p2.srt p2.ent hi y, ← hfp, ← hfp]

end Verif.Proofs.PolyFinish
