import Verif.Proofs.T45Calls
import Verif.Proofs.S45Map
/-! # The calls of a column, from event to event -/
namespace Verif.Deg45

variable {C : Type} [AddCommGroup C] [DecidableEq C]
variable {g : C → Bool} {X : Int} {Lold : List (El C)} {done ins : List (Vert C)} {EV : Prop}
  {lo hi H Lpre : List (El C)} {Q : List P} {out : List V45} {V : C} {yp yv : Int} {ws : List (Vert C)} {raw0 raw : List (CallG C)}

/-- The calls up to the height `yp`. -/
structure RMid (X : Int) (Lold : List (El C)) (raw0 raw : List (CallG C)) (lo Lpre : List (El C)) (V : C) (yp yv : Int) : Prop where
  new : ∃ t, raw = raw0 ++ t ∧ ∀ k ∈ t, k.2.1 = X ∧ ∀ c, (k.1.1 = c ∨ k.1.2 = c) → c ∈ vals X Lold k.2.2 ∨ (k.2.2 ≤ yp ∧ c ∈ vals X lo k.2.2)
  low : ∀ y, isX X Lold y = true → ∀ k ∈ lows (X, y) (lastc 0 (ltAt X Lold y)) (grpAt X Lold y), k ∈ raw
  origO : Orig raw 0 Lold
  orig : Orig raw 0 lo
  seen : ∀ y ≤ yp, Seen raw (vals X Lold y ++ vals X lo y)
  vert : V ≠ 0 → yv ≤ yp ∧ lastc 0 Lpre ∈ vals X Lold yv ∧ lastc 0 lo ∈ vals X lo yv

/-- The calls of a whole column. -/
structure RDone (X : Int) (Lold L' : List (El C)) (raw0 raw : List (CallG C)) : Prop where
  new : ∃ t, raw = raw0 ++ t ∧ ∀ k ∈ t, k.2.1 = X ∧ ∀ c, (k.1.1 = c ∨ k.1.2 = c) → c ∈ vals X Lold k.2.2 ∨ c ∈ vals X L' k.2.2
  orig : Orig raw 0 L'
  seen : ∀ y, Seen raw (vals X Lold y ++ vals X L' y)

omit [AddCommGroup C] [DecidableEq C] in
theorem ltAt_append (X : Int) (A B : List (El C)) (y : Int) : ltAt X (A ++ B) y = ltAt X A y ++ ltAt X B y := List.filter_append _ _
omit [AddCommGroup C] [DecidableEq C] in
theorem grpAt_append (X : Int) (A B : List (El C)) (y : Int) : grpAt X (A ++ B) y = grpAt X A y ++ grpAt X B y := List.filter_append _ _
omit [AddCommGroup C] [DecidableEq C] in
theorem ltAt_self {A : List (El C)} {y : Int} (h : ∀ e ∈ A, e.eval X < y) : ltAt X A y = A := by
  unfold ltAt; rw [List.filter_eq_self]; intro e he; simpa using h e he
omit [AddCommGroup C] [DecidableEq C] in
theorem ltAt_nil {A : List (El C)} {y : Int} (h : ∀ e ∈ A, y ≤ e.eval X) : ltAt X A y = [] := by
  unfold ltAt; rw [List.filter_eq_nil_iff]; intro e he; simpa using h e he
omit [AddCommGroup C] [DecidableEq C] in
theorem grpAt_self {A : List (El C)} {y : Int} (h : ∀ e ∈ A, e.eval X = y) : grpAt X A y = A := by
  unfold grpAt; rw [List.filter_eq_self]; intro e he; simpa using h e he
omit [AddCommGroup C] [DecidableEq C] in
theorem grpAt_nil {A : List (El C)} {y : Int} (h : ∀ e ∈ A, e.eval X ≠ y) : grpAt X A y = [] := by
  unfold grpAt; rw [List.filter_eq_nil_iff]; intro e he; simpa using h e he

omit [DecidableEq C] in
theorem vals_stable {A B : List (El C)} {y : Int} (h : ∀ e ∈ B, y < e.eval X) : vals X (A ++ B) y = vals X A y := by
  unfold vals
  rw [ltAt_append, grpAt_append, ltAt_nil (A := B) (fun e he => le_of_lt (h e he)), grpAt_nil (A := B) (fun e he => by have := h e he; omega),
    List.append_nil, List.append_nil]

/-- Next to a point above everything in `A`. -/
theorem vals_above {A B : List (El C)} {y : Int} (h : ∀ e ∈ A, e.eval X < y) : vals X (A ++ B) y = lastc (lastc 0 A) (ltAt X B y) :: (grpAt X B y).map El.count := by
  unfold vals
  rw [ltAt_append, grpAt_append, ltAt_self h, grpAt_nil (A := A) (fun e he => by have := h e he; omega), lastc_append, List.nil_append]

theorem col_le (hC : Col X Lold ins EV) : Lold.Pairwise (fun a b => a.eval X ≤ b.eval X) := hC.sorted.imp (fun h => by omega)

theorem grp_le_one {y : Int} (h : isX X Lold y = false) : (grpAt X Lold y).length ≤ 1 := by
  unfold isX at h; simp at h; omega

theorem news_eval {X y : Int} {b c0 c1 c2 : C} {e : El C} (h : e ∈ news X y b c0 c1 c2) : e.eval X = y := by
  have : e.x = X ∧ e.y = y := by
    unfold news newEl at h
    simp only [List.mem_append] at h
    rcases h with (h | h) | h <;> split_ifs at h <;> simp at h <;> rw [h] <;> exact ⟨rfl, rfl⟩
  unfold El.eval; rw [this.1, this.2]; ring

theorem rmid_event (hC : Col X Lold ins EV) (m : Mid g X Lold done ins EV lo hi H Lpre Q out V yp yv ws) {y : Int} {S hi' H' : List (El C)}
    (hy : yp < y) (hV : V ≠ 0 → ∀ e ∈ H, y ≤ e.eval X) (e0 : hi = S ++ hi')
    (m' : Mid g X Lold done ins EV (lo ++ S) hi' H' (Lpre ++ S) Q out V (y - 1) yv ws)
    (r : RMid X Lold raw0 raw lo Lpre V yp yv) {prev : P} (hprev : V ≠ 0 → prev = (X, yv)) (c0 c1 c2 V' : C) :
    RMid X Lold raw0 (raw ++ evc X y V prev (lastc 0 (Lpre ++ S)) (lastc 0 (lo ++ S)) (if isX X Lold y then [] else grpAt X Lold y) c0 c1 c2)
      ((lo ++ S) ++ news X y (lastc 0 (lo ++ S)) c0 c1 c2) ((Lpre ++ S) ++ grpAt X Lold y) V' y y := by
  generalize hE : evc X y V prev (lastc 0 (Lpre ++ S)) (lastc 0 (lo ++ S)) (if isX X Lold y then [] else grpAt X Lold y) c0 c1 c2 = E
  generalize hN : news X y (lastc 0 (lo ++ S)) c0 c1 c2 = N
  have hS : ∀ e ∈ S, yp < e.eval X ∧ e.eval X < y ∧ isX X Lold (e.eval X) = false := by
    intro e he
    have h1 : e ∈ hi := by rw [e0]; simp [he]
    rw [m.hi_eq] at h1
    have h2 := List.mem_filter.1 h1
    have h3 := m'.lo_le e (by simp [he])
    exact ⟨m.H_gt e h2.1, by omega, by simpa using h2.2⟩
  have hS0 : V ≠ 0 → S = [] := by
    intro hv
    rw [List.eq_nil_iff_forall_not_mem]
    intro e he
    have h1 : e ∈ hi := by rw [e0]; simp [he]
    rw [m.hi_eq] at h1
    have := hV hv e (List.mem_filter.1 h1).1
    have := (hS e he).2.1
    omega
  have hNe : ∀ e ∈ N, e.eval X = y := fun e he => by rw [← hN] at he; exact news_eval he
  have hlo : ∀ e ∈ lo ++ S, e.eval X < y := fun e he => by have := m'.lo_le e he; omega
  have hpre : ∀ e ∈ Lpre ++ S, e.eval X < y := fun e he => by have := m'.pre_le e he; omega
  have hH' : ∀ e ∈ H', y ≤ e.eval X := fun e he => by have := m'.H_gt e he; omega
  have hgrp : grpAt X Lold y = grpAt X H' y := by
    rw [m'.split, grpAt_append, grpAt_nil (A := Lpre ++ S) (fun e he => by have := hpre e he; omega), List.nil_append]
  have vO : vals X Lold y = lastc 0 (Lpre ++ S) :: (grpAt X Lold y).map El.count := by
    conv_lhs => rw [m'.split]
    rw [vals_above hpre, ltAt_nil hH', hgrp]; rfl
  have vN : vals X (lo ++ S ++ N) y = lastc 0 (lo ++ S) :: N.map El.count := by
    rw [vals_above hlo, ltAt_nil (fun e he => le_of_eq (hNe e he).symm), grpAt_self hNe]; rfl
  have ltO : ltAt X Lold y = Lpre ++ S := by
    conv_lhs => rw [m'.split]
    rw [ltAt_append, ltAt_self hpre, ltAt_nil hH', List.append_nil]
  have vOld : ∀ z ≤ yp, vals X (lo ++ S ++ N) z = vals X lo z := by
    intro z hz
    rw [List.append_assoc]
    apply vals_stable
    intro e he
    rcases List.mem_append.1 he with h | h
    · have := (hS e h).1; omega
    · have := hNe e h; omega
  have sub : ∀ k ∈ raw, k ∈ raw ++ E := fun k hk => List.mem_append_left _ hk
  have subE : ∀ k ∈ E, k ∈ raw ++ E := fun k hk => List.mem_append_right _ hk
  have hcnt : lastc 0 (lo ++ S) - V = lastc 0 (Lpre ++ S) := m'.cnt
  have origS : Orig raw (lastc 0 lo) S := by
    by_cases cV : V ≠ 0
    · rw [hS0 cV]; trivial
    · push Not at cV
      have hc : lastc 0 lo = lastc 0 Lpre := by have := m.cnt; rwa [cV, sub_zero] at this
      have := r.origO
      rw [m'.split, orig_append, orig_append] at this
      rw [hc]; exact this.1.2
  have hst : (∀ k ∈ stc (X, y) (lastc 0 (lo ++ S)) c0, k ∈ E) ∧ (∀ k ∈ stc (X, y) c0 c1, k ∈ E) ∧ (∀ k ∈ stc (X, y) c1 c2, k ∈ E) := by
    rw [← hE]; unfold evc
    exact ⟨fun k hk => by simp [hk], fun k hk => by simp [hk], fun k hk => by simp [hk]⟩
  have hnv := news_vals X y (lastc 0 (lo ++ S)) c0 c1 c2
  rw [hN] at hnv
  have hlow : ∀ k ∈ lows (X, y) (lastc 0 (Lpre ++ S)) (grpAt X Lold y), k ∈ raw ++ E := by
    intro k hk
    by_cases cx : isX X Lold y = true
    · apply sub; apply r.low y cx; rw [ltO]; exact hk
    · apply subE
      rw [← hE]; unfold evc
      rw [if_neg cx]; simp [hk]
  have seenY : Seen (raw ++ E) (vals X Lold y ++ vals X (lo ++ S ++ N) y) := by
    rw [vO, vN]
    rcases evc_seen hcnt (o := raw ++ E) (grp := grpAt X Lold y) (fun k hk => subE k (by rw [← hE]; exact hk)) hlow with h | ⟨h1, h2, h3, h4, h5⟩
    · rw [hN] at h
      exact ⟨(X, y), fun c hc _ => h c hc⟩
    · have hN0 : N = [] := by rw [← hN, h3, h4, h5]; unfold news newEl; simp
      have hso := seen_orig r.origO (col_le hC) (y := y) (by rw [h1]; simp)
      rw [vO, h1] at hso
      rw [hN0, h1]
      rw [h2, sub_zero] at hcnt
      rw [hcnt]
      exact (hso.mono sub).sub (by simp)
  refine { new := ?_, low := ?_, origO := r.origO.mono sub, orig := ?_, seen := ?_, vert := ?_ }
  · obtain ⟨t, ht, h1⟩ := r.new
    refine ⟨t ++ E, by rw [ht, List.append_assoc], ?_⟩
    intro k hk
    rcases List.mem_append.1 hk with hk | hk
    · obtain ⟨h2, h3⟩ := h1 k hk
      refine ⟨h2, fun c hc => ?_⟩
      rcases h3 c hc with h | ⟨h, h'⟩
      · exact Or.inl h
      · right; rw [vOld _ h]; exact ⟨by omega, h'⟩
    · have yy : ∀ (k : CallG C), k.2 = (X, y) → (∀ c, (k.1.1 = c ∨ k.1.2 = c) → c ∈ vals X Lold y ∨ c ∈ vals X (lo ++ S ++ N) y) →
          k.2.1 = X ∧ ∀ c, (k.1.1 = c ∨ k.1.2 = c) → c ∈ vals X Lold k.2.2 ∨ (k.2.2 ≤ y ∧ c ∈ vals X (lo ++ S ++ N) k.2.2) := by
        intro k hk h
        rw [hk]
        refine ⟨rfl, fun c hc => ?_⟩
        rcases h c hc with h | h
        · exact Or.inl h
        · exact Or.inr ⟨le_refl _, h⟩
      have hb : lastc 0 (Lpre ++ S) ∈ vals X Lold y := by rw [vO]; simp
      have hbl : lastc 0 (lo ++ S) ∈ vals X (lo ++ S ++ N) y := by rw [vN]; simp
      rw [← hE] at hk
      unfold evc at hk
      simp only [List.mem_append] at hk
      rcases hk with (((hk | hk) | hk) | hk) | hk
      · by_cases cV : V ≠ 0
        · rw [if_pos cV] at hk
          obtain ⟨v1, v2, v3⟩ := r.vert cV
          have hS' := hS0 cV
          simp only [List.mem_cons, List.not_mem_nil, or_false] at hk
          rcases hk with rfl | rfl
          · rw [hprev cV]
            refine ⟨rfl, fun c hc => ?_⟩
            simp only at hc ⊢
            rw [hS', List.append_nil, List.append_nil] at hc
            rcases hc with rfl | rfl
            · exact Or.inl v2
            · right; rw [vOld _ v1]; exact ⟨by omega, v3⟩
          · refine yy _ rfl (fun c hc => ?_)
            rcases hc with rfl | rfl
            · exact Or.inl hb
            · exact Or.inr hbl
        · rw [if_neg cV] at hk; simp at hk
      · have hk' : k ∈ lows (X, y) (lastc 0 (Lpre ++ S)) (grpAt X Lold y) := by
          by_cases cx : isX X Lold y = true
          · rw [if_pos cx] at hk; simp [lows] at hk
          · rw [if_neg cx] at hk; exact hk
        obtain ⟨l1, l2, l3⟩ := lows_vals _ _ _ k hk'
        refine yy k l1 (fun c hc => Or.inl ?_)
        rw [vO]
        rcases hc with rfl | rfl
        · exact l2
        · exact l3
      · obtain ⟨rfl, _⟩ := stc_vals hk
        refine yy _ rfl (fun c hc => Or.inr ?_)
        rw [vN]
        rcases hc with rfl | rfl
        · simp
        · exact hnv.1
      · obtain ⟨rfl, _⟩ := stc_vals hk
        refine yy _ rfl (fun c hc => Or.inr ?_)
        rw [vN]
        rcases hc with rfl | rfl
        · exact hnv.1
        · exact hnv.2.1
      · obtain ⟨rfl, _⟩ := stc_vals hk
        refine yy _ rfl (fun c hc => Or.inr ?_)
        rw [vN]
        rcases hc with rfl | rfl
        · exact hnv.2.1
        · exact hnv.2.2
  · intro z hz k hk; exact sub k (r.low z hz k hk)
  · rw [orig_append, orig_append]
    refine ⟨⟨r.orig.mono sub, origS.mono sub⟩, ?_⟩
    rw [← hN]
    exact news_orig (fun k hk => subE k (hst.1 k hk)) (fun k hk => subE k (hst.2.1 k hk)) (fun k hk => subE k (hst.2.2 k hk))
  · intro z hz
    by_cases c : z ≤ yp
    · rw [vOld z c]; exact (r.seen z c).mono sub
    · by_cases cy : z = y
      · rw [cy]; exact seenY
      · have hz1 : yp < z := by omega
        have hz2 : z < y := by omega
        have pl : ∀ e ∈ Lpre, e.eval X < z := fun e he => by have := m.pre_le e he; omega
        have ll : ∀ e ∈ lo, e.eval X < z := fun e he => by have := m.lo_le e he; omega
        have vO' : vals X Lold z = lastc (lastc 0 Lpre) (ltAt X S z) :: (grpAt X S z).map El.count := by
          conv_lhs => rw [m'.split]
          rw [vals_stable (fun e he => by have := hH' e he; omega), vals_above pl]
        have vN' : vals X (lo ++ S ++ N) z = lastc (lastc 0 lo) (ltAt X S z) :: (grpAt X S z).map El.count := by
          rw [vals_stable (fun e he => by have := hNe e he; omega), vals_above ll]
        by_cases cV : V ≠ 0
        · have hS' := hS0 cV
          obtain ⟨v1, v2, v3⟩ := r.vert cV
          have hm : ((lastc 0 Lpre, lastc 0 lo), (X, yv)) ∈ raw ++ E := by
            apply subE; rw [← hE]; unfold evc; rw [if_pos cV, hprev cV, hS']; simp
          rw [vO', vN', hS']
          refine ⟨(X, yv), fun c hc _ => ⟨_, hm, rfl, ?_⟩⟩
          simp [ltAt, grpAt, lastc] at hc
          rcases hc with rfl | rfl
          · exact Or.inl rfl
          · exact Or.inr rfl
        · push Not at cV
          have hc : lastc 0 lo = lastc 0 Lpre := by have := m.cnt; rwa [cV, sub_zero] at this
          have h1 : (grpAt X Lold z).length ≤ 1 := by
            have hg : grpAt X Lold z = grpAt X S z := by
              rw [m'.split, grpAt_append, grpAt_append, grpAt_nil (A := Lpre) (fun e he => by have := pl e he; omega),
                grpAt_nil (A := H') (fun e he => by have := hH' e he; omega)]; simp
            rw [hg]
            rcases hgs : grpAt X S z with _ | ⟨e, r⟩
            · simp
            · rw [← hgs, ← hg]
              have he : e ∈ grpAt X S z := by rw [hgs]; simp
              have he' := mem_grpAt he
              apply grp_le_one
              rw [← he'.2]
              exact (hS e he'.1).2.2
          have hso := seen_orig r.origO (col_le hC) (y := z) h1
          rw [vN', hc, ← vO']
          exact (hso.mono sub).sub (by simp)
  · intro _
    refine ⟨le_refl _, ?_, ?_⟩
    · rw [vO, lastc_append (0 : C) (Lpre ++ S)]; exact lastc_mem (grpAt X Lold y) (lastc 0 (Lpre ++ S))
    · rw [vN, lastc_append (0 : C) (lo ++ S)]; exact lastc_mem N (lastc 0 (lo ++ S))

theorem rmid_end (hC : Col X Lold ins EV) (m : Mid g X Lold done ins EV lo hi H Lpre Q out V yp yv []) (r : RMid X Lold raw0 raw lo Lpre V yp yv) :
    RDone X Lold (lo ++ hi) raw0 raw := by
  have hV : V = 0 := by have := m.vsum; simpa using this
  have hc : lastc 0 lo = lastc 0 Lpre := by have := m.cnt; rwa [hV, sub_zero] at this
  have hnx : ∀ z, yp < z → isX X Lold z = false := by
    intro z hz
    by_contra h
    obtain ⟨w, hw, _⟩ := m.coverX z hz (by simpa using h)
    simp at hw
  have hhi : hi = H := by
    rw [m.hi_eq, List.filter_eq_self.2]
    intro e he; rw [hnx _ (m.H_gt e he)]; rfl
  have v1 : ∀ z ≤ yp, vals X (lo ++ hi) z = vals X lo z := by
    intro z hz; apply vals_stable; intro e he; rw [hhi] at he; have := m.H_gt e he; omega
  have v2 : ∀ z, yp < z → vals X (lo ++ hi) z = vals X Lold z := by
    intro z hz
    conv_rhs => rw [m.split]
    rw [vals_above (fun e he => by have := m.lo_le e he; omega), vals_above (fun e he => by have := m.pre_le e he; omega), hc, hhi]
  refine { new := ?_, orig := ?_, seen := ?_ }
  · obtain ⟨t, ht, h⟩ := r.new
    refine ⟨t, ht, fun k hk => ⟨(h k hk).1, fun c hc => ?_⟩⟩
    rcases (h k hk).2 c hc with h | ⟨h, h'⟩
    · exact Or.inl h
    · right; rw [v1 _ h]; exact h'
  · rw [orig_append, hc, hhi]
    have := r.origO
    rw [m.split, orig_append] at this
    exact ⟨r.orig, this.2⟩
  · intro y
    by_cases c : y ≤ yp
    · rw [v1 y c]; exact r.seen y c
    · push Not at c
      rw [v2 y c]
      exact (seen_orig r.origO (col_le hC) (grp_le_one (hnx y c))).sub (by simp)

theorem procLoop_cons' {O : Type} (g : Fn C O) (x : Int) (k : Nat) (w : Vert C)
    (ws : List (Vert C)) (L : List (El C)) (Q : List P) (out : List O) (V : C) (prev : P) (nxt : Option (El C))
    (h : w.1.1 = x) :
    procLoop g x (k + 1) (w :: ws) L Q out V prev nxt =
      match stepAt g x (nextV x w ws V nxt).1 V prev L Q out with
      | .error err => .error err
      | .ok (L5, Q5, out5, nx) => procLoop g x k (nextV x w ws V nxt).2 L5 Q5 out5
          (V + (nextV x w ws V nxt).1.2.v) (nextV x w ws V nxt).1.1 nx := by
  conv_lhs => unfold procLoop
  rw [if_neg (by simpa using h)]
  cases stepAt g x (nextV x w ws V nxt).1 V prev L Q out <;> rfl

theorem stepAt_err {O O' : Type} {F : Fn C O} {F' : Fn C O'} {x : Int} {v : Vert C} {V : C} {prev : P} {L : List (El C)} {Q : List P} {out : List O} {out' : List O'} {err : Err}
    (h : stepAt F x v V prev L Q out = .error err) : stepAt F' x v V prev L Q out' = .error err := by
  have e : F.bind (fun _ => ([] : List Unit)) = F'.bind (fun _ => ([] : List Unit)) := by
    unfold Fn.bind
    congr 1
    funext c1 c2 pt r low
    rw [List.flatMap_eq_nil_iff.2 (fun _ _ => rfl), List.flatMap_eq_nil_iff.2 (fun _ _ => rfl)]
  have h1 := stepAt_bind F (fun _ => ([] : List Unit)) x v V prev L Q out
  have h2 := stepAt_bind F' (fun _ => ([] : List Unit)) x v V prev L Q out'
  rw [h, e] at h1
  rw [List.flatMap_eq_nil_iff.2 (fun _ _ => rfl)] at h1 h2
  rw [h1] at h2
  cases h3 : stepAt F' x v V prev L Q out' with
  | error e => rw [h3] at h2; simpa [Except.map] using h2.symm
  | ok s => rw [h3] at h2; simp [Except.map] at h2

theorem procLoop_raw (hC : Col X Lold ins EV) : ∀ (k : Nat) (lo hi H Lpre : List (El C)) (Q : List P) (out : List V45)
    (V : C) (yp yv : Int) (ws tail : List (Vert C)) (prev : P) (nxt : Option (El C)) (raw : List (CallG C)),
    Mid g X Lold done ins EV lo hi H Lpre Q out V yp yv ws → (V ≠ 0 → prev = (X, yv)) → (V ≠ 0 → nxt = hi.head?) →
    (∀ t ∈ tail.head?, t.1.1 ≠ X) → ws.length + tail.length + hi.length ≤ k → RMid X Lold raw0 raw lo Lpre V yp yv →
    (∃ L' Q' out' raw', Done g X (done ++ ins) L' Q' out' ∧ (EV → ∀ e ∈ L', EvenEl e) ∧ Ext X out out' ∧
      procLoop recFn X k (ws ++ tail) (lo ++ hi) Q raw V prev nxt = .ok (tail, L', Q', raw') ∧ RDone X Lold L' raw0 raw') ∨
    (procLoop recFn X k (ws ++ tail) (lo ++ hi) Q raw V prev nxt = .error .precision ∧ ¬ EV) := by
  intro k
  induction k with
  | zero =>
    intro lo hi H Lpre Q out V yp yv ws tail prev nxt raw m _ _ _ hk r
    have h1 : ws = [] := List.eq_nil_of_length_eq_zero (by omega)
    have h2 : tail = [] := List.eq_nil_of_length_eq_zero (by omega)
    subst h1; subst h2
    obtain ⟨d, de⟩ := mid_end hC m
    exact Or.inl ⟨_, _, _, _, d, de, Ext.refl _ _, by simp [procLoop], rmid_end hC m r⟩
  | succ k ih =>
    intro lo hi H Lpre Q out V yp yv ws tail prev nxt raw m hprev hnxt htail hk r
    cases ws with
    | nil =>
      obtain ⟨d, de⟩ := mid_end hC m
      refine Or.inl ⟨lo ++ hi, Q, out, raw, d, de, Ext.refl _ _, ?_, rmid_end hC m r⟩
      cases tail with
      | nil => simp [procLoop]
      | cons t tail =>
        simp only [List.nil_append]
        unfold procLoop
        rw [if_pos (htail t rfl)]
    | cons w ws =>
      obtain ⟨hwx, hwy⟩ := m.ws_gt w (by simp)
      have hws : ∀ u ∈ w :: ws, w.1.2 ≤ u.1.2 := by
        intro u hu
        rcases List.mem_cons.1 hu with rfl | hu
        · exact le_refl _
        · exact (List.pairwise_cons.1 m.ws_sorted).1 u hu
      have hHx : ∀ e ∈ H, isX X Lold (e.eval X) = true → w.1.2 ≤ e.eval X := by
        intro e he hx
        obtain ⟨u, hu, hue⟩ := m.coverX _ (m.H_gt e he) hx
        have := hws u hu; omega
      have hhi : ∀ e ∈ H, isX X Lold (e.eval X) = false → e ∈ hi := by
        intro e he hx
        rw [m.hi_eq]; exact List.mem_filter.2 ⟨he, by rw [hx]; rfl⟩
      have hhis : hi.Pairwise (LtA X) := (List.pairwise_append.1 m.sorted).2.1
      have hhigt : ∀ e ∈ hi, yp < e.eval X := by
        intro e he; rw [m.hi_eq] at he; exact m.H_gt e (List.mem_filter.1 he).1
      have key : ∀ (y : Int), yp < y → y ≤ w.1.2 → (V ≠ 0 → ∀ e ∈ hi, y ≤ e.eval X) →
          (nextV X w (ws ++ tail) V nxt) = (((X, y), totQ y (w :: ws)),
            (w :: ws).filter (fun u => decide (y < u.1.2)) ++ tail) →
          (y = w.1.2 ∨ ∃ e ∈ hi, e.eval X = y) →
          (∃ L' Q' out' raw', Done g X (done ++ ins) L' Q' out' ∧ (EV → ∀ e ∈ L', EvenEl e) ∧ Ext X out out' ∧
            procLoop recFn X (k + 1) (w :: ws ++ tail) (lo ++ hi) Q raw V prev nxt = .ok (tail, L', Q', raw') ∧ RDone X Lold L' raw0 raw') ∨
          (procLoop recFn X (k + 1) (w :: ws ++ tail) (lo ++ hi) Q raw V prev nxt = .error .precision ∧ ¬ EV) := by
        intro y hy1 hy2 hyV hnv hyc
        have hVH : V ≠ 0 → ∀ e ∈ H, y ≤ e.eval X := by
          intro hV e he
          by_cases c : isX X Lold (e.eval X) = true
          · have := hHx e he c; omega
          · exact hyV hV e (hhi e he (by simpa using c))
        obtain ⟨S, hi', H', e0, m'⟩ := mid_skip hC m hy1 hVH (fun u hu => le_trans hy2 (hws u hu))
        have eL : lo ++ hi = (lo ++ S) ++ hi' := by rw [e0]; simp
        simp only [List.cons_append]
        rw [procLoop_cons' recFn X k w (ws ++ tail) _ _ _ _ _ _ hwx, hnv]
        simp only
        rw [eL]
        rcases mid_event hC m' hprev with ⟨lo2, hi2, H2, Lpre2, Q2, out2, s1, s2, s3, s4, s5, c0, c1, c2, s6, s7, s8⟩ | ⟨s1, s2⟩
        · have r2 := rmid_event hC m hy1 hVH e0 m' r hprev c0 c1 c2 (V + (totQ y (w :: ws)).v)
          rw [← s6, ← s7] at r2
          rw [s8, evOut_rec]
          simp only
          have hlen : ((w :: ws).filter (fun u => decide (y < u.1.2))).length + tail.length + hi2.length ≤ k := by
            have h1 := List.length_filter_le (fun u : Vert C => decide (y < u.1.2)) ws
            have h2 := List.length_filter_le (fun u : Vert C => decide (y < u.1.2)) (w :: ws)
            have h3 : hi'.length ≤ hi.length := by rw [e0]; simp
            simp only [List.length_cons] at hk h2
            rcases hyc with h | ⟨e, he, hey⟩
            · rw [List.filter_cons_of_neg (by simp; omega)]; omega
            · have h4 : e ∈ hi' := by
                rw [e0] at he
                rcases List.mem_append.1 he with h | h
                · have := m'.lo_le e (by simp [h]); omega
                · exact h
              have := s5 ⟨e, h4, hey⟩
              omega
          rcases ih lo2 hi2 H2 Lpre2 Q2 out2 _ y y _ tail (X, y) hi2.head? _ s2 (fun _ => rfl) (fun _ => rfl) htail hlen r2 with
            ⟨L', Q', out', raw', t1, t2, t3, t4, t5⟩ | t
          · exact Or.inl ⟨L', Q', out', raw', t1, t2, s3.trans t3, t4, t5⟩
          · exact Or.inr t
        · right
          rw [stepAt_err (F' := recFn) (out' := raw) s1]
          exact ⟨rfl, s2⟩
      have hacc : accumulate w (ws ++ tail) = (((X, w.1.2), totQ w.1.2 (w :: ws)),
          (w :: ws).filter (fun u => decide (w.1.2 < u.1.2)) ++ tail) := by
        rw [accumulate_append ws tail w (fun t ht h => htail t ht (by rw [h]; exact hwx)),
          accumulate_eq ws w (fun u hu => (m.ws_gt u hu).1) m.ws_sorted, List.filter_cons_of_neg (by simp), ← hwx]
      by_cases cV : V ≠ 0
      · have hn := hnxt cV
        rcases hhd : hi with _ | ⟨e, hr⟩
        · rw [hhd] at hn
          rw [← hhd]
          refine key w.1.2 hwy (le_refl _) (fun _ f hf => by rw [hhd] at hf; simp at hf) ?_ (Or.inl rfl)
          rw [← hacc, hn]; rfl
        · rw [hhd] at hn
          simp only [List.head?_cons] at hn
          have hmin : ∀ f ∈ hi, e.eval X ≤ f.eval X := by
            intro f hf
            rw [hhd] at hf hhis
            rcases List.mem_cons.1 hf with rfl | hf
            · exact le_refl _
            · have := (List.pairwise_cons.1 hhis).1 f hf; unfold LtA at this; omega
          rw [← hhd]
          by_cases c : e.eval X < w.1.2
          · refine key (e.eval X) (hhigt e (by rw [hhd]; simp)) (le_of_lt c) (fun _ => hmin) ?_
              (Or.inr ⟨e, by rw [hhd]; simp, rfl⟩)
            rw [hn, totQ_none (fun u hu => by have := hws u hu; omega),
              List.filter_eq_self.2 (fun u hu => by have := hws u hu; simp; omega)]
            unfold nextV
            simp only
            rw [if_pos ⟨cV, c⟩]; rfl
          · refine key w.1.2 hwy (le_refl _) (fun _ f hf => by have := hmin f hf; omega) ?_ (Or.inl rfl)
            rw [← hacc, hn]
            unfold nextV
            simp only
            rw [if_neg (fun h => c h.2)]
      · refine key w.1.2 hwy (le_refl _) (fun h => absurd h cV) ?_ (Or.inl rfl)
        rw [← hacc]
        unfold nextV
        cases nxt with
        | none => rfl
        | some e => simp only; rw [if_neg (fun h => cV h.1)]

end Verif.Deg45
