import Verif.Proofs.T45Sem
/-! # The calls of the whole 45-degree scan -/
namespace Verif.Deg45

variable {C : Type} [AddCommGroup C] [DecidableEq C]
variable {g : C → Bool} {EV : Prop}

/-- The calls up to a stop. -/
structure TInv (g : C → Bool) (EV : Prop) (D : List (Vert C)) (st : St C) (done rem : List (Vert C)) (raw : List (CallG C)) : Prop where
  eq : D = done ++ rem
  inv : ∃ o, Inv g EV st done o
  sound : ∀ k ∈ raw, ∀ c, (k.1.1 = c ∨ k.1.2 = c) → Near D k.2 c
  comp : ∀ p : ℚ × ℚ, p.1 < st.x ∨ (p.1 = st.x ∧ ∀ v ∈ rem, st.x < v.1.1) → Cov D raw p
  orig : Orig raw 0 st.L
  fresh : (∀ v ∈ rem, st.x < v.1.1) ∨ ((∀ e ∈ st.L, e.x < st.x) ∧ st.L.Pairwise (fun a b => a.eval st.x < b.eval st.x) ∧ (∀ v ∈ rem, st.x ≤ v.1.1) ∧
    ∀ q : ℚ × ℚ, (st.x : ℚ) - 1 ≤ q.1 → q.1 < st.x → dep D q = sval st.L q)
  rx : ∀ k ∈ raw, k.2.1 ≤ st.x
  mono : raw.Pairwise (fun a b => a.2.1 ≤ b.2.1)

theorem fold_rec (X : Int) (L : List (El C)) : ∀ (ys : List Int) (raw : List (CallG C)),
    ys.foldl (fun o y => emitLows recFn (X, y) (lastc 0 (ltAt X L y)) (grpAt X L y) o) raw =
      raw ++ ys.flatMap (fun y => lows (X, y) (lastc 0 (ltAt X L y)) (grpAt X L y))
  | [], raw => by simp
  | y :: ys, raw => by
    rw [List.foldl_cons, emitLows_rec, fold_rec X L ys]
    simp

theorem rmid_start {X : Int} {Lold : List (El C)} {ys : List Int} {raw : List (CallG C)} (hy : ∀ y, y ∈ ys ↔ isX X Lold y = true)
    (ho : Orig raw 0 Lold) {yp : Int} (hp : ∀ e ∈ Lold, yp < e.eval X) :
    RMid X Lold raw (raw ++ ys.flatMap (fun y => lows (X, y) (lastc 0 (ltAt X Lold y)) (grpAt X Lold y))) [] [] 0 yp 0 := by
  refine { new := ⟨_, rfl, fun k hk => ?_⟩, low := ?_, origO := ?_, orig := trivial, seen := ?_, vert := fun h => absurd rfl h }
  · obtain ⟨y, _, hk'⟩ := List.mem_flatMap.1 hk
    obtain ⟨l1, l2, l3⟩ := lows_vals _ _ _ k hk'
    rw [l1]
    refine ⟨rfl, fun c hc => Or.inl ?_⟩
    unfold vals
    rcases hc with rfl | rfl
    · exact l2
    · exact l3
  · intro y h k hk
    exact List.mem_append_right _ (List.mem_flatMap.2 ⟨y, (hy y).2 h, hk⟩)
  · exact ho.mono (fun k hk => List.mem_append_left _ hk)
  · intro y hyp
    refine ⟨(0, 0), fun c hc h0 => absurd ?_ h0⟩
    unfold vals at hc
    rw [ltAt_nil (A := Lold) (fun e he => by have := hp e he; omega), grpAt_nil (A := Lold) (fun e he => by have := hp e he; omega)] at hc
    simpa [ltAt, grpAt, lastc] using hc

theorem mono_append {raw t : List (CallG C)} {x X : Int} (h1 : raw.Pairwise (fun a b => a.2.1 ≤ b.2.1)) (h2 : ∀ k ∈ raw, k.2.1 ≤ x) (hx : x ≤ X) (h3 : ∀ k ∈ t, k.2.1 = X) :
    (raw ++ t).Pairwise (fun a b => a.2.1 ≤ b.2.1) := by
  refine List.pairwise_append.2 ⟨h1, List.pairwise_of_forall_mem_list (fun a ha b hb => by rw [h3 a ha, h3 b hb]), fun a ha b hb => ?_⟩
  have := h2 a ha; have := h3 b hb; omega

/-- From a stop to the next: the points in between. -/
theorem between {D : List (Vert C)} {st : St C} {done rem : List (Vert C)} {raw : List (CallG C)} (i : TInv g EV D st done rem raw) {X : Int}
    (hX : st.x < X) (hQ : ∀ p ∈ st.Q, X ≤ p.1) (hrem : ∀ v ∈ rem, X ≤ v.1.1) :
    (∀ q : ℚ × ℚ, (st.x : ℚ) ≤ q.1 → q.1 < X → dep D q = sval st.L q) ∧ ∀ p : ℚ × ℚ, p.1 < X → Cov D raw p := by
  obtain ⟨o, io⟩ := i.inv
  have h1 : ∀ q : ℚ × ℚ, (st.x : ℚ) ≤ q.1 → q.1 < X → dep D q = sval st.L q := by
    intro q a b
    rw [i.eq]
    refine dep_sval io.dn io.inx hX hQ a (le_of_lt b) (fun v hv => ?_)
    have : (X : ℚ) ≤ v.1.1 := by exact_mod_cast hrem v hv
    linarith
  refine ⟨h1, fun p hp => ?_⟩
  by_cases c : p.1 ≤ st.x
  · rcases lt_or_eq_of_le c with c | c
    · exact i.comp p (Or.inl c)
    · exact i.comp p (Or.inr ⟨c, fun v hv => by have := hrem v hv; omega⟩)
  · push Not at c
    obtain ⟨ε, e1, m, hm⟩ := interior (good_strict io.dn.good hX hQ p.1 c hp) io.dn.good.slope i.orig p.2
    refine ⟨min ε (min (p.1 - st.x) (X - p.1)), lt_min e1 (lt_min (by linarith) (by linarith)), m, fun q hq h0 => ?_⟩
    have m1 := min_le_left ε (min (p.1 - st.x) (X - p.1))
    have m2 := le_trans (min_le_right ε (min (p.1 - st.x) (X - p.1))) (min_le_left _ _)
    have m3 := le_trans (min_le_right ε (min (p.1 - st.x) (X - p.1))) (min_le_right _ _)
    obtain ⟨⟨x1, x2⟩, x3, x4⟩ := hq
    have e := h1 q (by linarith) (by linarith)
    rw [e] at h0 ⊢
    exact hm q ⟨⟨by linarith, by linarith⟩, by linarith, by linarith⟩ h0

theorem tinv_column {D : List (Vert C)} {st : St C} {done ins rem : List (Vert C)} {raw raw' : List (CallG C)} (i : TInv g EV D st done (ins ++ rem) raw) {X : Int}
    (hX : st.x ≤ X) (hr : ∀ v ∈ rem, X < v.1.1) {L' : List (El C)} {Q' : List P} {o : List V45}
    (io : Inv g EV ⟨L', Q', X⟩ (done ++ ins) o) (r : RDone X st.L L' raw raw')
    (hl : ∀ q : ℚ × ℚ, (X : ℚ) - 1 ≤ q.1 → q.1 < X → dep D q = sval st.L q)
    (s1 : SideSorted (-1) X st.L) (hc : ∀ p : ℚ × ℚ, p.1 < X → Cov D raw p) :
    TInv g EV D ⟨L', Q', X⟩ (done ++ ins) rem raw' := by
  obtain ⟨oo, ioo⟩ := i.inv
  obtain ⟨t, ht, h1, h2⟩ := col_sem (D := D) r hl (by
    intro q a b
    rw [i.eq, ← List.append_assoc]
    refine dep_sval io.dn io.inx (X := X + 1) (by simp) (fun p hp => by have := io.dn.good.qgt p hp; simp only at this; omega) a (by push_cast; linarith) (fun v hv => ?_)
    have : (X : ℚ) + 1 ≤ v.1.1 := by exact_mod_cast hr v hv
    linarith) s1 (by
      have := io.dn.good.sorted
      refine this.imp (fun h => ?_)
      unfold LtA at h
      simp only at h
      omega) ioo.dn.good.slope io.dn.good.slope
  have sub : ∀ k ∈ raw, k ∈ raw' := fun k hk => by rw [ht]; exact List.mem_append_left _ hk
  refine { eq := by rw [i.eq, List.append_assoc], inv := ⟨o, io⟩, sound := ?_, comp := ?_, orig := r.orig, fresh := Or.inl hr, rx := ?_, mono := ?_ }
  · intro k hk
    rw [ht] at hk
    rcases List.mem_append.1 hk with hk | hk
    · exact i.sound k hk
    · exact (h1 k hk).2
  · intro p hp
    rcases hp with hp | ⟨hp, _⟩
    · exact (hc p hp).mono sub
    · have := h2 p.2
      simp only at hp
      rw [← hp] at this
      exact this
  · intro k hk
    rw [ht] at hk
    rcases List.mem_append.1 hk with hk | hk
    · have := i.rx k hk; simp only; omega
    · exact le_of_eq (h1 k hk).1
  · rw [ht]; exact mono_append i.mono i.rx hX (fun k hk => (h1 k hk).1)

theorem tinv_adv (h0 : g 0 = false) {D : List (Vert C)} {st : St C} {done ins rem ev : List (Vert C)} {raw raw1 : List (CallG C)} (i : TInv g EV D st done (ins ++ rem) raw)
    {X : Int} {L : List (El C)} {Q : List P} {cv : List (Vert C)} {ys : List Int}
    (hX : st.x < X) (hQ : ∀ p ∈ st.Q, X ≤ p.1) (hr : ∀ v ∈ rem, X < v.1.1)
    (sp : AdvSpec recFn X st.L raw L Q raw1 cv ys) (ci : ColIn X EV ins)
    (hev : ev.Perm (cv ++ ins)) (hes : YSorted ev) :
    (∃ L' Q' raw', processEvent recFn X ev L Q raw1 = .ok ([], L', Q', raw') ∧ TInv g EV D ⟨L', Q', X⟩ (done ++ ins) rem raw') ∨
    (processEvent recFn X ev L Q raw1 = .error .precision ∧ ¬ EV) := by
  obtain ⟨o, io⟩ := i.inv
  have sp0 : AdvSpec (opFn g) X st.L o L Q (ys.foldl (fun o y => emitLows (opFn g) (X, y) (lastc 0 (ltAt X st.L y)) (grpAt X st.L y) o) o) cv ys :=
    { asc := sp.asc, mem := sp.mem, left_eq := sp.left_eq, sorted := sp.sorted, chain := sp.chain, qsorted := sp.qsorted, qgt := sp.qgt
      cv_eq := sp.cv_eq, out_eq := rfl }
  obtain ⟨hC, yp, m⟩ := adv_mid io hX hQ sp0 ci hev hes
  have rm := rmid_start sp.mem i.orig m.H_gt
  rw [← fold_rec, ← sp.out_eq] at rm
  rcases procLoop_raw hC (ev.length + L.length) [] L st.L [] Q _ 0 yp 0 ev [] (0, 0) none raw1 m
    (fun h => absurd rfl h) (fun h => absurd rfl h) (by simp) (by simp) rm with ⟨L', Q', out', raw', t1, t2, t3, t4, t5⟩ | t4
  swap
  · rw [List.append_nil, List.nil_append] at t4; exact Or.inr t4
  left
  have hext : Ext X o out' := Ext.trans (fold_ext g io.dn.good.slope ys o) t3
  rw [List.append_nil, List.nil_append] at t4
  have hXr : ∀ v ∈ ins ++ rem, X ≤ v.1.1 := by
    intro v hv
    rcases List.mem_append.1 hv with h | h
    · exact le_of_eq (ci.insx v h).symm
    · exact le_of_lt (hr v h)
  obtain ⟨b1, b2⟩ := between i hX hQ hXr
  refine ⟨L', Q', raw', t4, tinv_column i (le_of_lt hX) hr (inv_column h0 io (le_of_lt hX) (fun _ => hQ) ci.insx t1 t2 hext) t5 (fun q a b => b1 q ?_ b) ?_ b2⟩
  · have : (st.x : ℚ) + 1 ≤ X := by exact_mod_cast hX
    linarith
  · exact hC.sorted.imp (fun h => by omega)

theorem tinv_now (h0 : g 0 = false) {D : List (Vert C)} {st : St C} {done ins rem : List (Vert C)} {raw : List (CallG C)} (i : TInv g EV D st done (ins ++ rem) raw)
    (f : (∀ e ∈ st.L, e.x < st.x) ∧ st.L.Pairwise (fun a b => a.eval st.x < b.eval st.x) ∧ (∀ v ∈ ins ++ rem, st.x ≤ v.1.1) ∧
      ∀ q : ℚ × ℚ, (st.x : ℚ) - 1 ≤ q.1 → q.1 < st.x → dep D q = sval st.L q)
    (hr : ∀ v ∈ rem, st.x < v.1.1) (ci : ColIn st.x EV ins) {tail : List (Vert C)} (htail : ∀ t ∈ tail.head?, t.1.1 ≠ st.x) :
    (∃ L' Q' raw', processEvent recFn st.x (ins ++ tail) st.L st.Q raw = .ok (tail, L', Q', raw') ∧ TInv g EV D ⟨L', Q', st.x⟩ (done ++ ins) rem raw') ∨
    (processEvent recFn st.x (ins ++ tail) st.L st.Q raw = .error .precision ∧ ¬ EV) := by
  obtain ⟨o, io⟩ := i.inv
  obtain ⟨hC, hx, yp, m⟩ := now_mid io f.1 f.2.1 ci
  have rm := rmid_start (ys := []) (fun y => by rw [hx]; simp) i.orig m.H_gt
  rw [List.flatMap_nil, List.append_nil] at rm
  rcases procLoop_raw hC ((ins ++ tail).length + st.L.length) [] st.L st.L [] st.Q o 0 yp 0 ins tail (0, 0) none raw m
    (fun h => absurd rfl h) (fun h => absurd rfl h) htail (by rw [List.length_append]) rm with ⟨L', Q', out', raw', t1, t2, t3, t4, t5⟩ | t4
  swap
  · exact Or.inr t4
  left
  refine ⟨L', Q', raw', t4, tinv_column i (le_refl _) hr (inv_column h0 io (le_refl _) (fun h => absurd h (lt_irrefl _)) ci.insx t1 t2 t3) t5 f.2.2.2 ?_
    (fun p hp => i.comp p (Or.inl hp))⟩
  exact hC.sorted.imp (fun h => by omega)

theorem scanLoop_raw (h0 : g 0 = false) {D rest : List (Vert C)} {M : Int} (hrest : ∀ v ∈ rest, M < v.1.1) : ∀ (k : Nat) (st : St C) (vs done : List (Vert C)) (raw : List (CallG C)),
    TInv g EV D st done (vs ++ rest) raw → InOK EV vs → st.x ≤ M → (∀ v ∈ vs, v.1.1 ≤ M) →
    vs.length + (M - st.x).toNat ≤ k →
    (∃ st' raw', scanLoop recFn k st vs raw = .ok (st', raw') ∧ TInv g EV D st' (done ++ vs) rest raw' ∧ st'.x ≤ M) ∨
    (scanLoop recFn k st vs raw = .error .precision ∧ ¬ EV) := by
  intro k
  induction k with
  | zero =>
    intro st vs done raw i _ hxM _ hk
    have : vs = [] := List.eq_nil_of_length_eq_zero (by omega)
    subst this
    exact Or.inl ⟨st, raw, by simp [scanLoop], by simpa using i, hxM⟩
  | succ k ih =>
    intro st vs done raw i hin hxM hM hk
    cases vs with
    | nil => exact Or.inl ⟨st, raw, by simp [scanLoop], by simpa using i, hxM⟩
    | cons w ws =>
      obtain ⟨o, io⟩ := i.inv
      have hge : ∀ v ∈ w :: ws, w.1.1 ≤ v.1.1 := by
        intro v hv
        rcases List.mem_cons.1 hv with rfl | hv
        · exact le_refl _
        · have := (List.pairwise_cons.1 hin.sorted).1 v hv; omega
      have hwx : st.x ≤ w.1.1 := by
        rcases i.fresh with h | h
        · exact le_of_lt (h w (by simp))
        · exact h.2.2.1 w (by simp)
      have hwM := hM w (by simp)
      unfold scanLoop
      by_cases c : w.1.1 ≠ st.x
      · rw [if_pos c]
        simp only
        have hwlt : st.x < w.1.1 := by omega
        obtain ⟨X, hXd, hX1, hX2, hX3⟩ : ∃ X, nextStop st.Q w.1.1 = X ∧ st.x < X ∧ X ≤ w.1.1 ∧ ∀ p ∈ st.Q, X ≤ p.1 := by
          refine ⟨_, rfl, ?_⟩
          unfold nextStop
          cases hQ : st.Q with
          | nil => exact ⟨hwlt, le_refl _, by simp⟩
          | cons p Q =>
            have hp : st.x < p.1 := io.dn.good.qgt p (by rw [hQ]; simp)
            have hs := io.dn.good.qsorted
            rw [hQ] at hs
            have hall : ∀ r ∈ p :: Q, p.1 ≤ r.1 := by
              intro r hr
              rcases List.mem_cons.1 hr with rfl | hr
              · exact le_refl _
              · have := (List.pairwise_cons.1 hs).1 r hr; omega
            simp only
            split_ifs with c2
            · exact ⟨by omega, by omega, fun r hr => by have := hall r hr; omega⟩
            · exact ⟨hwlt, le_refl _, fun r hr => by have := hall r hr; omega⟩
        rw [hXd]
        have hfuel : ∀ vs' : List (Vert C), vs'.length ≤ (w :: ws).length → vs'.length + (M - X).toNat ≤ k := by
          intro vs' h
          simp only [List.length_cons] at h hk
          omega
        have hXr : ∀ v ∈ (w :: ws) ++ rest, X ≤ v.1.1 := by
          intro v hv
          rcases List.mem_append.1 hv with h | h
          · have := hge v h; omega
          · have := hrest v h; omega
        rcases advance_spec recFn io.dn.good hX1 hX3 raw with ⟨L, Q, raw1, cv, ys, e1, sp⟩ | ⟨e1, e2⟩
        swap
        · right; rw [e1]; exact ⟨rfl, fun h => e2 (io.even h)⟩
        rw [e1]
        simp only
        have hcvs : YSorted cv := by
          rw [sp.cv_eq]; unfold YSorted
          rw [List.pairwise_map]
          exact sp.asc.imp (fun h => by simp only; omega)
        by_cases c2 : cv ≠ [] ∧ X = w.1.1
        · rw [if_pos c2]
          simp only
          have hXw : ∀ v ∈ w :: ws, X ≤ v.1.1 := fun v hv => by have := hge v hv; omega
          obtain ⟨t1, t2⟩ := takeWhile_x hin.sorted hXw
          rw [t1, t2]
          have hsp := filter_rest hin.sorted hXw
          have hr : ∀ v ∈ (w :: ws).filter (fun v => decide (X < v.1.1)), X < v.1.1 ∧ v ∈ w :: ws := by
            intro v hv; have := List.mem_filter.1 hv; exact ⟨by simpa using this.2, this.1⟩
          have i' : TInv g EV D st done ((w :: ws).filter (fun v => decide (v.1.1 = X)) ++ ((w :: ws).filter (fun v => decide (X < v.1.1)) ++ rest)) raw := by
            rw [← List.append_assoc, ← hsp]; exact i
          rcases tinv_adv h0 i' hX1 hX3 (by
              intro v hv
              rcases List.mem_append.1 hv with h | h
              · exact (hr v h).1
              · have := hrest v h; omega) sp (hin.cols X)
            (mergeCross_perm cv ((w :: ws).filter (fun v => decide (v.1.1 = X))))
            (mergeCross_sorted _ _ hcvs (hin.cols X).sorted) with ⟨L', Q', raw', s1, s2⟩ | ⟨s1, s2⟩
          swap
          · right; rw [s1]; exact ⟨rfl, s2⟩
          rw [s1]
          simp only
          rcases ih ⟨L', Q', X⟩ _ _ raw' s2 (hin.rest X) (by simp only; omega)
            (fun v hv => hM v (hr v hv).2) (hfuel _ (List.length_filter_le _ _)) with ⟨st', r', u1, u2, u3⟩ | u
          swap
          · exact Or.inr u
          refine Or.inl ⟨st', r', u1, ?_, u3⟩
          rw [List.append_assoc, ← hsp] at u2
          exact u2
        · rw [if_neg c2]
          simp only
          by_cases c4 : X = w.1.1
          · -- nothing crosses here, and there are vertices
            have c3 : cv = [] := by by_contra h; exact c2 ⟨h, c4⟩
            have hys : ys = [] := by have := sp.cv_eq; rw [c3] at this; exact List.map_eq_nil_iff.1 this.symm
            have hpe : processEvent recFn X cv L Q raw1 = .ok ([], L, Q, raw1) := by
              rw [c3]; unfold processEvent procLoop; rfl
            have hL : L = st.L := by
              rw [sp.left_eq, List.filter_eq_self]
              intro e _
              cases hx : isX X st.L (e.eval X) with
              | false => rfl
              | true => have := (sp.mem _).2 hx; rw [hys] at this; simp at this
            have hraw : raw1 = raw := by rw [sp.out_eq, hys]; rfl
            rw [hpe]
            simp only
            have sp0 : AdvSpec (opFn g) X st.L o L Q o cv ys :=
              { asc := sp.asc, mem := sp.mem, left_eq := sp.left_eq, sorted := sp.sorted, chain := sp.chain, qsorted := sp.qsorted, qgt := sp.qgt
                cv_eq := sp.cv_eq, out_eq := by rw [hys]; rfl }
            have hcol := adv_column (ev := cv) (ins := []) (tail := []) h0 io hX1 hX3 sp0 (ColIn.nil X EV)
              (by rw [List.append_nil]) hcvs (by simp)
            have hpe0 : processEvent (opFn g) X cv L Q o = .ok ([], L, Q, o) := by
              rw [c3]; unfold processEvent procLoop; rfl
            rw [List.append_nil, List.append_nil, hpe0] at hcol
            rcases hcol with ⟨L', Q', out', s1, s2, s3⟩ | ⟨s1, s2⟩
            · simp only [Except.ok.injEq, Prod.mk.injEq, true_and] at s1
              obtain ⟨rfl, rfl, rfl⟩ := s1
              obtain ⟨b1, b2⟩ := between i hX1 hX3 hXr
              have hX1' : (st.x : ℚ) + 1 ≤ X := by exact_mod_cast hX1
              have i2 : TInv g EV D ⟨L, Q, X⟩ done ((w :: ws) ++ rest) raw1 := by
                rw [hraw]
                refine { eq := i.eq, inv := ⟨_, s2⟩, sound := i.sound, comp := ?_, orig := by rw [hL]; exact i.orig, fresh := Or.inr ⟨?_, sp.sorted, hXr, ?_⟩
                         rx := fun k hk => by have := i.rx k hk; simp only; omega, mono := i.mono }
                · intro p hp
                  rcases hp with hp | ⟨_, hp⟩
                  · exact b2 p hp
                  · have := hp w (by simp); simp only at this; omega
                · intro e he
                  rw [hL] at he
                  have := io.dn.good.orig e he
                  simp only; omega
                · intro q a b
                  simp only at a b
                  rw [hL]
                  exact b1 q (by linarith) b
              exact ih ⟨L, Q, X⟩ (w :: ws) done raw1 i2 hin (by simp only; omega) hM (hfuel _ (le_refl _))
            · simp at s1
          · have hlt : X < w.1.1 := by omega
            rcases tinv_adv (ins := []) (rem := (w :: ws) ++ rest) (ev := cv) h0 i hX1 hX3 (by
              intro v hv
              rcases List.mem_append.1 hv with h | h
              · have := hge v h; omega
              · have := hrest v h; omega) sp (ColIn.nil X EV) (by rw [List.append_nil]) hcvs with ⟨L', Q', raw', s1, s2⟩ | ⟨s1, s2⟩
            swap
            · right; rw [s1]; exact ⟨rfl, s2⟩
            rw [s1]
            simp only
            rw [List.append_nil] at s2
            exact ih ⟨L', Q', X⟩ (w :: ws) done raw' s2 hin (by simp only; omega) hM (hfuel _ (le_refl _))
      · rw [if_neg c]
        push Not at c
        have hXw : ∀ v ∈ w :: ws, st.x ≤ v.1.1 := fun v hv => by have := hge v hv; omega
        have hsp := filter_rest hin.sorted hXw
        have hr : ∀ v ∈ (w :: ws).filter (fun v => decide (st.x < v.1.1)), st.x < v.1.1 ∧ v ∈ w :: ws := by
          intro v hv; have := List.mem_filter.1 hv; exact ⟨by simpa using this.2, this.1⟩
        have e3 : (w :: ws) ++ rest = (w :: ws).filter (fun v => decide (v.1.1 = st.x)) ++ ((w :: ws).filter (fun v => decide (st.x < v.1.1)) ++ rest) := by
          rw [← List.append_assoc, ← hsp]
        have hf := i.fresh.resolve_left (fun h => by have := h w (by simp); omega)
        have i' := i
        rw [e3] at i' hf
        rcases tinv_now (tail := (w :: ws).filter (fun v => decide (st.x < v.1.1))) h0 i' hf (by
            intro v hv
            rcases List.mem_append.1 hv with h | h
            · exact (hr v h).1
            · have := hrest v h; omega) (hin.cols st.x)
          (fun t ht => by have := (hr t (List.mem_of_mem_head? ht)).1; omega) with ⟨L', Q', raw', s1, s2⟩ | ⟨s1, s2⟩
        swap
        · right; rw [← hsp] at s1; rw [s1]; exact ⟨rfl, s2⟩
        rw [← hsp] at s1
        rw [s1]
        simp only
        have hlen : ((w :: ws).filter (fun v => decide (st.x < v.1.1))).length + (M - st.x).toNat ≤ k := by
          rw [List.filter_cons_of_neg (by simp; omega)]
          have := List.length_filter_le (fun v : Vert C => decide (st.x < v.1.1)) ws
          simp only [List.length_cons] at hk
          omega
        rcases ih ⟨L', Q', st.x⟩ _ _ raw' s2 (hin.rest st.x) hxM
          (fun v hv => hM v (hr v hv).2) hlen with ⟨st', r', u1, u2, u3⟩ | u
        swap
        · exact Or.inr u
        refine Or.inl ⟨st', r', u1, ?_, u3⟩
        rw [List.append_assoc, ← hsp] at u2
        exact u2

/-- One call of the scanline. -/
theorem scan_raw (h0 : g 0 = false) {D rest : List (Vert C)} {st : St C} {vs done : List (Vert C)} {raw : List (CallG C)} {M : Int} (hM : st.x ≤ M) (hv : ∀ v ∈ vs, v.1.1 ≤ M)
    (hrest : ∀ v ∈ rest, M < v.1.1) (i : TInv g EV D st done (vs ++ rest) raw) (hin : InOK EV vs) :
    (∃ st' raw', scan recFn st vs raw = .ok (st', raw') ∧ TInv g EV D st' (done ++ vs) rest raw' ∧ st'.x ≤ M) ∨
    (scan recFn st vs raw = .error .precision ∧ ¬ EV) := by
  have hmax : ∀ (l : List (Vert C)) (a : Int), a ≤ l.foldl (fun m v => max m v.1.1) a ∧
      (∀ v ∈ l, v.1.1 ≤ l.foldl (fun m v => max m v.1.1) a) ∧
      (∀ M, a ≤ M → (∀ v ∈ l, v.1.1 ≤ M) → l.foldl (fun m v => max m v.1.1) a ≤ M) := by
    intro l
    induction l with
    | nil => intro a; simp
    | cons v l ih =>
      intro a
      obtain ⟨h1, h2, h3⟩ := ih (max a v.1.1)
      simp only [List.foldl_cons]
      refine ⟨by omega, ?_, ?_⟩
      · intro u hu
        rcases List.mem_cons.1 hu with rfl | hu
        · omega
        · exact h2 u hu
      · intro M ha hv
        exact h3 M (by have := hv v (by simp); omega) (fun u hu => hv u (by simp [hu]))
  obtain ⟨h1, h2, h3⟩ := hmax vs st.x
  unfold scan
  have h4 := h3 M hM hv
  rcases scanLoop_raw h0 (M := vs.foldl (fun m v => max m v.1.1) st.x) (fun v hv => by have := hrest v hv; omega) _ st vs done raw i hin h1 h2 (le_refl _) with ⟨st', r', u1, u2, u3⟩ | u
  · exact Or.inl ⟨st', r', u1, u2, le_trans u3 h4⟩
  · exact Or.inr u

end Verif.Deg45
