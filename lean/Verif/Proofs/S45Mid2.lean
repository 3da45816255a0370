import Verif.Proofs.S45Any
/-! # One event keeps the column in order -/
namespace Verif.Deg45

variable {C : Type} [AddCommGroup C] [DecidableEq C]
variable {g : C → Bool} {X : Int} {Lold : List (El C)} {done ins : List (Vert C)} {EV : Prop}
  {lo hi H Lpre : List (El C)} {Q : List P} {out : List V45} {V : C} {yp yv : Int} {ws : List (Vert C)}

/-- The change of the output when the edge that arrives at a point is ended there. -/
structure Ended (g : C → Bool) (X : Int) (Lold : List (El C)) (y : Int) (b : C) (grp : List (El C))
    (out out' : List V45) (at_ : Quad C) : Prop where
  atn : at_.n = b + (if isX X Lold y then 0 else (crossQ b grp).n)
  atz : at_.z = b + (if isX X Lold y then 0 else (crossQ b grp).n + (crossQ b grp).z)
  atp : at_.p = b + (if isX X Lold y then 0 else (crossQ b grp).n + (crossQ b grp).z + (crossQ b grp).p)
  rays : ∀ f, sumOn f (oRays out') = sumOn f (oRays out) - (if isX X Lold y then 0 else sumOn f (deltas (gi g) b grp))
  bal : ∀ q, bal out' q = bal out q -
    (if (X, y) = q then (if isX X Lold y then 0 else gi g (lastc b grp) - gi g b) else 0)
  ext : Ext X out out'

theorem end_spec (hC : Col X Lold ins EV) {y : Int}
    (m : Mid g X Lold done ins EV lo hi H Lpre Q out V (y - 1) yv ws) {out1 : List V45}
    {grp H' : List (El C)} (hH : H = grp ++ H') (hg : ∀ e ∈ grp, e.eval X = y) (hH' : ∀ e ∈ H', y < e.eval X)
    (hgl : isX X Lold y = decide (2 ≤ grp.length)) (b : C) :
    (∃ at_ Q1 out2, endEdges g X (X, y) lo hi b ⟨b, b, b, b⟩ Q out1 =
        .ok (at_, H'.filter (fun e => !isX X Lold (e.eval X)), Q1, out2) ∧
      Ended g X Lold y b grp out1 out2 at_ ∧
      (lo ++ H'.filter (fun e => !isX X Lold (e.eval X))).IsChain (Sched Q1) ∧ QSorted Q1 ∧ ∀ p ∈ Q1, X < p.1) ∨
    (endEdges g X (X, y) lo hi b ⟨b, b, b, b⟩ Q out1 = .error .precision ∧ ¬ EV) := by
  have hgs : ∀ e ∈ grp, Slope e := fun e he => hC.slope e (by rw [m.split, hH]; simp [he])
  have hgt : ∀ e ∈ H'.filter (fun e => !isX X Lold (e.eval X)), y < e.eval X :=
    fun e he => hH' e (List.mem_filter.1 he).1
  by_cases c : isX X Lold y = true
  · -- the crossing edges are gone already
    left
    have hhi : hi = H'.filter (fun e => !isX X Lold (e.eval X)) := by
      rw [m.hi_eq, hH, List.filter_append, List.filter_eq_nil_iff.2 (fun e he => by rw [hg e he, c]; simp)]
      rfl
    rw [hhi]
    refine ⟨⟨b, b, b, b⟩, Q, out1, endEdges_none g hgt, ?_, ?_, m.qsorted, m.qgt⟩
    · exact { atn := by simp [c], atz := by simp [c], atp := by simp [c], rays := by simp [c], bal := by simp [c]
              ext := Ext.refl _ _ }
    · rw [← hhi]; exact m.chain
  · have c' : isX X Lold y = false := by simpa using c
    have hhi : hi = grp ++ H'.filter (fun e => !isX X Lold (e.eval X)) := by
      rw [m.hi_eq, hH, List.filter_append, List.filter_eq_self.2 (fun e he => by rw [hg e he, c']; rfl)]
    rcases grp with _ | ⟨e, _ | ⟨e2, grp⟩⟩
    · left
      rw [List.nil_append] at hhi
      rw [hhi]
      refine ⟨⟨b, b, b, b⟩, Q, out1, endEdges_none g hgt, ?_, ?_, m.qsorted, m.qgt⟩
      · exact { atn := by simp [c', crossQ], atz := by simp [c', crossQ], atp := by simp [c', crossQ]
                rays := by simp [deltas], bal := by simp [lastc], ext := Ext.refl _ _ }
      · rw [← hhi]; exact m.chain
    · rw [List.singleton_append] at hhi
      have heL : e ∈ Lold := by rw [m.split, hH]; simp
      have hsl : ∀ f ∈ lo ++ e :: H'.filter (fun e => !isX X Lold (e.eval X)), Slope f := by
        intro f hf
        rcases List.mem_append.1 hf with h | h
        · exact m.slope f h
        · rcases List.mem_cons.1 h with rfl | h
          · exact hC.slope f heL
          · exact hC.slope f (by rw [m.split, hH]; simp [(List.mem_filter.1 h).1])
      rcases endEdges_one g (cur := b) (at_ := ⟨b, b, b, b⟩) (out := out1) hsl (hhi ▸ m.sorted) (hhi ▸ m.chain)
        m.qsorted m.qgt (hg e (by simp)) (hC.orig e heL) hgt with ⟨Q1, s1, s2, s3, s4⟩ | ⟨s1, s2⟩
      · left
        rw [hhi]
        refine ⟨_, Q1, _, s1, ?_, s2, s3, s4⟩
        have hse := hC.slope e heL
        obtain ⟨q1, q2, q3⟩ := crossQ_single_up b hse
        have hr : e.rise ≠ 2 := by unfold Slope at hse; omega
        refine { atn := ?_, atz := ?_, atp := ?_, rays := ?_, bal := ?_, ext := ?_ }
        · rw [q1, c']; simp
        · rw [q2, c']; simp [add_assoc]
        · rw [q3, c']; simp [add_assoc]
        · intro f
          rw [emit_rays _ _ _ _ _ _ _ _ hr, c']
          simp only [deltas, sumOn_cons, sumOn_nil, line_of_eval (hg e (by simp)), sgn]
          by_cases cf : f (lineOf (X, y) e.rise) = true
          · simp [cf]; ring
          · simp [cf]
        · intro q
          rw [emit_bal, if_neg (c := e.rise = 2) hr, c']
          simp only [lastc, sgn]
          by_cases cf : (X, y) = q
          · simp [cf]; ring
          · simp [cf]
        · exact emit_ext g out1 b e.count (X, y) e.rise true (by unfold Slope at hse; omega)
      · right
        rw [hhi]
        refine ⟨s1, fun h => s2 (fun f hf => ?_)⟩
        rcases List.mem_append.1 hf with h' | h'
        · exact m.even h f h'
        · rcases List.mem_cons.1 h' with rfl | h'
          · exact hC.evenL h f heL
          · exact hC.evenL h f (by rw [m.split, hH]; simp [(List.mem_filter.1 h').1])
    · rw [hgl] at c; simp at c

theorem totQ_filter_gt {y z : Int} (h : y < z) (ws : List (Vert C)) :
    totQ z (ws.filter (fun w => decide (y < w.1.2))) = totQ z ws := by
  unfold totQ
  have : (ws.filter (fun w => decide (y < w.1.2))).filter (fun v => decide (v.1.2 = z)) =
      ws.filter (fun v => decide (v.1.2 = z)) := by
    rw [List.filter_filter]
    apply List.filter_congr
    intro v _
    by_cases c : v.1.2 = z
    · simp [c, h]
    · simp [c]
  rw [this]

theorem vsum_split {y : Int} {ws : List (Vert C)} (h : ∀ w ∈ ws, y ≤ w.1.2) :
    (ws.map (fun w => w.2.v)).sum =
      (totQ y ws).v + ((ws.filter (fun w => decide (y < w.1.2))).map (fun w => w.2.v)).sum := by
  induction ws with
  | nil => simp [totQ]
  | cons w ws ih =>
    have ih := ih (fun w h' => h w (by simp [h']))
    have hw := h w (by simp)
    rw [List.map_cons, List.sum_cons, ih, totQ_cons]
    by_cases c : w.1.2 = y
    · rw [if_pos c, List.filter_cons_of_neg (by simp; omega)]
      simp only [Quad.add]; abel
    · rw [if_neg c, List.filter_cons_of_pos (by simp; omega)]
      simp only [List.map_cons, List.sum_cons]; abel

theorem bal_arith (z y yv : Int) (x : Int → Bool) (gb gB gl g0 g1 g2 s : Int) :
    (if z = yv then gB - gb else 0) - (if x z = true then (if z = y then gl - gb else 0) + s else 0) +
      (if yv = z then -(gB - gb) else 0) + (if y = z then gB - gb else 0) -
      (if y = z then (if x y = true then 0 else gl - gb) else 0) +
      (if y = z then (if (-1 : Int) = 2 then -1 else 1) * (1 * (g0 - gB)) else 0) +
      (if y = z then (if (0 : Int) = 2 then -1 else 1) * (1 * (g1 - g0)) else 0) +
      (if y = z then (if (1 : Int) = 2 then -1 else 1) * (1 * (g2 - g1)) else 0) =
    (if z = y then g2 - gl else 0) - (if x z = true then s else 0) := by
  rw [if_neg (show ¬ (-1 : Int) = 2 by decide), if_neg (show ¬ (0 : Int) = 2 by decide),
    if_neg (show ¬ (1 : Int) = 2 by decide)]
  by_cases c : z = y
  · subst c; split_ifs <;> omega
  · split_ifs <;> omega

set_option maxHeartbeats 1000000 in
/-- The event at height `y`. -/
theorem mid_event (hC : Col X Lold ins EV) {y : Int}
    (m : Mid g X Lold done ins EV lo hi H Lpre Q out V (y - 1) yv ws) {prev : P} (hprev : V ≠ 0 → prev = (X, yv)) :
    (∃ lo' hi' H' Lpre' Q' out', stepAt g X ((X, y), totQ y ws) V prev (lo ++ hi) Q out =
        .ok (lo' ++ hi', Q', out', hi'.head?) ∧
      Mid g X Lold done ins EV lo' hi' H' Lpre' Q' out' (V + (totQ y ws).v) y y
        (ws.filter (fun w => decide (y < w.1.2))) ∧ Ext X out out' ∧ hi'.length ≤ hi.length ∧
      ((∃ e ∈ hi, e.eval X = y) → hi'.length < hi.length) ∧
      ∃ c0 c1 c2, lo' = lo ++ news X y (lastc 0 lo) c0 c1 c2 ∧ Lpre' = Lpre ++ grpAt X Lold y ∧ ∀ (O : Type) (F : Fn C O) (r : List O),
        stepAt F X ((X, y), totQ y ws) V prev (lo ++ hi) Q r = .ok (lo' ++ hi', Q', evOut F X y V prev (lastc 0 Lpre) (lastc 0 lo)
          (if isX X Lold y then [] else grpAt X Lold y) c0 c1 c2 r, hi'.head?)) ∨
    (stepAt g X ((X, y), totQ y ws) V prev (lo ++ hi) Q out = .error .precision ∧ ¬ EV) := by
  have hsH : H.Pairwise (fun a b => a.eval X ≤ b.eval X) := by
    have := hC.sorted
    rw [m.split] at this
    exact (List.pairwise_append.1 this).2.1.imp (fun h => by omega)
  have sp := split3 (fun e : El C => e.eval X) hsH y
  have hHlt : H.filter (fun e => decide (e.eval X < y)) = [] := by
    rw [List.filter_eq_nil_iff]; intro e he; have := m.H_gt e he; simp; omega
  rw [hHlt, List.nil_append] at sp
  generalize hgd : H.filter (fun e => decide (e.eval X = y)) = grp at sp
  generalize hHd : H.filter (fun e => decide (y < e.eval X)) = H' at sp
  have hg : ∀ e ∈ grp, e.eval X = y := by
    intro e he; rw [← hgd] at he; simpa using (List.mem_filter.1 he).2
  have hH' : ∀ e ∈ H', y < e.eval X := by
    intro e he; rw [← hHd] at he; simpa using (List.mem_filter.1 he).2
  have hlt : ltAt X Lold y = Lpre := by
    unfold ltAt
    rw [m.split, List.filter_append, hHlt, List.filter_eq_self.2, List.append_nil]
    intro e he; have := m.pre_le e he; simp; omega
  have hgr : grpAt X Lold y = grp := by
    unfold grpAt
    rw [m.split, List.filter_append, hgd, List.filter_eq_nil_iff.2, List.nil_append]
    intro e he; have := m.pre_le e he; simp; omega
  have hgl : isX X Lold y = decide (2 ≤ grp.length) := by unfold isX; rw [hgr]
  have hgs : ∀ e ∈ grp, Slope e := fun e he => hC.slope e (by rw [m.split, sp]; simp [he])
  have hgd' : grp.Pairwise (fun a b => b.rise < a.rise) := by
    have h1 : grp.Pairwise (fun a b => a.eval X < b.eval X ∨ (a.eval X = b.eval X ∧ b.rise < a.rise)) := by
      have := hC.sorted
      rw [← hgr]; exact this.sublist List.filter_sublist
    refine List.Pairwise.imp_of_mem ?_ h1
    intro a b ha hb h
    have := hg a ha; have := hg b hb; omega
  -- names for the counts
  have hb0 := m.cnt
  generalize hbelow : lastc 0 lo = below at hb0
  generalize hbb : lastc 0 Lpre = b at hb0
  have hcq : cq X Lold y = crossQ b grp := by unfold cq; rw [hlt, hgr, hbb]
  have htot := m.tot y (by omega)
  rw [hcq] at htot
  have csum := crossQ_sum b hgs hg hgd'
  have cray := crossQ_rays b hgs hg hgd'
  have cdiag := crossQ_diag b hgs hg hgd'
  have cv := crossQ_v b grp
  generalize ha : crossQ b grp = a at htot csum cray cdiag cv
  have hbal := hC.balanced y
  generalize hd : totQ y ins = d at htot hbal
  -- the list splits at the point
  have hloS : ∀ e ∈ lo, e.eval X < y := fun e he => by have := m.lo_le e he; omega
  have hhiL : ∀ e ∈ hi, e ∈ Lold ∧ y ≤ e.eval X := by
    intro e he
    rw [m.hi_eq] at he
    have h1 := (List.mem_filter.1 he).1
    exact ⟨by rw [m.split]; simp [h1], by have := m.H_gt e h1; omega⟩
  have hlk : lookUp X false y (lo ++ hi) = (lo, hi) := by
    refine lookUp_false (fun e he => ?_) hloS (fun e he => (hhiL e he).2)
    rcases List.mem_append.1 he with h | h
    · exact m.slope e h
    · exact hC.slope e (hhiL e h).1
  -- the vertical edges
  obtain ⟨out1, ho1, ho1r, ho1b, ho1e⟩ : ∃ out1,
      out1 = (if V ≠ 0 then emit g (emit g out b below prev 2 false) b below (X, y) 2 true else out) ∧
      oRays out1 = oRays out ∧
      (∀ q, bal out1 q = bal out q + (if (X, yv) = q then -(gi g below - gi g b) else 0) +
        (if (X, y) = q then gi g below - gi g b else 0)) ∧ Ext X out out1 := by
    refine ⟨_, rfl, ?_, ?_, ?_⟩
    · split_ifs
      · rw [emit_rays_vert, emit_rays_vert]
      · rfl
    · intro q
      by_cases c : V ≠ 0
      · rw [if_pos c, emit_bal, emit_bal, hprev c]
        simp only [sgn]
        split_ifs <;> simp_all
      · rw [if_neg c]
        push Not at c
        rw [c, sub_zero] at hb0
        rw [hb0]; simp
    · by_cases c : V ≠ 0
      · rw [if_pos c]
        refine Ext.trans ?_ (emit_ext g _ b below (X, y) 2 true (by simp))
        have := emit_ext g out b below prev 2 false (by simp)
        rwa [hprev c] at this ⊢
      · rw [if_neg c]; exact Ext.refl _ _
  have hhi' : hi.length = (if isX X Lold y then 0 else grp.length) +
      (H'.filter (fun e => !isX X Lold (e.eval X))).length := by
    rw [m.hi_eq, sp, List.filter_append, List.length_append]
    congr 1
    by_cases c : isX X Lold y = true
    · rw [if_pos c, List.filter_eq_nil_iff.2]; rfl
      intro e he; rw [hg e he, c]; simp
    · rw [if_neg c, List.filter_eq_self.2]
      intro e he; rw [hg e he]; simpa using c
  unfold stepAt
  simp only [hlk, countBelow_eq, hbelow, hb0]
  rw [← ho1]
  rcases end_spec hC m (out1 := out1) sp hg hH' hgl b with ⟨at_, Q1, out2, e1, ed, e3, e4, e5⟩ | ⟨e1, e2⟩
  swap
  · right; rw [e1]; exact ⟨rfl, e2⟩
  rw [e1]
  simp only
  have hatn := ed.atn
  have hatz := ed.atz
  have hatp := ed.atp
  rw [ha] at hatn hatz hatp
  -- the new counts
  have hc0 : V + (totQ y ws).n + at_.n = below + (d.n + a.n) := by
    have : below = b + V := by rw [← hb0]; abel
    rw [htot, hatn, this]
    cases hx : isX X Lold y <;> simp [Quad.add] <;> abel
  have hc1 : V + (totQ y ws).n + (totQ y ws).z + at_.z = below + (d.n + a.n) + (d.z + a.z) := by
    have : below = b + V := by rw [← hb0]; abel
    rw [htot, hatz, this]
    cases hx : isX X Lold y <;> simp [Quad.add] <;> abel
  have hc2 : V + (totQ y ws).n + (totQ y ws).z + (totQ y ws).p + at_.p =
      below + (d.n + a.n) + (d.z + a.z) + (d.p + a.p) := by
    have : below = b + V := by rw [← hb0]; abel
    rw [htot, hatp, this]
    cases hx : isX X Lold y <;> simp [Quad.add] <;> abel
  have hv : (totQ y ws).v = d.v := by
    rw [htot]; cases hx : isX X Lold y <;> simp [Quad.add, cv]
  rw [hc0, hc1, hc2]
  generalize hC0 : below + (d.n + a.n) = c0
  generalize hC1 : c0 + (d.z + a.z) = c1
  generalize hC2 : c1 + (d.p + a.p) = c2
  have hHs : ∀ e ∈ H'.filter (fun e => !isX X Lold (e.eval X)), e ∈ Lold ∧ y < e.eval X := by
    intro e he
    have h1 := (List.mem_filter.1 he).1
    exact ⟨by rw [m.split, sp]; simp [h1], hH' e h1⟩
  have hsl : ∀ e ∈ lo ++ H'.filter (fun e => !isX X Lold (e.eval X)), Slope e := by
    intro e he
    rcases List.mem_append.1 he with h | h
    · exact m.slope e h
    · exact hC.slope e (hHs e h).1
  have hev : EV → ∀ e ∈ news X y below c0 c1 c2, EvenEl e := by
    intro hE e he
    obtain ⟨h1, h2, h3⟩ := mem_news he
    intro hr
    have hl : e.line.2 = y - e.rise * X := by unfold El.line lineOf; simp [h1, h2]
    have key : ∀ r : Int, (r = -1 ∨ r = 1) → (∃ f ∈ grp, f.rise = r) → (X + y) % 2 = 0 := by
      rintro r hr ⟨f, hf, hfr⟩
      have hfe := hC.evenL hE f (by rw [m.split, sp]; simp [hf]) (by omega)
      rw [line_of_eval (hg f hf)] at hfe
      unfold lineOf at hfe
      simp only [hfr] at hfe
      rcases hr with rfl | rfl <;> omega
    have keyI : ∀ v ∈ ins, v.1.2 = y → (v.2.n ≠ 0 ∨ v.2.p ≠ 0) → (X + y) % 2 = 0 := by
      intro v hv hvy hne
      have := hC.evenI hE v hv hne
      rw [hC.insx v hv, hvy] at this; exact this
    have hpar : (X + y) % 2 = 0 := by
      rcases h3 with ⟨_, h4⟩ | h3 | ⟨_, h4⟩
      · have : d.n + a.n ≠ 0 := by
          intro h; apply h4; rw [← hC0, h, add_zero]
        by_cases ca : a.n = 0
        · have cd : d.n ≠ 0 := by rwa [ca, add_zero] at this
          rw [← hd] at cd
          obtain ⟨v, hv1, hv2⟩ := list_sum_ne_zero cd
          obtain ⟨v, hv3, rfl⟩ := List.mem_map.1 hv1
          have hv4 := List.mem_filter.1 hv3
          exact keyI v hv4.1 (by simpa using hv4.2) (Or.inl hv2)
        · exact key (-1) (Or.inl rfl) (cdiag.1 ca)
      · exact absurd h3 hr
      · have : d.p + a.p ≠ 0 := by
          intro h; apply h4; rw [← hC2, h, add_zero]
        by_cases ca : a.p = 0
        · have cd : d.p ≠ 0 := by rwa [ca, add_zero] at this
          rw [← hd] at cd
          obtain ⟨v, hv1, hv2⟩ := list_sum_ne_zero cd
          obtain ⟨v, hv3, rfl⟩ := List.mem_map.1 hv1
          have hv4 := List.mem_filter.1 hv3
          exact keyI v hv4.1 (by simpa using hv4.2) (Or.inr hv2)
        · exact key 1 (Or.inr rfl) (cdiag.2 ca)
    rw [hl]
    have : e.rise = -1 ∨ e.rise = 1 := by tauto
    rcases this with h | h <;> rw [h] <;> omega
  rcases start3 g (b := below) (c0 := c0) (c1 := c1) (c2 := c2) out2 hsl hloS (fun e he => (hHs e he).2) e3 e4 e5 with
    ⟨Q3, Q4, Q5, s1, s2, s3, s4, s5, s6⟩ | ⟨s1, s2⟩
  swap
  · right
    constructor
    · rcases s1 with s1 | ⟨Q3, s1, t1⟩ | ⟨Q3, Q4, s1, t1, u1⟩
      · rw [s1]
      · rw [s1]; simp only; rw [t1]
      · rw [s1]; simp only; rw [t1]; simp only; rw [u1]
    · intro hE
      refine s2 ⟨fun e he => ?_, hev hE⟩
      rcases List.mem_append.1 he with h | h
      · exact m.even hE e h
      · exact hC.evenL hE e (hHs e h).1
  left
  rw [s1]; simp only; rw [s2]; simp only; rw [s3]; simp only
  refine ⟨lo ++ news X y below c0 c1 c2, H'.filter (fun e => !isX X Lold (e.eval X)), H', Lpre ++ grp, Q5,
    emit g (emit g (emit g out2 below c0 (X, y) (-1) false) c0 c1 (X, y) 0 false) c1 c2 (X, y) 1 false,
    ?_, ?_, ?_, ?_, ?_, c0, c1, c2, rfl, by rw [hgr], ?_⟩
  · congr 2; unfold news; simp
  · have hlast : lastc 0 (lo ++ news X y below c0 c1 c2) = c2 := by rw [lastc_append, hbelow, lastc_news]
    have hlp : lastc 0 (Lpre ++ grp) = lastc b grp := by rw [lastc_append, hbb]
    have hcnt : c2 - (V + (totQ y ws).v) = lastc b grp := by
      have h1 : lastc b grp = b + (a.n + a.z + a.p) := by rw [csum]; abel
      rw [h1, hv, ← hbal, ← hC2, ← hC1, ← hC0, ← hb0]; abel
    refine { split := by rw [m.split, sp]; simp, hi_eq := rfl, pre_le := ?_, H_gt := hH', lo_le := ?_, ws_gt := ?_
             ws_sorted := m.ws_sorted.sublist List.filter_sublist, slope := ?_, orig := ?_, sorted := ?_
             chain := ?_, qsorted := s5, qgt := s6, cnt := by rw [hlast, hlp, hcnt], rin := ?_, rout := ?_
             bal0 := ?_, balX := ?_, tot := ?_, coverI := ?_, coverX := ?_, even := ?_, vsum := ?_ }
    · intro e he
      rcases List.mem_append.1 he with h | h
      · have := m.pre_le e h; omega
      · exact le_of_eq (hg e h)
    · intro e he
      rcases List.mem_append.1 he with h | h
      · have := m.lo_le e h; omega
      · obtain ⟨h1, h2, _⟩ := mem_news h
        unfold El.eval; rw [h1, h2]; simp
    · intro w hw
      have := List.mem_filter.1 hw
      exact ⟨(m.ws_gt w this.1).1, by simpa using this.2⟩
    · intro e he
      rcases List.mem_append.1 he with h | h
      · exact m.slope e h
      · obtain ⟨_, _, h3⟩ := mem_news h
        unfold Slope; tauto
    · intro e he
      rcases List.mem_append.1 he with h | h
      · exact m.orig e h
      · obtain ⟨h1, _⟩ := mem_news h
        omega
    · have hold : (lo ++ H'.filter (fun e => !isX X Lold (e.eval X))).Pairwise (LtA X) := by
        refine m.sorted.sublist ((List.Sublist.refl lo).append ?_)
        rw [m.hi_eq, sp, List.filter_append]
        exact List.sublist_append_right _ _
      obtain ⟨p1, p2, p3⟩ := List.pairwise_append.1 hold
      have hnv : ∀ e ∈ news X y below c0 c1 c2, e.eval X = y := by
        intro e he
        obtain ⟨h1, h2, _⟩ := mem_news he
        unfold El.eval; rw [h1, h2]; simp
      rw [List.pairwise_append]
      refine ⟨?_, p2, ?_⟩
      · rw [List.pairwise_append]
        refine ⟨p1, news_sorted _ _ _ _ _ _, ?_⟩
        intro e he f hf; left; rw [hnv f hf]; exact hloS e he
      · intro e he f hf
        rcases List.mem_append.1 he with h | h
        · exact p3 e h f hf
        · left; rw [hnv e h]; exact (hHs f hf).2
    · exact s4
    · intro f
      rw [m.rin f, rays_split f ins, rays_at f hC.insx, hd, deltas_append, sumOn_append, hbelow, sumOn_news, hlp]
      have h1 := cray f
      have h2 : sumOn f (deltas id b H) = sumOn f (qrays (X, y) a) + sumOn f (deltas id (lastc b grp) H') := by
        rw [sp, deltas_append, sumOn_append, h1]
      rw [hbb, h2]
      simp only [qrays, sumOn_cons, sumOn_nil, id]
      have k0 : c0 - below = d.n + a.n := by rw [← hC0]; abel
      have k1 : c1 - c0 = d.z + a.z := by rw [← hC1]; abel
      have k2 : c2 - c1 = d.p + a.p := by rw [← hC2]; abel
      rw [k0, k1, k2]
      split_ifs <;> abel
    · intro f
      rw [emit_rays _ _ _ _ _ _ _ _ (by decide), emit_rays _ _ _ _ _ _ _ _ (by decide),
        emit_rays _ _ _ _ _ _ _ _ (by decide), ed.rays f, ho1r, m.rout f, deltas_append, sumOn_append, hbelow,
        sumOn_news, hlp, hbb]
      have h2 : sumOn (fun l => f l && !isX X Lold (atX l X)) (deltas (gi g) b H) =
          (if isX X Lold y then 0 else sumOn f (deltas (gi g) b grp)) +
          sumOn (fun l => f l && !isX X Lold (atX l X)) (deltas (gi g) (lastc b grp) H') := by
        rw [sp, deltas_append, sumOn_append]
        congr 1
        by_cases c : isX X Lold y = true
        · rw [if_pos c, sumOn_deltas_none]
          intro e he; rw [atX_line, hg e he, c]; simp
        · rw [if_neg c]
          have c' : isX X Lold y = false := by simpa using c
          clear hgd sp hgr hgl hgs hgd' hcq csum cray cdiag cv ed hlp hcnt hhi' e1 ha htot
          generalize b = bb
          induction grp generalizing bb with
          | nil => rfl
          | cons e grp ih =>
            simp only [deltas, sumOn_cons]
            rw [ih (fun e he => hg e (by simp [he])), atX_line, hg e (by simp), c']
            simp
      rw [h2]
      have hs1 : sgn false = 1 := rfl
      rw [hs1]
      simp only [one_mul]
      ring
    · intro pt hpt
      have hne : ∀ z, (X, z) ≠ pt := fun z h => hpt (by rw [← h])
      rw [emit_bal, emit_bal, emit_bal, ed.bal, ho1b, m.bal0 pt hpt]
      simp [hne]
    · intro z
      rw [emit_bal, emit_bal, emit_bal, ed.bal, ho1b, m.balX z, hlast, hlp, hbelow, hbb]
      have h2 : sumOn (fun l => decide (atX l X = z)) (deltas (gi g) b H) =
          (if z = y then gi g (lastc b grp) - gi g b else 0) +
          sumOn (fun l => decide (atX l X = z)) (deltas (gi g) (lastc b grp) H') := by
        rw [sp, deltas_append, sumOn_append]
        congr 1
        by_cases c : z = y
        · rw [if_pos c, sumOn_deltas_all]
          intro e he; rw [atX_line, hg e he, c]; simp
        · rw [if_neg c, sumOn_deltas_none]
          intro e he; rw [atX_line, hg e he]; simp; exact fun h => c h.symm
      rw [h2]
      simp only [Prod.mk.injEq, true_and]
      have hs1 : sgn false = 1 := rfl
      rw [hs1]
      exact bal_arith z y yv (isX X Lold) _ _ _ _ _ _ _
    · intro z hz
      rw [totQ_filter_gt hz]; exact m.tot z (by omega)
    · intro v hv hz
      obtain ⟨w, hw1, hw2⟩ := m.coverI v hv (by omega)
      exact ⟨w, List.mem_filter.2 ⟨hw1, by simp; omega⟩, hw2⟩
    · intro z hz hx
      obtain ⟨w, hw1, hw2⟩ := m.coverX z (by omega) hx
      exact ⟨w, List.mem_filter.2 ⟨hw1, by simp; omega⟩, hw2⟩
    · intro hE e he
      rcases List.mem_append.1 he with h | h
      · exact m.even hE e h
      · exact hev hE e h
    · have := m.vsum
      rw [vsum_split (y := y) (fun w hw => by have := (m.ws_gt w hw).2; omega)] at this
      rw [← this]; abel
  · refine (ho1e.trans ed.ext).trans ?_
    refine Ext.trans (emit_ext g out2 below c0 (X, y) (-1) false (by simp)) ?_
    refine Ext.trans (emit_ext g _ c0 c1 (X, y) 0 false (by simp)) ?_
    exact emit_ext g _ c1 c2 (X, y) 1 false (by simp)
  · omega
  · rintro ⟨e, he, hey⟩
    rw [m.hi_eq] at he
    have h1 := List.mem_filter.1 he
    have h2 : e ∈ grp := by rw [← hgd]; exact List.mem_filter.2 ⟨h1.1, by simpa using hey⟩
    have h3 : isX X Lold y = false := by have := h1.2; rw [hey] at this; simpa using this
    have := List.length_pos_of_mem h2
    rw [h3] at hhi'
    simp at hhi'
    omega
  · intro O F r
    have hhg : hi = (if isX X Lold y then [] else grp) ++ H'.filter (fun e => !isX X Lold (e.eval X)) := by
      rw [m.hi_eq, sp, List.filter_append]
      congr 1
      by_cases c : isX X Lold y = true
      · rw [if_pos c, List.filter_eq_nil_iff.2]
        intro e he; rw [hg e he, c]; simp
      · rw [if_neg c, List.filter_eq_self.2]
        intro e he; rw [hg e he]; simpa using c
    have hgx : ∀ e ∈ (if isX X Lold y then [] else grp), e.eval X = y ∧ e.x < X := by
      intro e he
      have he' : e ∈ grp := by
        by_cases c : isX X Lold y = true
        · rw [if_pos c] at he; simp at he
        · rwa [if_neg c] at he
      exact ⟨hg e he', hC.orig e (by rw [m.split, sp]; simp [he'])⟩
    have eo := fun r' => endOut_eq F (if isX X Lold y then [] else grp) (H'.filter (fun e => !isX X Lold (e.eval X))) b r' hgx
      (fun e he => hH' e (List.mem_filter.1 he).1)
    rw [← hhg] at eo
    rw [endEdges_any (opFn g) F _ _ _ _ _ _ _ _ _ e1, eo]
    simp only
    rw [hc0, hc1, hc2, hC0, hC1, hC2, startEdge_any (opFn g) F s1]
    simp only
    rw [startEdge_any (opFn g) F s2]
    simp only
    rw [startEdge_any (opFn g) F s3]
    simp only
    unfold evOut news
    rw [hgr]
    simp

end Verif.Deg45
