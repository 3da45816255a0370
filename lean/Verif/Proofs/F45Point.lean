import Verif.Proofs.F45Step
/-!
# The 45-degree formation follows the formation at any angle: a point of a column
-/
namespace Verif.F45
open Verif.ArbForm Verif.Arb
open Verif.Contains (lessPoint)
open Verif.Deg45 (V45 Quad)
open Verif.Set45 (VC)

/-- The states of the two formations within a column. -/
structure ER (E : List VC) (sd : List (V × Nat)) (s' : Form45.ES) (s : ES) : Prop where
  evs : s'.evs = todo E s.evs
  H : HR s'.H s.H
  out : List.Forall₂ PR s'.out s.out
  els : s'.els = s.els.map phi
  vt : s'.vt = s.vt
  vc : s'.vc = s.vc.2
  rm : ∀ i a, sd[i]? = some a → (i ∈ s'.rm ↔ a.1.1 ∈ s.rm)
  nd : s'.rm.Nodup

theorem holeUp_sim {E : List VC} {D : List V} (d : Der E D) {dn : Pt → Bool} {x : Int} {sd : List (V × Nat)} (hc : Col D x sd) {s' : Form45.ES} {s t : ES}
    (h : ER E sd s' s) (hE : Events D dn s.evs) {i : Nat} (hs : holeUp x sd i s = some t) :
    ∃ t', Form45.holeUp x (sd.map phi) i s' = some t' ∧ ER E sd t' t := by
  unfold holeUp at hs
  unfold Form45.holeUp
  rw [h.vt]
  rcases hv : s.vt with _ | g
  · rw [hv] at hs
    cases hs
    exact ⟨s', rfl, h⟩
  · rw [hv] at hs
    dsimp only at hs ⊢
    rw [h.vc]
    by_cases c : s.vc.2 ≠ 0
    · rw [if_pos c] at hs ⊢
      cases hs
      exact ⟨s', rfl, h⟩
    · rw [if_neg c] at hs ⊢
      have hadd : ∀ t, (do let a ← sd[i]?; some { s with H := s.H.addHole a.2 g, vt := none }) = some t →
          ∃ t', (do let a ← (sd.map phi)[i]?; some { s' with H := s'.H.addHole a.2 g, vt := none }) = some t' ∧ ER E sd t' t := by
        intro t hs
        rw [List.getElem?_map]
        rcases ha : sd[i]? with _ | a
        · rw [ha] at hs; cases hs
        · rw [ha] at hs
          cases hs
          exact ⟨_, rfl, h.evs, h.H.addHole _ _, h.out, h.els, rfl, h.vc, h.rm, h.nd⟩
      rw [h.vc] at hadd
      rcases hev : s.evs with _ | ⟨ev, r⟩
      · rw [hev] at hs
        rw [h.evs, hev, todo_nil] at hadd ⊢
        exact hadd t hs
      · rw [hev] at hE
        obtain ⟨v, -, hvp, htd⟩ := todo_cons d hE
        rw [h.evs, hev, htd] at hadd ⊢
        rw [hev] at hs
        dsimp only at hs ⊢
        rw [hvp]
        by_cases cx : ev.1.1.1 ≠ x
        · rw [if_pos cx] at hs ⊢
          exact hadd t hs
        · rw [if_neg cx] at hs ⊢
          rcases ha : sd[i]? with _ | a
          · rw [ha] at hs; cases hs
          · have ha' : (sd.map phi)[i]? = some (phi a) := by rw [List.getElem?_map, ha]; rfl
            rw [ha] at hs hadd
            rw [ha'] at hadd ⊢
            obtain ⟨aD, aS⟩ := hc.mem (List.mem_of_getElem? ha)
            have h1 := oab_neg aS.nv ev.1.1
            have h2 := eval_Y aS.nv (d.oct _ aD) a.1.2 x
            push Not at cx
            rw [cx, ← h2, Int.cast_lt] at h1
            have h3 : decide (ev.1.1.2 ≥ Form45.eval (phi a).1 x) = decide (oab ev.1.1 a.1.1 ≠ -1) := by
              rw [Bool.eq_iff_iff, decide_eq_true_eq, decide_eq_true_eq, Ne, h1]
              unfold phi
              dsimp only
              omega
            simp only [Option.map_some, Option.bind_eq_bind, Option.bind_some] at hs hadd ⊢
            rw [h3]
            by_cases co : decide (oab ev.1.1 a.1.1 ≠ -1) = true
            · rw [if_pos co] at hs ⊢
              exact hadd t hs
            · rw [if_neg co] at hs ⊢
              cases hs
              exact ⟨s', rfl, h⟩

theorem _root_.Verif.Form45.holeUp_evs {x : Int} {sd : List (V45 × Nat)} {i : Nat} {s t : Form45.ES} (h : Form45.holeUp x sd i s = some t) : t.evs = s.evs := by
  unfold Form45.holeUp at h
  rcases hv : s.vt with _ | g
  · rw [hv] at h; cases h; rfl
  · rw [hv] at h
    dsimp only at h
    by_cases c : s.vc ≠ 0
    · rw [if_pos c] at h; cases h; rfl
    · rw [if_neg c] at h
      have hadd : (do let a ← sd[i]?; some { s with H := s.H.addHole a.2 g, vt := none }) = some t → t.evs = s.evs := by
        intro h
        rcases ha : sd[i]? with _ | a
        · rw [ha] at h; cases h
        · rw [ha] at h; cases h; rfl
      rcases hev : s.evs with _ | ⟨ev, r⟩
      · rw [hev] at h hadd
        exact hadd h
      · rw [hev] at h hadd
        dsimp only at h
        by_cases cx : ev.1.1 ≠ x
        · rw [if_pos cx] at h
          exact hadd h
        · rw [if_neg cx] at h
          rcases ha : sd[i]? with _ | a
          · rw [ha] at h; cases h
          · rw [ha] at h hadd
            simp only [Option.map_some, Option.bind_eq_bind, Option.bind_some] at h hadd
            by_cases co : decide (ev.1.2 ≥ Form45.eval a.1 x) = true
            · rw [if_pos co] at h
              exact hadd h
            · rw [if_neg co] at h
              cases h
              exact hev

theorem slotOf_mem {B : List (V × Nat)} (h : B.Pairwise (fun a b => erho a.1 ≠ erho b.1)) {a : V × Nat} (ha : a ∈ B) :
    Form45.slotOf (B.map phi) (erho a.1) = cslot a := by
  have : (B.map phi).filter (fun b => decide (b.1.rise = erho a.1)) = [phi a] := by
    rw [List.filter_map]
    have : B.filter ((fun b : V45 × Nat => decide (b.1.rise = erho a.1)) ∘ phi) = [a] := by
      induction B with
      | nil => simp at ha
      | cons b B ih =>
        obtain ⟨h1, h2⟩ := List.pairwise_cons.1 h
        rcases List.mem_cons.1 ha with rfl | ha
        · rw [List.filter_cons_of_pos (by simp [phi, erho]), List.filter_eq_nil_iff.2]
          intro c hc
          rw [Bool.not_eq_true]; exact decide_eq_false (Ne.symm (h1 c hc))
        · rw [List.filter_cons_of_neg (by rw [Bool.not_eq_true]; exact decide_eq_false (h1 a ha))]
          exact ih h2 ha
    rw [this]; rfl
  unfold Form45.slotOf
  rw [this]
  rfl

theorem slotOf_none {B : List (V × Nat)} {r : Int} (h : ∀ a ∈ B, erho a.1 ≠ r) : Form45.slotOf (B.map phi) r = (0, none) := by
  have : (B.map phi).filter (fun b => decide (b.1.rise = r)) = [] := by
    rw [List.filter_eq_nil_iff]
    intro c hc
    obtain ⟨a, ha, rfl⟩ := List.mem_map.1 hc
    rw [Bool.not_eq_true]; exact decide_eq_false (h a ha)
  unfold Form45.slotOf
  rw [this]
  rfl

/-- What the two formations look up at a point is the same. -/
theorem look_sim {E : List VC} {D : List V} (d : Der E D) (c : Clean D) {x : Int} {sd : List (V × Nat)} (hc : Col D x sd) {dn : Pt → Bool} {s : ES} {W : Option (V × Nat)}
    {p : Pt} {inc : List (Pt × Int)} {A B C : List (V × Nat)} {L : List V} {Wi : Option V} {Le : List V} (hh : Here D x sd dn s W p inc A B C L Wi Le) :
    ((sd.map phi).takeWhile (fun a => Form45.less x true a.1 ⟨p, 1, 0⟩)).length = A.length ∧
      (((sd.map phi).drop A.length).takeWhile (fun a => decide (Form45.eval a.1 x = p.2))) = B.map phi := by
  have hx := hh.px
  have hev : ∀ a ∈ sd, ((Form45.eval (phi a).1 x : Int) : ℚ) = Y a.1.1 x := fun a ha => eval_Y (hc.mem ha).2.nv (d.oct _ (hc.mem ha).1) _ _
  have hA : ∀ a ∈ A, Form45.eval (phi a).1 x < p.2 := by
    intro a ha
    have h1 := hh.below a ha
    rw [hx, ← hev a (by rw [hh.split]; simp [ha])] at h1
    exact_mod_cast h1
  have hC : ∀ a ∈ C, p.2 < Form45.eval (phi a).1 x := by
    intro a ha
    have h1 := hh.above a ha
    rw [hx, ← hev a (by rw [hh.split]; simp [ha])] at h1
    exact_mod_cast h1
  have hB : ∀ a ∈ B, Form45.eval (phi a).1 x = p.2 := by
    intro a ha
    have hs : a ∈ sd := by rw [hh.split]; simp [ha]
    have h1 := (end_at c.good hh.vtx (Has.evs (hc.mem hs).1) (by rw [hx]; exact (hc.mem hs).2)).2 (hh.at_ a ha)
    rw [hx, ← hev a hs] at h1
    exact_mod_cast h1
  have hp : ∀ r k, Form45.eval ⟨p, r, k⟩ x = p.2 := by
    intro r k
    unfold Form45.eval
    dsimp only
    rw [hx]; simp
  constructor
  · have h1 := tw_append (q := fun a : V45 × Nat => Form45.less x true a.1 ⟨p, 1, 0⟩) (A := A.map phi) (B := (B ++ C).map phi) (by
      intro a ha
      obtain ⟨b, hb, rfl⟩ := List.mem_map.1 ha
      unfold Form45.less
      rw [hp, if_pos (hA b hb)]) (by
      intro a ha
      obtain ⟨b, hb, rfl⟩ := List.mem_map.1 ha
      unfold Form45.less
      rw [hp]
      rcases List.mem_append.1 hb with g | g
      · rw [hB b g, if_neg (_root_.lt_irrefl _), if_pos rfl]
        have hs : b ∈ sd := by rw [hh.split]; simp [g]
        have h2 := rho_nv (hc.mem hs).2.nv
        simp only [if_true, phi, gt_iff_lt, decide_eq_false_iff_not]
        omega
      · have h2 := hC b g
        rw [if_neg (by omega), if_neg (by omega)])
    rw [← List.map_append, ← hh.split] at h1
    rw [h1.1, List.length_map]
  · have h0 : (sd.map phi).drop A.length = B.map phi ++ C.map phi := by
      rw [hh.split, List.map_append, List.drop_append_of_le_length (by simp), List.map_append]
      simp
    rw [h0]
    exact (tw_append (q := fun a : V45 × Nat => decide (Form45.eval a.1 x = p.2)) (by
      intro a ha
      obtain ⟨b, hb, rfl⟩ := List.mem_map.1 ha
      simpa using hB b hb) (by
      intro a ha
      obtain ⟨b, hb, rfl⟩ := List.mem_map.1 ha
      have := hC b hb
      simp only [decide_eq_false_iff_not]
      omega)).1

/-- The slot of a slope in `counts` and `tails`. -/
def cAt (s' : Form45.ES) (bl : List (V45 × Nat)) (r : Int) : CSlot := if r = 2 then Form45.vertSlot s' else Form45.slotOf bl r

/-- The slot of a slope in `incoming`. -/
def iAt (q : Quad Int) (s' : Form45.ES) (bl : List (V45 × Nat)) (r : Int) : Int × Int := ((if r = 2 then q.v * -1 else qat q r) + (cAt s' bl r).1, r)

theorem slots_sim {E : List VC} {D : List V} (d : Der E D) (c : Clean D) {x : Int} {sd : List (V × Nat)} (hc : Col D x sd) {dn : Pt → Bool} {s : ES} {W : Option (V × Nat)}
    {p : Pt} {inc : List (Pt × Int)} {A B C : List (V × Nat)} {L : List V} {Wi : Option V} {Le : List V} (hh : Here D x sd dn s W p inc A B C L Wi Le)
    {s' : Form45.ES} (hvt : s'.vt = s.vt) (hvc : s'.vc = s.vc.2) {v : VC} (hv : v ∈ E) (hvp : v.1 = p) :
    nzs [cAt s' (B.map phi) (-1), cAt s' (B.map phi) 0, cAt s' (B.map phi) 1, cAt s' (B.map phi) 2] = (isort lessInc B ++ W.toList).map cslot ∧
    nzs [iAt v.2 s' (B.map phi) (-1), iAt v.2 s' (B.map phi) 0, iAt v.2 s' (B.map phi) 1, iAt v.2 s' (B.map phi) 2] = ren (rho p) (inc.map islot) := by
  have hx := hh.px
  have hBp := isort_perm lessInc B
  have hBm : ∀ a ∈ isort lessInc B, a ∈ sd ∧ a.1.1.2 = p := fun a ha =>
    ⟨by rw [hh.split]; simp [hBp.mem_iff.1 ha], hh.at_ a (hBp.mem_iff.1 ha)⟩
  have hBr : ∀ a ∈ isort lessInc B, erho a.1 = -1 ∨ erho a.1 = 0 ∨ erho a.1 = 1 := fun a ha => rho_nv (hc.mem (hBm a ha).1).2.nv
  have hWr : ∀ a, W = some a → erho a.1 = 2 := by
    intro a ha
    obtain ⟨e, -, h1, -, h2⟩ := hh.bot (by rw [ha]; simp)
    rw [ha, Option.map_some, Option.some_inj] at h2
    unfold erho
    rw [h2, rho_two]
    exact h1.symm
  have hBs : (isort lessInc B).Pairwise (fun a b => erho a.1 < erho b.1) := by
    refine List.Pairwise.imp_of_mem ?_ hh.bsrt
    intro a b ha hb hl
    obtain ⟨a1, a2⟩ := hBm a ha
    obtain ⟨b1, b2⟩ := hBm b hb
    have n1 := (hc.mem a1).2.nv
    have n2 := (hc.mem b1).2.nv
    have := lt_end n2 n1 (by rw [a2, b2]) hl
    rw [slope_rho n1 (d.oct _ (hc.mem a1).1), slope_rho n2 (d.oct _ (hc.mem b1).1)] at this
    exact_mod_cast this
  have hMs : (isort lessInc B ++ W.toList).Pairwise (fun a b => erho a.1 < erho b.1) := by
    rw [List.pairwise_append]
    refine ⟨hBs, by cases W <;> simp, ?_⟩
    intro a ha b hb
    have h1 := hBr a ha
    have h2 := hWr b (by simpa using hb)
    omega
  have hBne : B.Pairwise (fun a b => erho a.1 ≠ erho b.1) := by
    refine (hBp.symm.pairwise_iff (R := fun a b : V × Nat => erho a.1 ≠ erho b.1) (fun h => Ne.symm h)).2 ?_
    exact hBs.imp (fun h => ne_of_lt h)
  have f1 : ∀ a ∈ isort lessInc B ++ W.toList, cAt s' (B.map phi) (erho a.1) = cslot a := by
    intro a ha
    unfold cAt
    rcases List.mem_append.1 ha with h | h
    · have := hBr a h
      rw [if_neg (by omega)]
      exact slotOf_mem hBne (hBp.mem_iff.1 h)
    · have hW : W = some a := by simpa using h
      obtain ⟨g1, g2⟩ := hh.wcar a hW
      rw [if_pos (hWr a hW)]
      unfold Form45.vertSlot
      rw [hvt, g1, hvc, g2]
      dsimp only
      rw [neg_neg]
  have f0 : ∀ r, (r = -1 ∨ r = 0 ∨ r = 1 ∨ r = 2) → (∀ a ∈ isort lessInc B ++ W.toList, erho a.1 ≠ r) → (cAt s' (B.map phi) r).1 = 0 := by
    intro r _ hr
    unfold cAt
    by_cases h2 : r = 2
    · rw [if_pos h2]
      have hW : W = none := by
        rcases hW : W with _ | a
        · rfl
        · have := hr a (by rw [hW]; simp)
          rw [hWr a hW] at this
          exact absurd h2.symm this
      unfold Form45.vertSlot
      rw [hvt, hvc]
      rcases hs : s.vt with _ | h
      · rfl
      · dsimp only
        rw [(hh.wno h hW hs).1, neg_zero]
    · rw [if_neg h2, slotOf_none (fun a ha => hr a (List.mem_append_left _ (hBp.mem_iff.2 ha)))]
  refine ⟨slots4 (fun a : V × Nat => erho a.1) cslot (cAt s' (B.map phi)) _ hMs (fun a _ => rho_cases _ _) (fun a ha => Colors.ne hh.fcol a ha) f1 f0, ?_⟩
  -- the ends
  have hLe : Le.Pairwise (fun a b => erho a < erho b) := by
    have h1 : ((isort lessInc B ++ W.toList).map Prod.fst).Pairwise (fun a b => erho a < erho b) := List.pairwise_map.2 hMs
    rw [hh.from_, List.pairwise_map] at h1
    exact h1
  have hC : ∀ r, (r = -1 ∨ r = 0 ∨ r = 1 ∨ r = 2) → (cAt s' (B.map phi) r).1 = if r = 2 then -sumE D p r else sumE D p r := by
    intro r hr
    rw [sumE_perm hh.ends]
    by_cases h : ∃ a ∈ isort lessInc B ++ W.toList, erho a.1 = r
    · obtain ⟨a, ha, rfl⟩ := h
      rw [f1 a ha]
      have h1 : a.1 ∈ (isort lessInc B ++ W.toList).map Prod.fst := List.mem_map.2 ⟨a, ha, rfl⟩
      rw [hh.from_] at h1
      obtain ⟨e, he, h2⟩ := List.mem_map.1 h1
      have h3 : erho a.1 = erho e := by rw [← h2]; rfl
      rw [h3, sum_pick (hLe.imp (fun h => ne_of_lt h)) he]
      show a.1.2 = _
      rw [← h2]
      dsimp only
      unfold sg
      have h4 : erho e = 2 ↔ e.1.1.1 = e.1.2.1 := by unfold erho; rw [rho_two, eq_comm]
      by_cases h5 : e.1.1.1 = e.1.2.1
      · rw [if_pos h5, if_pos (h4.2 h5)]
      · rw [if_neg h5, if_neg (fun h => h5 (h4.1 h))]
    · push Not at h
      rw [f0 r hr h, sum_none]
      · simp
      · intro e he
        have h1 : ((e.1, sg e) : V) ∈ (isort lessInc B ++ W.toList).map Prod.fst := by rw [hh.from_]; exact List.mem_map.2 ⟨e, he, rfl⟩
        obtain ⟨a, ha, h2⟩ := List.mem_map.1 h1
        have := h a ha
        rw [h2] at this
        exact this
  -- the starts
  have hSp : ∀ e ∈ L ++ Wi.toList, e ∈ D ∧ e.1.1 = p := by
    intro e he
    have := List.mem_filter.1 (hh.starts.mem_iff.1 he)
    exact ⟨this.1, by simpa using this.2⟩
  have hLr : ∀ e ∈ L, erho e = -1 ∨ erho e = 0 ∨ erho e = 1 := fun e he => rho_nv (hh.nv e he)
  have hVr : ∀ e, Wi = some e → erho e = 2 := by
    intro e he
    unfold erho
    rw [rho_two]
    exact (hh.vert e he).symm
  have hSs : (L ++ Wi.toList).Pairwise (fun a b => erho a < erho b) := by
    rw [List.pairwise_append]
    refine ⟨?_, by cases Wi <;> simp, ?_⟩
    · refine List.Pairwise.imp_of_mem ?_ hh.lsrt
      intro a b ha hb hl
      obtain ⟨a1, a2⟩ := hSp a (List.mem_append_left _ ha)
      obtain ⟨b1, b2⟩ := hSp b (List.mem_append_left _ hb)
      have := lt_start (hh.nv a ha) (hh.nv b hb) (by rw [a2, b2]) hl
      rw [slope_rho (hh.nv a ha) (d.oct _ a1), slope_rho (hh.nv b hb) (d.oct _ b1)] at this
      exact_mod_cast this
    · intro a ha b hb
      have h1 := hLr a ha
      have h2 := hVr b (by simpa using hb)
      omega
  have hI : ∀ r, (r = -1 ∨ r = 0 ∨ r = 1 ∨ r = 2) → iAt v.2 s' (B.map phi) r = (if r = 2 then -sumS D p r else sumS D p r, r) := by
    intro r hr
    have h1 := d.slot v hv r hr
    rw [hvp] at h1
    unfold iAt
    rw [hC r hr]
    congr 1
    by_cases h2 : r = 2
    · rw [if_pos h2, if_pos h2, if_pos h2]
      have : qat v.2 r = v.2.v := by rw [h2]; rfl
      rw [this] at h1
      omega
    · rw [if_neg h2, if_neg h2, if_neg h2]
      omega
  have hren : ren (rho p) (inc.map islot) = (L ++ Wi.toList).map (fun e => ((sg e, erho e) : Int × Int)) := by
    unfold ren
    rw [hh.inceq, List.map_map, List.map_map]
    apply List.map_congr_left
    intro e he
    simp only [Function.comp, islot, erho]
    rw [(hSp e he).2]
  rw [hren]
  refine slots4 erho (fun e => ((sg e, erho e) : Int × Int)) (iAt v.2 s' (B.map phi)) _ hSs (fun a _ => rho_cases _ _) ?_ ?_ ?_
  · intro e he
    have := c.unit e (hSp e he).1
    dsimp only
    unfold sg
    split_ifs <;> omega
  · intro e he
    rw [hI (erho e) (rho_cases _ _), sumS_perm hh.starts, sum_pick (hSs.imp (fun h => ne_of_lt h)) he]
    congr 1
    unfold sg
    have h4 : erho e = 2 ↔ e.1.1.1 = e.1.2.1 := by unfold erho; rw [rho_two, eq_comm]
    by_cases h5 : e.1.1.1 = e.1.2.1
    · rw [if_pos h5, if_pos (h4.2 h5)]
    · rw [if_neg h5, if_neg (fun h => h5 (h4.1 h))]
  · intro r hr hn
    rw [hI r hr, sumS_perm hh.starts, sum_none hn]
    simp

/-- What is carried upwards: a vertical edge or a closed hole. -/
def carried (o : Option Nat) (vc : Pt × Int) (p : Pt) : List (V × Nat) := match o with | some t => [(((vc.1, p), -vc.2), t)] | none => []

/-- A closed hole that is carried upwards. -/
def afloat (W : Option (V × Nat)) (o : Option Nat) (vc : Pt × Int) (p : Pt) : Option (V × Nat) :=
  match W, o with | none, some g => some (((vc.1, p), -vc.2), g) | _, _ => none

theorem onePoint_sim {E : List VC} {D : List V} (d : Der E D) (c : Clean D) {x : Int} {sd : List (V × Nat)} (hc : Col D x sd) {dn : Pt → Bool} {s : ES} {F : Option Nat}
    {W : Option (V × Nat)} (m : MidC D x sd dn s F W) (st : St D x sd dn s F W) {ev : V} {r : List V} (hev : s.evs = ev :: r) (hx : ev.1.1.1 = x)
    {s' : Form45.ES} (h : ER E sd s' s) {t : ES} (ht : onePoint x sd s = some t) :
    ∃ t', Form45.onePoint x (sd.map phi) s' = some t' ∧ ER E sd t' t ∧ t'.evs.length < s'.evs.length := by
  have hE : Events D dn (ev :: r) := hev ▸ m.ev
  obtain ⟨A, B, C, L, Wi, Le, hh, sp, N, F', e1, -⟩ := here c hc m st hev hx rfl
  have hone : onePoint x sd s = holeUp x sd (A.length + B.length) ⟨s.evs.dropWhile (fun e => decide (e.1.1 = ev.1.1)), sp.H, sp.out, sp.els, sp.ret, sp.rc,
      s.rm ++ B.map (fun a => a.1.1)⟩ := by
    have hp : ((x, ev.1.1.2) : Pt) = ev.1.1 := by rw [← hx]
    have hl := hh.len
    have hb := hh.block
    rw [hx] at hl
    unfold onePoint
    rw [hev] at e1 ⊢
    dsimp only
    rw [hp, hl, hb]
    rw [hx] at e1
    exact congrArg (fun o : Option PS => o.bind (fun q => holeUp x sd (A.length + B.length) ⟨(ev :: r).dropWhile (fun e => decide (e.1.1 = ev.1.1)), q.H, q.out, q.els, q.ret, q.rc,
      s.rm ++ B.map (fun a => a.1.1)⟩)) e1
  rw [hone] at ht
  obtain ⟨v, hvE, hvp, htd⟩ := todo_cons d hE
  have htd' : s'.evs = v :: todo E ((ev :: r).dropWhile (fun e => decide (e.1.1 = ev.1.1))) := by rw [h.evs, hev, htd]
  -- the vertices at the point
  have hsrt : (todo E (ev :: r)).Pairwise (fun v w => plt v.1 w.1) := d.srt.sublist List.filter_sublist
  rw [htd, List.pairwise_cons] at hsrt
  have htw := tw_append (q := fun e : VC => decide (e.1 = ev.1.1)) (A := [v]) (B := todo E ((ev :: r).dropWhile (fun e => decide (e.1.1 = ev.1.1)))) (by
    intro a ha
    rw [List.mem_singleton.1 ha]
    simpa using hvp) (by
    intro w hw
    have := hsrt.1 w hw
    rw [hvp] at this
    simp only [decide_eq_false_iff_not]
    intro hc
    rw [hc] at this
    unfold plt at this
    omega)
  have hq : Form45.total [v] = v.2 := by
    unfold Form45.total
    simp only [List.foldl_cons, List.foldl_nil, Quad.add]
    simp
  -- the point
  have e2 : processPoint ev.1.1 (isort lessInc B ++ carried s.vt s.vc ev.1.1) _ s.H s.out s.els = some sp := e1
  have hfrom : isort lessInc B ++ carried s.vt s.vc ev.1.1 = (isort lessInc B ++ W.toList) ++ (afloat W s.vt s.vc ev.1.1).toList := by
    rw [List.append_assoc]
    congr 1
    rcases hW : W with _ | a
    · cases s.vt <;> rfl
    · obtain ⟨g1, g2⟩ := hh.wcar a hW
      rw [g1, g2]
      unfold carried
      dsimp only
      rw [neg_neg, ← hh.wtop a hW]
      rfl
  rw [hfrom] at e2
  obtain ⟨inc, hinc⟩ : ∃ inc, inc = turnLast ev.1.1.1 ((isort (lessCount ev.1.1) ((s.evs.takeWhile (fun e => decide (e.1.1 = ev.1.1))).map (fun e => (e.1.2, e.2)))).filter
      (fun a => lessPoint ev.1.1 a.1)) := ⟨_, rfl⟩
  rw [← hinc] at hh e2
  have hF : ∀ f, afloat W s.vt s.vc ev.1.1 = some f → isort lessInc B ++ W.toList = [] ∧ f.1.2 = 0 ∧ isVertical f.1.1 = true ∧ tt D ev.1.1 = 1 ∧ inc ≠ [] := by
    intro f hf
    rcases hW : W with _ | a
    · rcases hs : s.vt with _ | g
      · rw [hW, hs] at hf; cases hf
      · rw [hW, hs] at hf
        obtain ⟨k1, k2⟩ := hh.wno g hW hs
        obtain ⟨k3, k4⟩ := hh.flt hW (by rw [hs]; simp)
        have : f = (((s.vc.1, ev.1.1), -s.vc.2), g) := (Option.some_inj.1 hf).symm
        rw [this]
        refine ⟨by rw [k3]; rfl, by dsimp only; rw [k1]; rfl, by unfold isVertical; dsimp only; rw [k2, hx]; simp, ?_, k4⟩
        rcases st with ⟨-, -, h3⟩ | ⟨a, h1, -⟩ | ⟨h, p0, h1, h2, h3, h4, h5, ev', r', h6, h7, h8, h9⟩
        · rw [hs] at h3; cases h3
        · rw [hW] at h1; cases h1
        · rw [hev] at h6
          obtain ⟨rfl, rfl⟩ := List.cons.inj h6
          exact h9
    · rw [hW] at hf
      unfold afloat at hf
      cases hf
  obtain ⟨z1, z2⟩ := slots_sim d c hc hh h.vt h.vc hvE hvp
  have hpend : pend [cAt s' (B.map phi) (-1), cAt s' (B.map phi) 0, cAt s' (B.map phi) 1, cAt s' (B.map phi) 2] = (afloat W s.vt s.vc ev.1.1).map Prod.snd := by
    unfold pend
    show (if (Form45.vertSlot s').1 = 0 then (Form45.vertSlot s').2 else none) = _
    unfold Form45.vertSlot
    rw [h.vt, h.vc]
    rcases hW : W with _ | a
    · rcases hs : s.vt with _ | g
      · rfl
      · dsimp only
        rw [(hh.wno g hW hs).1, if_pos (by rfl)]
        rfl
    · obtain ⟨g1, g2⟩ := hh.wcar a hW
      rw [g1, g2]
      dsimp only
      have := Colors.ne hh.fcol a (by rw [hW]; simp)
      rw [if_neg (by simpa using this)]
      rfl
  obtain ⟨sp', q1, q2⟩ := point_sim hh.fcol hh.icol hF hh.nlt hh.ol e2 (cs := [cAt s' (B.map phi) (-1), cAt s' (B.map phi) 0, cAt s' (B.map phi) 1, cAt s' (B.map phi) 2])
    (is := [iAt v.2 s' (B.map phi) (-1), iAt v.2 s' (B.map phi) 0, iAt v.2 s' (B.map phi) 1, iAt v.2 s' (B.map phi) 2]) rfl rfl z1 z2 hpend h.H h.out h.els
  obtain ⟨l1, l2⟩ := look_sim d c hc hh
  have hp : ((x, v.1.2) : Pt) = ev.1.1 := by rw [hvp, ← hx]
  have hone' : Form45.onePoint x (sd.map phi) s' = Form45.holeUp x (sd.map phi) (A.length + B.length)
      ⟨todo E ((ev :: r).dropWhile (fun e => decide (e.1.1 = ev.1.1))), sp'.H, sp'.out, sp'.els, sp'.ret, sp'.rc, s'.rm ++ (List.range B.length).map (· + A.length)⟩ := by
    unfold Form45.onePoint
    rw [htd']
    have hv2 : v.1.2 = ev.1.1.2 := by rw [hvp]
    simp only [hv2] at hp ⊢
    simp only [hp, l1, l2]
    have htw' : (v :: todo E ((ev :: r).dropWhile (fun e => decide (e.1.1 = ev.1.1)))).takeWhile (fun e => decide (e.1 = ev.1.1)) = [v] := htw.1
    have htw2 : (v :: todo E ((ev :: r).dropWhile (fun e => decide (e.1.1 = ev.1.1)))).dropWhile (fun e => decide (e.1 = ev.1.1)) =
      todo E ((ev :: r).dropWhile (fun e => decide (e.1.1 = ev.1.1))) := htw.2
    rw [htw', htw2, hq, List.length_map]
    exact congrArg (fun o : Option Form45.PS => o.bind (fun q => Form45.holeUp x (sd.map phi) (A.length + B.length)
      ⟨todo E ((ev :: r).dropWhile (fun e => decide (e.1.1 = ev.1.1))), q.H, q.out, q.els, q.ret, q.rc, s'.rm ++ (List.range B.length).map (· + A.length)⟩)) q1
  rw [hone']
  have hB : ∀ i a, sd[i]? = some a → (A.length ≤ i ∧ i < A.length + B.length ↔ a.1.1.2 = ev.1.1) := by
    intro i a ha
    have hs := List.mem_of_getElem? ha
    constructor
    · rintro ⟨k1, k2⟩
      rw [hh.split, List.getElem?_append_right k1, List.getElem?_append_left (by omega)] at ha
      exact hh.at_ a (List.mem_of_getElem? ha)
    · intro he
      have hy := (end_at c.good hh.vtx (Has.evs (hc.mem hs).1) (by rw [hh.px]; exact (hc.mem hs).2)).2 he
      by_contra hn
      rw [hh.split] at ha
      by_cases k1 : i < A.length
      · rw [List.getElem?_append_left k1] at ha
        have := hh.below a (List.mem_of_getElem? ha)
        rw [hy] at this
        exact _root_.lt_irrefl _ this
      · rw [List.getElem?_append_right (by omega), List.getElem?_append_right (by omega)] at ha
        have := hh.above a (List.mem_of_getElem? ha)
        rw [hy] at this
        exact _root_.lt_irrefl _ this
  have hin : ∀ i, i ∈ (List.range B.length).map (· + A.length) ↔ A.length ≤ i ∧ i < A.length + B.length := by
    intro i
    simp only [List.mem_map, List.mem_range]
    constructor
    · rintro ⟨k, hk, rfl⟩; omega
    · rintro ⟨k1, k2⟩; exact ⟨i - A.length, by omega, by omega⟩
  have her : ER E sd ⟨todo E ((ev :: r).dropWhile (fun e => decide (e.1.1 = ev.1.1))), sp'.H, sp'.out, sp'.els, sp'.ret, sp'.rc, s'.rm ++ (List.range B.length).map (· + A.length)⟩
      ⟨s.evs.dropWhile (fun e => decide (e.1.1 = ev.1.1)), sp.H, sp.out, sp.els, sp.ret, sp.rc, s.rm ++ B.map (fun a => a.1.1)⟩ := by
    refine ⟨by rw [hev], q2.H, q2.out, q2.els, q2.ret, q2.rc, ?_, ?_⟩
    · intro i a ha
      dsimp only
      rw [List.mem_append, List.mem_append, h.rm i a ha, hin, hB i a ha]
      refine or_congr_right ?_
      constructor
      · intro he
        have hs := List.mem_of_getElem? ha
        have hy := (end_at c.good hh.vtx (Has.evs (hc.mem hs).1) (by rw [hh.px]; exact (hc.mem hs).2)).2 he
        rw [hh.split] at hs
        rcases List.mem_append.1 hs with k | k
        · have := hh.below a k; rw [hy] at this; exact absurd this (_root_.lt_irrefl _)
        · rcases List.mem_append.1 k with k | k
          · exact List.mem_map.2 ⟨a, k, rfl⟩
          · have := hh.above a k; rw [hy] at this; exact absurd this (_root_.lt_irrefl _)
      · intro hb
        obtain ⟨b, hb, e⟩ := List.mem_map.1 hb
        rw [← e]; exact hh.at_ b hb
    · dsimp only
      rw [List.nodup_append]
      refine ⟨h.nd, List.nodup_range.map (fun a b => by simp), ?_⟩
      rintro i hi j hj rfl
      have hj := (hin i).1 hj
      obtain ⟨a, ha⟩ : ∃ a, sd[i]? = some a := by
        have : i < sd.length := by rw [hh.split]; simp; omega
        exact ⟨sd[i], List.getElem?_eq_getElem this⟩
      have h1 := (m.rm a (List.mem_of_getElem? ha)).1 ((h.rm i a ha).1 hi)
      rw [(hB i a ha).1 hj, hh.ndn] at h1
      cases h1
  have hn := hE.next.2.1
  rw [← hev] at hn
  obtain ⟨t', r1, r2⟩ := holeUp_sim d hc her hn ht
  refine ⟨t', r1, r2, ?_⟩
  have h1 := Form45.holeUp_evs r1
  rw [h1, htd']
  simp

end Verif.F45
