import Verif.Proofs.FormStep
/-!
# One point of the sweep: the state after it
-/
namespace Verif.ArbForm
open Verif.Arb Verif.Contains Verif.Spec Verif.Spec.Arb

theorem Here.top {D : List V} (c : Clean D) {x : Int} {sd : List (V × Nat)} (hc : Col D x sd) {dn : Pt → Bool} {s : ES} {F : Option Nat} {W : Option (V × Nat)}
    {p : Pt} {inc : List (Pt × Int)} {A B C : List (V × Nat)} {L : List V} {Wi : Option V} {Le : List V} (hh : Here D x sd dn s W p inc A B C L Wi Le)
    (m : MidC D x sd dn s F W) {a : V × Nat} (ha : a ∈ C) : (dn a.1.1.2 || a.1.1.2 == p) = false := by
  have hs : a ∈ sd := by rw [hh.split]; simp [ha]
  have hy := hh.above a ha
  obtain ⟨h1, h2⟩ := hc.mem hs
  rw [Bool.or_eq_false_iff]
  constructor
  · cases hd : dn a.1.1.2 with
    | false => rfl
    | true =>
      exfalso
      have := m.ev.sep a.1.1.2 p (vertex_2 h1) hh.vtx hd hh.ndn
      have hx := hh.px
      have h3 := h2.2
      unfold plt at this
      have h4 : a.1.1.2.1 = p.1 := by omega
      have h5 := Y_right h2.nv
      rw [h4] at h5
      rw [h5] at hy
      have : p.2 < a.1.1.2.2 := by exact_mod_cast hy
      omega
  · rw [beq_eq_false_iff_ne]
    intro h
    rw [(end_at c.good hh.vtx (Has.evs h1) (by rw [hh.px]; exact h2)).2 h] at hy
    exact _root_.lt_irrefl _ hy

theorem after_mid {D : List V} (c : Clean D) {x : Int} {sd : List (V × Nat)} (hc : Col D x sd) {dn : Pt → Bool} {s : ES} {F : Option Nat} {W : Option (V × Nat)}
    (m : MidC D x sd dn s F W) {ev : V} {r : List V} (hev : s.evs = ev :: r) {inc : List (Pt × Int)} {A B C : List (V × Nat)} {L : List V} {Wi : Option V} {Le : List V}
    (hh : Here D x sd dn s W ev.1.1 inc A B C L Wi Le) {sp : PS} {N : List (V × Nat)} {F' : Option Nat}
    (ha : After ev.1.1 (isort lessInc B ++ W.toList) inc s.els ((sd.filter (fun a => !(dn a.1.1.2 || a.1.1.2 == ev.1.1))).map en ++ s.els.map en)
          ((D.filter (fun e => dn e.1.2)).map solidLeft) (tt D ev.1.1) sp N F') :
    ∃ W', N.filter (fun a => decide (a.1.1.2.1 = ev.1.1.1)) = W'.toList ∧ W'.map Prod.fst = Wi.map (fun e => (e.1, sg e)) ∧
      MidC D x sd (fun q => dn q || q == ev.1.1) ⟨s.evs.dropWhile (fun e => decide (e.1.1 = ev.1.1)), sp.H, sp.out, sp.els, sp.ret, sp.rc,
        s.rm ++ B.map (fun a => a.1.1)⟩ F' W' := by
  have hE : Events D dn (ev :: r) := hev ▸ m.ev
  have hnext := hE.next.2.1
  rw [← hev] at hnext
  generalize ev.1.1 = p at *
  have hdir : ∀ e ∈ D, Directed e.1 := fun e he => c.good.dirE (Has.evs he)
  have hx := hh.px
  -- the new elements
  have hN : (N.map Prod.fst).Perm ((L ++ Wi.toList).map (fun e => (e.1, sg e))) := by
    have h1 := ha.keys
    rw [hh.inceq] at h1
    have h2 := h1.map (fun k : Pt × Int => (((p, k.1), k.2) : V))
    rw [List.map_map, List.map_map] at h2
    have e1 : N.map ((fun k : Pt × Int => (((p, k.1), k.2) : V)) ∘ key) = N.map Prod.fst := by
      apply List.map_congr_left
      intro a h
      simp only [Function.comp, key]
      rw [← ha.at_ a h]
    have e2 : (L ++ Wi.toList).map ((fun k : Pt × Int => (((p, k.1), k.2) : V)) ∘ fun e => (e.1.2, sg e)) = (L ++ Wi.toList).map (fun e => (e.1, sg e)) := by
      apply List.map_congr_left
      intro a h
      have := (List.mem_filter.1 (hh.starts.mem_iff.1 h)).2
      have : a.1.1 = p := by simpa using this
      simp only [Function.comp]
      rw [← this]
    rw [e1, e2] at h2
    exact h2
  have hLp : ∀ a ∈ L, a ∈ D ∧ a.1.1 = p ∧ a.1.2.1 ≠ p.1 := by
    intro a h
    have h1 := List.mem_filter.1 (hh.starts.mem_iff.1 (List.mem_append_left _ h))
    have h2 : a.1.1 = p := by simpa using h1.2
    have h3 : a.1.1.1 < a.1.2.1 := hh.nv a h
    rw [h2] at h3
    exact ⟨h1.1, h2, by omega⟩
  have hWp : ∀ a, Wi = some a → a ∈ D ∧ a.1.1 = p ∧ a.1.2.1 = p.1 := by
    intro a h
    have h1 := List.mem_filter.1 (hh.starts.mem_iff.1 (List.mem_append_right L (show a ∈ Wi.toList by rw [h]; exact List.mem_singleton.2 rfl)))
    have h2 : a.1.1 = p := by simpa using h1.2
    have h3 := hh.vert a h
    rw [h2] at h3
    exact ⟨h1.1, h2, h3.symm⟩
  have hnvN : ((N.filter (fun a => decide (a.1.1.2.1 ≠ p.1))).map Prod.fst).Perm L := by
    have h1 := hN.filter (fun a : V => decide (a.1.2.1 ≠ p.1))
    rw [List.filter_map, List.filter_map] at h1
    refine h1.trans (List.Perm.of_eq ?_)
    rw [List.filter_append, List.filter_eq_self.2, List.filter_eq_nil_iff.2, List.append_nil]
    · conv_rhs => rw [← List.map_id L]
      apply List.map_congr_left
      intro a h
      rw [sg_nv (hh.nv a h)]; rfl
    · intro a h
      have := (hWp a (by simpa using h)).2.2
      simp [this]
    · intro a h
      have := (hLp a h).2.2
      simp [this]
  have hvN : ((N.filter (fun a => decide (a.1.1.2.1 = p.1))).map Prod.fst).Perm (Wi.toList.map (fun e => (e.1, sg e))) := by
    have h1 := hN.filter (fun a : V => decide (a.1.2.1 = p.1))
    rw [List.filter_map, List.filter_map] at h1
    refine h1.trans (List.Perm.of_eq ?_)
    rw [List.filter_append, List.filter_eq_nil_iff.2, List.filter_eq_self.2, List.nil_append]
    · intro a h
      have := (hWp a (by simpa using h)).2.2
      simp [this]
    · intro a h
      have := (hLp a h).2.2
      simp [this]
  obtain ⟨W', w1, w2⟩ : ∃ W' : Option (V × Nat), N.filter (fun a => decide (a.1.1.2.1 = p.1)) = W'.toList ∧ W'.map Prod.fst = Wi.map (fun e => (e.1, sg e)) := by
    generalize N.filter (fun a => decide (a.1.1.2.1 = p.1)) = M at hvN
    cases Wi with
    | none =>
      refine ⟨none, ?_, rfl⟩
      have := hvN.eq_nil
      exact List.map_eq_nil_iff.1 this
    | some v =>
      have := List.perm_singleton.1 hvN
      obtain ⟨a, rfl, h⟩ := List.map_eq_singleton_iff.1 this
      exact ⟨some a, rfl, by rw [Option.map_some, Option.map_some, h]⟩
  refine ⟨W', w1, w2, ?_⟩
  refine ⟨hnext, ?_, ?_, ?_, ?_, ?_, ?_⟩
  · intro q hq h
    rw [m.lo q hq h]; rfl
  · intro q hq h
    simp only [Bool.or_eq_true, beq_iff_eq] at h
    rcases h with h | h
    · exact m.hi q hq h
    · rw [h]; exact hx.le
  · intro a h
    simp only [List.mem_append, Bool.or_eq_true, beq_iff_eq]
    rw [m.rm a h]
    refine or_congr_right ?_
    constructor
    · intro hb
      obtain ⟨b, hb, e⟩ := List.mem_map.1 hb
      rw [← e]; exact hh.at_ b hb
    · intro hb
      have hy := (end_at c.good hh.vtx (Has.evs (hc.mem h).1) (by rw [hx]; exact (hc.mem h).2)).2 hb
      rw [hh.split] at h
      rcases List.mem_append.1 h with h | h
      · have := hh.below a h; rw [hy] at this; exact absurd this (_root_.lt_irrefl _)
      · rcases List.mem_append.1 h with h | h
        · exact List.mem_map.2 ⟨a, h, rfl⟩
        · have := hh.above a h; rw [hy] at this; exact absurd this (_root_.lt_irrefl _)
  · dsimp only
    rw [ha.els, List.map_append]
    have h1 := filter_or_perm D (fun e => decide (e.1.1.1 = x ∧ e.1.2.1 ≠ x) && dn e.1.1) (fun e => decide (e.1.1.1 = x ∧ e.1.2.1 ≠ x) && (e.1.1 == p)) (by
      intro e _ he
      simp only [Bool.and_eq_true] at he
      rw [Bool.and_eq_false_iff]
      right
      rw [beq_eq_false_iff_ne]
      intro hc
      rw [hc, hh.ndn] at he
      simp at he)
    refine List.Perm.trans ?_ (List.Perm.trans h1.symm (List.Perm.of_eq (List.filter_congr (fun e _ => by rw [← Bool.and_or_distrib_left]))))
    refine m.els.append (hnvN.trans ?_)
    have h2 := hh.starts.filter (fun e : V => decide (e.1.2.1 ≠ p.1))
    rw [List.filter_append, List.filter_eq_self.2, List.filter_eq_nil_iff.2, List.append_nil, List.filter_filter] at h2
    · refine h2.trans (List.Perm.of_eq (List.filter_congr ?_))
      intro e _
      by_cases h : e.1.1 = p
      · simp [h, hx]
      · simp [h]
    · intro a h
      have := (hWp a (by simpa using h)).2.2
      simp [this]
    · intro a h
      have := (hLp a h).2.2
      simp [this]
  · dsimp only
    rw [ha.els]
    refine (ha.web.permA ?_).permX ?_
    · have h1 : (N.map en).Perm ((N.filter (fun a => decide (a.1.1.2.1 ≠ p.1))).map en ++ W'.toList.map en) := by
        rw [← w1, ← List.map_append]
        refine List.Perm.map _ ?_
        have := filter_or_perm N (fun a => decide (a.1.1.2.1 ≠ p.1)) (fun a => decide (a.1.1.2.1 = p.1)) (by
          intro a _ h
          simpa using h)
        refine List.Perm.trans (List.Perm.of_eq ?_) this
        symm
        rw [List.filter_eq_self]
        intro a _
        by_cases h : a.1.1.2.1 = p.1 <;> simp [h]
      refine (h1.append_right _).trans ?_
      rw [List.perm_iff_count]; intro z
      simp only [List.map_append, List.count_append]
      omega
    · have h1 := filter_or_perm D (fun e => dn e.1.2) (fun e => e.1.2 == p) (by
        intro e _ he
        rw [beq_eq_false_iff_ne]
        intro hc
        rw [hc, hh.ndn] at he
        simp at he)
      refine List.Perm.trans ?_ (h1.map solidLeft).symm
      simp only [List.map_append]
      refine List.Perm.trans (List.Perm.append_right _ ?_) List.perm_append_comm
      have h2 : (isort lessInc B ++ W.toList).map (cl p) = Le.map solidLeft := by
        have e1 : (isort lessInc B ++ W.toList).map (cl p) = ((isort lessInc B ++ W.toList).map Prod.fst).map (fun v => dir v.1.1 p v.2) := by
          rw [List.map_map]; rfl
        rw [e1, hh.from_, List.map_map]
        apply List.map_congr_left
        intro e he
        have h3 := List.mem_filter.1 (hh.ends.mem_iff.1 he)
        have h4 : e.1.2 = p := by simpa using h3.2
        have := cl_solid c.unit h3.1 (a := ((e.1, sg e), 0)) rfl
        rw [h4] at this
        exact this
      rw [← List.map_append, h2]
      refine (hh.ends.map _).trans (List.Perm.of_eq ?_)
      rw [List.filter_congr (fun e _ => ?_)]
      by_cases h : e.1.2 = p <;> simp [h]
  · intro e he h1 h2 h3 h4
    simp only [Bool.or_eq_true, Bool.or_eq_false_iff, beq_iff_eq, beq_eq_false_iff_ne] at h3 h4
    rcases h3 with h3 | h3
    · obtain ⟨a, k1, k2⟩ := m.vert e he h1 h2 h3 h4.1
      have := hh.wtop a k1
      rw [k2] at this
      exact absurd this h4.2
    · have h5 := hh.starts.mem_iff.2 (List.mem_filter.2 ⟨he, by simpa using h3⟩)
      rcases List.mem_append.1 h5 with h5 | h5
      · have := (hLp e h5).2.2
        rw [hx] at this
        exact absurd h2 this
      · have h6 : Wi = some e := by simpa using h5
        rw [h6] at w2
        cases W' with
        | none => simp at w2
        | some a =>
          refine ⟨a, rfl, ?_⟩
          rw [Option.map_some, Option.map_some, Option.some_inj] at w2
          rw [w2]

theorem holeUp_now {x : Int} {sd : List (V × Nat)} {i : Nat} {s : ES} {h : Nat} {a : V × Nat} (hv : s.vt = some h) (h0 : s.vc.2 = 0) (hi : sd[i]? = some a)
    (hn : ∀ ev r, s.evs = ev :: r → ev.1.1.1 ≠ x ∨ oab ev.1.1 a.1.1 ≠ -1) :
    holeUp x sd i s = some { s with H := s.H.addHole a.2 h, vt := none } := by
  unfold holeUp
  rw [hv]
  dsimp only
  rw [if_neg (by simpa using h0), hi]
  rcases hev1 : s.evs with _ | ⟨ev', r'⟩
  · rfl
  · rcases hn ev' r' hev1 with g | g
    · dsimp only
      rw [if_pos g]
      rfl
    · by_cases g' : ev'.1.1.1 ≠ x
      · dsimp only
        rw [if_pos g']
        rfl
      · dsimp only
        rw [if_neg g']
        simp [g]

theorem holeUp_stay {x : Int} {sd : List (V × Nat)} {i : Nat} {s : ES} {h : Nat} {a : V × Nat} {ev : V} {r : List V} (hv : s.vt = some h) (h0 : s.vc.2 = 0) (hi : sd[i]? = some a)
    (he : s.evs = ev :: r) (hx : ev.1.1.1 = x) (ho : oab ev.1.1 a.1.1 = -1) : holeUp x sd i s = some s := by
  unfold holeUp
  rw [hv]
  dsimp only
  rw [if_neg (by simpa using h0), hi, he]
  dsimp only
  rw [if_neg (by simpa using hx)]
  simp [ho]

theorem onePoint_core {D : List V} (c : Clean D) {x : Int} {sd : List (V × Nat)} (hc : Col D x sd) {dn : Pt → Bool} {s : ES} {F : Option Nat} {W : Option (V × Nat)}
    (m : MidC D x sd dn s F W) (st : St D x sd dn s F W) {ev : V} {r : List V} (hev : s.evs = ev :: r) (hx : ev.1.1.1 = x)
    {inc : List (Pt × Int)} (hinc : inc = turnLast ev.1.1.1 ((isort (lessCount ev.1.1) ((s.evs.takeWhile (fun e => decide (e.1.1 = ev.1.1))).map (fun e => (e.1.2, e.2)))).filter
      (fun a => lessPoint ev.1.1 a.1)))
    {A B C : List (V × Nat)} {L : List V} {Wi : Option V} {Le : List V} (hh : Here D x sd dn s W ev.1.1 inc A B C L Wi Le) {sp : PS} {N : List (V × Nat)} {F' : Option Nat}
    (e1 : processPoint ev.1.1 (isort lessInc B ++ (match s.vt with | some t => [(((s.vc.1, ev.1.1), -s.vc.2), t)] | none => [])) inc s.H s.out s.els = some sp)
    (ha : After ev.1.1 (isort lessInc B ++ W.toList) inc s.els ((sd.filter (fun a => !(dn a.1.1.2 || a.1.1.2 == ev.1.1))).map en ++ s.els.map en)
          ((D.filter (fun e => dn e.1.2)).map solidLeft) (tt D ev.1.1) sp N F') :
    ∃ s' F2 W', onePoint x sd s = some s' ∧ s'.evs.length < s.evs.length ∧ MidC D x sd (fun q => dn q || q == ev.1.1) s' F2 W' ∧
      St D x sd (fun q => dn q || q == ev.1.1) s' F2 W' ∧ N.filter (fun a => decide (a.1.1.2.1 = ev.1.1.1)) = W'.toList ∧ s'.els = sp.els ∧ s'.out = sp.out ∧
      ((s'.H = sp.H ∧ F2 = F') ∨ ∃ h a C', C = a :: C' ∧ F' = some h ∧ F2 = none ∧ s'.H = sp.H.addHole a.2 h) ∧
      (F2 ≠ none → ∃ ev' r', s'.evs = ev' :: r' ∧ ∀ b ∈ C, (ev'.1.1.2 : ℚ) < Y b.1.1 x) := by
  have hE : Events D dn (ev :: r) := hev ▸ m.ev
  have hlen := hE.next.2.2
  rw [← hev] at hlen
  obtain ⟨W', w1, w2, m'⟩ := after_mid c hc m hev hh ha
  have hone : onePoint x sd s = holeUp x sd (A.length + B.length) ⟨s.evs.dropWhile (fun e => decide (e.1.1 = ev.1.1)), sp.H, sp.out, sp.els, sp.ret, sp.rc,
      s.rm ++ B.map (fun a => a.1.1)⟩ := by
    have hp : ((x, ev.1.1.2) : Pt) = ev.1.1 := by rw [← hx]
    have hl := hh.len
    have hb := hh.block
    rw [hx] at hl
    unfold onePoint
    rw [hev]
    dsimp only
    rw [hp, hl, hb]
    rw [hinc, hev, hx] at e1
    exact congrArg (fun o : Option PS => o.bind (fun q => holeUp x sd (A.length + B.length) ⟨(ev :: r).dropWhile (fun e => decide (e.1.1 = ev.1.1)), q.H, q.out, q.els, q.ret, q.rc,
      s.rm ++ B.map (fun a => a.1.1)⟩)) e1
  rw [hone]
  generalize hs1 : (⟨s.evs.dropWhile (fun e => decide (e.1.1 = ev.1.1)), sp.H, sp.out, sp.els, sp.ret, sp.rc, s.rm ++ B.map (fun a => a.1.1)⟩ : ES) = s1 at m'
  have hl1 : s1.evs.length < s.evs.length := by rw [← hs1]; exact hlen
  have hH : s1.H = sp.H := by rw [← hs1]
  have hels : s1.els = sp.els := by rw [← hs1]
  have hout : s1.out = sp.out := by rw [← hs1]
  have hret : s1.vt = sp.ret := by rw [← hs1]
  have hrc : s1.vc = sp.rc := by rw [← hs1]
  have hWi : ∀ v, Wi = some v → v ∈ D ∧ v.1.1 = ev.1.1 := by
    intro v h
    have h1 := List.mem_filter.1 (hh.starts.mem_iff.1 (List.mem_append_right L (show v ∈ Wi.toList by rw [h]; exact List.mem_singleton.2 rfl)))
    exact ⟨h1.1, by simpa using h1.2⟩
  rcases ha.ret with ⟨hF, hr⟩ | ⟨h, hF, hi, ht, hr, hr2⟩
  · rcases hr with ⟨hall, hr⟩ | ⟨a, haN, hav, hr, hr2⟩
    · have hW' : W' = none := by
        have : N.filter (fun a => decide (a.1.1.2.1 = ev.1.1.1)) = [] := by
          rw [List.filter_eq_nil_iff]
          intro a h
          simpa using hall a h
        rw [this] at w1
        cases W' with
        | none => rfl
        | some a => simp at w1
      refine ⟨s1, F', W', ?_, hl1, m', Or.inl ⟨hW', hF, by rw [hret]; exact hr⟩, w1, hels, hout, Or.inl ⟨hH, rfl⟩, fun h => absurd hF h⟩
      unfold holeUp
      rw [hret, hr]
    · have hW' : W' = some a := by
        have : a ∈ N.filter (fun a => decide (a.1.1.2.1 = ev.1.1.1)) := List.mem_filter.2 ⟨haN, by simpa using hav⟩
        rw [w1] at this
        simpa using this
      obtain ⟨v, hv, hva⟩ : ∃ v, Wi = some v ∧ a.1 = (v.1, sg v) := by
        rw [hW'] at w2
        cases Wi with
        | none => simp at w2
        | some v => exact ⟨v, rfl, by simpa using w2⟩
      obtain ⟨vD, vp⟩ := hWi v hv
      have hvv := hh.vert v hv
      have hd : v.1.1.2 < v.1.2.2 := by rcases c.good.dirE (Has.evs vD) with h | h <;> omega
      have hsg : sg v ≠ 0 := by
        have := c.unit v vD
        unfold sg
        split_ifs <;> omega
      have ha2 : a.1.2 = sg v := by rw [hva]
      refine ⟨s1, F', W', ?_, hl1, m', Or.inr (Or.inl ⟨a, hW', hF, by rw [hret]; exact hr, by rw [hrc, hr2, ha.at_ a haN], v, vD, hva, ?_, ?_, ?_, ?_⟩), w1, hels, hout, Or.inl ⟨hH, rfl⟩, fun h => absurd hF h⟩
      · unfold holeUp
        rw [hret, hr, hrc, hr2]
        dsimp only
        rw [if_pos (by rw [ha2]; omega)]
      · rw [vp]; exact hx
      · rw [← hvv, vp]; exact hx
      · simp [vp]
      · rw [Bool.or_eq_false_iff]
        rw [vp] at hd hvv
        constructor
        · cases hdn : dn v.1.2 with
          | false => rfl
          | true =>
            exfalso
            have := m.ev.sep v.1.2 ev.1.1 (vertex_2 vD) hh.vtx hdn hh.ndn
            unfold plt at this
            omega
        · rw [beq_eq_false_iff_ne]
          intro hc
          rw [hc] at hd
          omega
  · -- a closed hole
    have hN : N = [] := by
      have := ha.keys
      rw [hi] at this
      exact List.map_eq_nil_iff.1 this.eq_nil
    have hW' : W' = none := by
      rw [hN] at w1
      cases W' with
      | none => rfl
      | some a => simp at w1
    have hCne : C ≠ [] := by
      intro h0
      have h1 : tt D ev.1.1 = 0 := by
        rw [← total_zero c.good 0 ev.1.1.1]
        apply S_congr
        intro e he
        refine ⟨fun h => h.1, fun h => ⟨h, ?_⟩⟩
        obtain ⟨w, hw⟩ := has_evs.1 (mem_evs he)
        obtain ⟨a, ha, hae⟩ := hc.find hw (by rw [← hx]; exact h)
        have hk := hh.split
        rw [h0, List.append_nil] at hk
        rw [hk] at ha
        have hae' : a.1.1 = e.1 := by rw [hae]
        rcases List.mem_append.1 ha with h | h
        · have := hh.below a h; rw [hae'] at this; exact this.le
        · have h2 := hh.at_ a h
          rw [hae'] at h2
          exact ((end_at c.good hh.vtx (mem_evs he) (by assumption)).2 h2).le
      rw [h1] at ht
      simp at ht
    obtain ⟨a, C', rfl⟩ : ∃ a C', C = a :: C' := by cases C with
      | nil => exact absurd rfl hCne
      | cons a C' => exact ⟨a, C', rfl⟩
    have hidx : sd[A.length + B.length]? = some a := by
      rw [hh.split, ← List.append_assoc, List.getElem?_append_right (by simp)]
      simp
    have ha_dn := hh.top c hc m (a := a) List.mem_cons_self
    have haS : a ∈ sd := by rw [hh.split]; simp
    have hend : (a.2, a.1.2, a.1.1.1) ∈ (sd.filter (fun a => !(dn a.1.1.2 || a.1.1.2 == ev.1.1))).map en ++ (s1.els.map en ++ W'.toList.map en) := by
      refine List.mem_append_left _ (List.mem_map.2 ⟨a, List.mem_filter.2 ⟨haS, by rw [ha_dn]; rfl⟩, rfl⟩)
    have hweb := m'.web
    rw [hF] at hweb
    have hweb2 := hweb.addHole hend
    have hadd : ∃ s' F2 W', (some { s1 with H := s1.H.addHole a.2 h, vt := none } : Option ES) = some s' ∧ s'.evs.length < s.evs.length ∧
        MidC D x sd (fun q => dn q || q == ev.1.1) s' F2 W' ∧ St D x sd (fun q => dn q || q == ev.1.1) s' F2 W' ∧
        N.filter (fun a => decide (a.1.1.2.1 = ev.1.1.1)) = W'.toList ∧ s'.els = sp.els ∧ s'.out = sp.out ∧
        ((s'.H = sp.H ∧ F2 = F') ∨ ∃ h b C'', a :: C' = b :: C'' ∧ F' = some h ∧ F2 = none ∧ s'.H = sp.H.addHole b.2 h) ∧
        (F2 ≠ none → ∃ ev' r', s'.evs = ev' :: r' ∧ ∀ b ∈ a :: C', (ev'.1.1.2 : ℚ) < Y b.1.1 x) :=
      ⟨_, none, W', rfl, hl1, ⟨m'.ev, m'.lo, m'.hi, m'.rm, m'.els, hweb2, m'.vert⟩, Or.inl ⟨hW', rfl, rfl⟩, w1, hels, hout,
        Or.inr ⟨h, a, C', rfl, hF, rfl, by dsimp only; rw [hH]⟩, fun h => absurd rfl h⟩
    have hvc0 : s1.vc.2 = 0 := by rw [hrc, hr2]
    have hvt1 : s1.vt = some h := by rw [hret, hr]
    rcases hev1 : s1.evs with _ | ⟨ev', r'⟩
    · rw [holeUp_now hvt1 hvc0 hidx (by rw [hev1]; simp)]
      exact hadd
    · by_cases hx' : ev'.1.1.1 = x
      · by_cases ho : oab ev'.1.1 a.1.1 = -1
        · rw [holeUp_stay hvt1 hvc0 hidx hev1 hx' ho]
          have hm1 : ev' ∈ s1.evs := by rw [hev1]; exact List.mem_cons_self
          have hvx := m'.ev.mem hm1
          obtain ⟨hv', hd'⟩ := hvx
          rw [Bool.or_eq_false_iff, beq_eq_false_iff_ne] at hd'
          have hgt : ev.1.1.2 < ev'.1.1.2 := by
            rcases hh.least ev'.1.1 hv' hd'.1 with g | g
            · exact absurd g hd'.2
            · unfold plt at g; omega
          have hgt' : (ev.1.1.2 : ℚ) < ev'.1.1.2 := by exact_mod_cast hgt
          have hsa := (hc.mem haS).2
          have hya : (ev'.1.1.2 : ℚ) < Y a.1.1 ev'.1.1.1 := (oab_neg hsa.nv _).1 ho
          rw [hx'] at hya
          have hmono : ∀ b ∈ C', Y a.1.1 x ≤ Y b.1.1 x := by
            intro b hb
            have hbS : b ∈ sd := by rw [hh.split]; simp [hb]
            have hsrt := hc.srt
            rw [hh.split, List.pairwise_append, List.pairwise_append, List.pairwise_cons] at hsrt
            exact lt_le_l c.good (Has.evs (hc.mem hbS).1) (Has.evs (hc.mem haS).1) (hc.mem hbS).2 (hc.mem haS).2 (hsrt.2.1.2.1.1 b hb)
          have hup : ∀ b ∈ a :: C', (ev'.1.1.2 : ℚ) < Y b.1.1 x := by
            intro b hb
            rcases List.mem_cons.1 hb with rfl | hb
            · exact hya
            · exact lt_of_lt_of_le hya (hmono b hb)
          have hcases : ∀ b ∈ sd, Y b.1.1 x ≤ ev.1.1.2 ∨ (ev'.1.1.2 : ℚ) < Y b.1.1 x := by
            intro b hb
            have hb' := hb
            rw [hh.split] at hb
            have hpx := hh.px
            rcases List.mem_append.1 hb with h | h
            · left; have := hh.below b h; rw [hpx] at this; exact this.le
            · rcases List.mem_append.1 h with h | h
              · left
                have := (end_at c.good hh.vtx (Has.evs (hc.mem hb').1) (by rw [hpx]; exact (hc.mem hb').2)).2 (hh.at_ b h)
                rw [hpx] at this
                exact this.le
              · right
                rcases List.mem_cons.1 h with rfl | h
                · exact hya
                · exact lt_of_lt_of_le hya (hmono b h)
          refine ⟨s1, F', W', rfl, hl1, m', Or.inr (Or.inr ⟨h, ev.1.1, hW', hF, by rw [hret]; exact hr, by rw [hrc]; exact hr2, hx, ev', r', hev1, hx', ?_, ?_⟩), w1, hels, hout, Or.inl ⟨hH, rfl⟩, fun _ => ⟨ev', r', hev1, hup⟩⟩
          · intro b hb he
            have hy := (end_at c.good hv' (Has.evs (hc.mem hb).1) (by rw [hx']; exact (hc.mem hb).2)).2 he
            rw [hx'] at hy
            rcases hcases b hb with g | g
            · rw [hy] at g; linarith
            · rw [hy] at g; exact _root_.lt_irrefl _ g
          · rw [← ht]
            apply S_congr
            intro e he
            rw [hx, hx']
            refine and_congr_right fun hs => ?_
            obtain ⟨w, hw⟩ := has_evs.1 (mem_evs he)
            obtain ⟨b, hb, hbe⟩ := hc.find hw hs
            have hbe' : b.1.1 = e.1 := by rw [hbe]
            have := hcases b hb
            rw [hbe'] at this
            constructor
            · intro g
              rcases this with k | k
              · exact k
              · linarith
            · intro g; linarith
        · rw [holeUp_now hvt1 hvc0 hidx (by rw [hev1]; rintro _ _ ⟨rfl, rfl⟩; exact Or.inr ho)]
          exact hadd
      · rw [holeUp_now hvt1 hvc0 hidx (by rw [hev1]; rintro _ _ ⟨rfl, rfl⟩; exact Or.inl hx')]
        exact hadd

theorem onePoint_spec {D : List V} (c : Clean D) {x : Int} {sd : List (V × Nat)} (hc : Col D x sd) {dn : Pt → Bool} {s : ES} {F : Option Nat} {W : Option (V × Nat)}
    (m : MidC D x sd dn s F W) (st : St D x sd dn s F W) {ev : V} {r : List V} (hev : s.evs = ev :: r) (hx : ev.1.1.1 = x) :
    ∃ s' F' W', onePoint x sd s = some s' ∧ s'.evs.length < s.evs.length ∧ MidC D x sd (fun q => dn q || q == ev.1.1) s' F' W' ∧
      St D x sd (fun q => dn q || q == ev.1.1) s' F' W' := by
  obtain ⟨A, B, C, L, Wi, Le, hh, sp, N, F', e1, ha⟩ := here c hc m st hev hx rfl
  obtain ⟨s', F2, W', h1, h2, h3, h4, -⟩ := onePoint_core c hc m st hev hx rfl hh e1 ha
  exact ⟨s', F2, W', h1, h2, h3, h4⟩

end Verif.ArbForm
