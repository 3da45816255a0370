import Verif.Proofs.FormColumn
/-!
# One point of the sweep: the step
-/
namespace Verif.ArbForm
open Verif.Arb Verif.Contains Verif.Spec Verif.Spec.Arb

/-- What is known at the next point. -/
structure Here (D : List V) (x : Int) (sd : List (V × Nat)) (dn : Pt → Bool) (s : ES) (W : Option (V × Nat)) (p : Pt) (inc : List (Pt × Int))
    (A B C : List (V × Nat)) (L : List V) (Wi : Option V) (Le : List V) : Prop where
  px : p.1 = x
  vtx : Vertex (evs D) p
  ndn : dn p = false
  least : ∀ v, Vertex (evs D) v → dn v = false → v = p ∨ plt p v
  split : sd = A ++ (B ++ C)
  below : ∀ a ∈ A, Y a.1.1 p.1 < p.2
  at_ : ∀ a ∈ B, a.1.1.2 = p
  above : ∀ a ∈ C, (p.2 : ℚ) < Y a.1.1 p.1
  len : (sd.takeWhile (fun a => lessHE p.1 true a.1.1 (p, (p.1, p.2 + 1)))).length = A.length
  block : (sd.drop A.length).takeWhile (fun a => decide (a.1.1.1 = p ∨ a.1.1.2 = p)) = B
  inceq : inc = (L ++ Wi.toList).map (fun e => (e.1.2, sg e))
  starts : (L ++ Wi.toList).Perm (D.filter (fun e => decide (e.1.1 = p)))
  nv : ∀ a ∈ L, NV a.1
  vert : ∀ a, Wi = some a → a.1.1.1 = a.1.2.1
  ends : Le.Perm (D.filter (fun e => decide (e.1.2 = p)))
  from_ : (isort lessInc B ++ W.toList).map Prod.fst = Le.map (fun e => (e.1, sg e))
  wtop : ∀ a, W = some a → a.1.1.2 = p
  fcol : Colors (fun a : V × Nat => a.1.2) (tt D p) (isort lessInc B ++ W.toList) (bb D p)
  icol : Colors (fun a : Pt × Int => a.2) (tt D p) inc.reverse (bb D p)
  nlt : ∀ a ∈ inc, lessPoint a.1 p = false
  ol : OL p.1 inc
  bsrt : (isort lessInc B).Pairwise (fun a b => Lt b.1.1 a.1.1)
  lsrt : L.Pairwise (fun a b => Lt a.1 b.1)
  bot : W ≠ none → ∃ e ∈ D, e.1.1.1 = e.1.2.1 ∧ e.1.2 = p ∧ W.map Prod.fst = some (e.1, sg e)
  flt : W = none → s.vt ≠ none → B = [] ∧ inc ≠ []
  wcar : ∀ a, W = some a → s.vt = some a.2 ∧ s.vc = (a.1.1.1, -a.1.2)
  wno : ∀ h, W = none → s.vt = some h → s.vc.2 = 0 ∧ s.vc.1.1 = x

theorem olast {D : List V} {p : Pt} {L : List V} {Wi : Option V} (h1 : ∀ a ∈ L, a.1.2.1 ≠ p.1) : OL p.1 ((L ++ Wi.toList).map (fun e => (e.1.2, sg e))) := by
  induction L with
  | nil =>
    cases Wi with
    | none => exact True.intro
    | some v => exact ⟨Or.inl rfl, True.intro⟩
  | cons a r ih =>
    exact ⟨Or.inr (h1 a List.mem_cons_self), ih (fun b hb => h1 b (List.mem_cons_of_mem _ hb))⟩

theorem here_core {D : List V} (c : Clean D) {x : Int} {sd : List (V × Nat)} (hc : Col D x sd) {dn : Pt → Bool} {s : ES} {F : Option Nat} {W : Option (V × Nat)}
    (m : MidC D x sd dn s F W) (st : St D x sd dn s F W) {ev : V} {r : List V} (hev : s.evs = ev :: r) (hx : ev.1.1.1 = x) {inc : List (Pt × Int)}
    (hinc : inc = turnLast ev.1.1.1 ((isort (lessCount ev.1.1) ((s.evs.takeWhile (fun e => decide (e.1.1 = ev.1.1))).map (fun e => (e.1.2, e.2)))).filter
      (fun a => lessPoint ev.1.1 a.1))) :
    ∃ A B C L Wi Le, Here D x sd dn s W ev.1.1 inc A B C L Wi Le ∧ B = sd.filter (fun a => decide (a.1.1.2 = ev.1.1)) ∧
      (∀ a ∈ isort lessInc B ++ W.toList, a.1.1.1 ≠ ev.1.1) ∧
      ((F = none ∧ (match s.vt with | some t => [(((s.vc.1, ev.1.1), -s.vc.2), t)] | none => []) = W.toList) ∨
        ∃ f : V × Nat, f.1.2 = 0 ∧ isVertical f.1.1 = true ∧ F = some f.2 ∧ W = none ∧ B = [] ∧ inc ≠ [] ∧ tt D ev.1.1 = 1 ∧ bb D ev.1.1 = 1 ∧
          isort lessInc B ++ (match s.vt with | some t => [(((s.vc.1, ev.1.1), -s.vc.2), t)] | none => []) = [f]) := by
  have hE : Events D dn (ev :: r) := hev ▸ m.ev
  obtain ⟨hv, hnd⟩ := hE.mem List.mem_cons_self
  have hfirst := fun v (hv : Vertex (evs D) v) => hE.first hv
  have hgrp := hE.next.1
  rw [← hev] at hgrp
  obtain ⟨L, Wi, i1, i2, i3, i4, i5⟩ := inc_list c hgrp
  rw [i1] at hinc
  clear i1 hgrp
  generalize hp : ev.1.1 = p at *
  have hdir : ∀ e ∈ D, Directed e.1 := fun e he => c.good.dirE (Has.evs he)
  obtain ⟨A, B, C, l1, l2, l3, l4, l5, l6⟩ := lookup c.good (p := p) hc.srt (fun a ha => ⟨Has.evs (hc.mem ha).1, by rw [hx]; exact (hc.mem ha).2⟩) hv
  have hB : B = sd.filter (fun a => decide (a.1.1.2 = p)) := by
    have hnot : ∀ a ∈ sd, Y a.1.1 p.1 ≠ p.2 → a.1.1.2 ≠ p := by
      intro a ha hy he
      exact hy ((end_at c.good hv (Has.evs (hc.mem ha).1) (by rw [hx]; exact (hc.mem ha).2)).2 he)
    rw [l1, List.filter_append, List.filter_append, List.filter_eq_nil_iff.2, List.filter_eq_self.2, List.filter_eq_nil_iff.2]
    · simp
    · intro a ha
      simpa using hnot a (by rw [l1]; simp [ha]) (l4 a ha).ne'
    · intro a ha
      simpa using l3 a ha
    · intro a ha
      simpa using hnot a (by rw [l1]; simp [ha]) (l2 a ha).ne
  have hBs : ∀ a ∈ B, a ∈ sd := fun a ha => by rw [hB] at ha; exact (List.mem_filter.1 ha).1
  have hBsrt := block_sorted c (p := p) (B := B) (by rw [hB]; exact hc.srt.sublist List.filter_sublist) (by
    intro a ha
    exact ⟨Has.evs (hc.mem (hBs a ha)).1, by rw [hx]; exact (hc.mem (hBs a ha)).2, l3 a ha⟩)
  have hBp := isort_perm lessInc B
  -- the vertical edge from below
  have hdn1 : ∀ e ∈ D, e.1.1.1 = e.1.2.1 → e.1.2 = p → e.1.1.1 = x ∧ e.1.2.1 = x ∧ dn e.1.1 = true ∧ dn e.1.2 = false := by
    intro e he h1 h2
    refine ⟨by rw [h1, h2]; exact hx, by rw [h2]; exact hx, ?_, by rw [h2]; exact hnd⟩
    cases hd : dn e.1.1 with
    | true => rfl
    | false =>
      exfalso
      have h3 : e.1.1.2 < e.1.2.2 := by rcases hdir e he with h | h <;> omega
      rw [h2] at h1 h3
      rcases hfirst e.1.1 (vertex_1 he) hd with g | g
      · rw [g] at h3; omega
      · unfold plt at g; omega
  have hWtop : ∀ a, W = some a → a.1.1.2 = p ∧ ∃ e ∈ D, a.1 = (e.1, sg e) ∧ e.1.1.1 = e.1.2.1 ∧ e.1.2 = p := by
    intro a ha
    rcases st with ⟨h, _⟩ | ⟨b, h, _, _, _, e, he, h1, h2, h3, h4, h5⟩ | ⟨_, _, h, _⟩
    · rw [ha] at h; simp at h
    · rw [ha] at h
      obtain rfl := Option.some_inj.1 h
      have : e.1.2 = p := by
        rcases hfirst e.1.2 (vertex_2 he) h5 with g | g
        · exact g
        · exfalso
          have k1 := m.ev.sep e.1.1 p (vertex_1 he) hv h4 hnd
          unfold plt at g k1
          exact vertex_vert c.good hv (Has.evs he) (by omega) (by omega) (by omega) (by omega)
      exact ⟨by rw [h1]; exact this, e, he, h1, by omega, this⟩
    · rw [ha] at h; simp at h
  obtain ⟨We, hWe, hWe2⟩ : ∃ We : Option V, (∀ a, We = some a ↔ a ∈ D ∧ a.1.1.1 = a.1.2.1 ∧ a.1.2 = p) ∧
      W.toList.map Prod.fst = We.toList.map (fun e => (e.1, sg e)) := by
    cases W with
    | none =>
      refine ⟨none, ?_, rfl⟩
      intro a
      constructor
      · intro h; simp at h
      · rintro ⟨h1, h2, h3⟩
        obtain ⟨k1, k2, k3, k4⟩ := hdn1 a h1 h2 h3
        obtain ⟨b, hb, _⟩ := m.vert a h1 k1 k2 k3 k4
        simp at hb
    | some b =>
      obtain ⟨h1, e, he, h2, h3, h4⟩ := hWtop b rfl
      refine ⟨some e, ?_, by simp [h2]⟩
      intro a
      constructor
      · intro h; obtain rfl := Option.some_inj.1 h; exact ⟨he, h3, h4⟩
      · rintro ⟨k1, k2, k3⟩
        have d1 : a.1.1.2 < a.1.2.2 := by rcases hdir a k1 with h | h <;> omega
        have d2 : e.1.1.2 < e.1.2.2 := by rcases hdir e he with h | h <;> omega
        rw [c.key he k1 (vert_eq c.good (Has.evs he) (Has.evs k1) h3 k2 (by rw [h3, h4, k2, k3]) (by rw [k3, ← h4]; exact d2) (by rw [h4, ← k3]; exact d1))]
  -- the lists of ends and starts
  have hLB : ∀ a, a ∈ (isort lessInc B).map Prod.fst ↔ a ∈ D ∧ LSpan p.1 a.1 ∧ a.1.2 = p := by
    intro a
    constructor
    · intro h
      obtain ⟨b, hb, rfl⟩ := List.mem_map.1 h
      have hb := hBp.mem_iff.1 hb
      exact ⟨(hc.mem (hBs b hb)).1, by rw [hx]; exact (hc.mem (hBs b hb)).2, l3 b hb⟩
    · rintro ⟨h1, h2, h3⟩
      rw [hx] at h2
      obtain ⟨b, hb, rfl⟩ := hc.find h1 h2
      exact List.mem_map.2 ⟨b, hBp.mem_iff.2 (by rw [hB]; exact List.mem_filter.2 ⟨hb, by simpa using h3⟩), rfl⟩
  have hLBs : ((isort lessInc B).map Prod.fst).Pairwise (fun a b => Lt b.1 a.1) := by
    rw [List.pairwise_map]; exact hBsrt
  have hfc := c.from_colors hv hLBs hLB hWe
  have hfr : (isort lessInc B ++ W.toList).map Prod.fst = ((isort lessInc B).map Prod.fst ++ We.toList).map (fun e => (e.1, sg e)) := by
    rw [List.map_append, List.map_append, hWe2]
    congr 1
    rw [List.map_map]
    apply List.map_congr_left
    intro a ha
    have := ((hLB a.1).1 (List.mem_map.2 ⟨a, ha, rfl⟩)).2.1
    simp only [Function.comp]
    rw [sg_nv this.nv]
  have hends : ((isort lessInc B).map Prod.fst ++ We.toList).Perm (D.filter (fun e => decide (e.1.2 = p))) := by
    refine (List.perm_ext_iff_of_nodup ?_ ((c.nd.of_map _).filter _)).2 ?_
    · rw [List.nodup_append]
      refine ⟨?_, ?_, ?_⟩
      · refine hLBs.imp ?_
        intro a b h hab
        rw [hab] at h
        exact Arb.lt_irrefl _ h
      · cases We <;> simp
      · rintro a ha b hb rfl
        have h1 := ((hLB a).1 ha).2.1.nv
        have h2 := (hWe a).1 (by simpa using hb)
        have : a.1.1.1 < a.1.2.1 := h1
        omega
    · intro a
      rw [List.mem_append, List.mem_filter, hLB, Option.mem_toList, hWe]
      simp only [decide_eq_true_eq]
      constructor
      · rintro (⟨h1, _, h2⟩ | ⟨h1, _, h2⟩) <;> exact ⟨h1, h2⟩
      · rintro ⟨h1, h2⟩
        rcases hdir a h1 with h | h
        · exact Or.inl ⟨h1, ⟨by rw [← h2]; exact h, by rw [← h2]⟩, h2⟩
        · exact Or.inr ⟨h1, h.1, h2⟩
  have hLi : ∀ a, a ∈ L.reverse ↔ a ∈ D ∧ NV a.1 ∧ a.1.1 = p := by
    intro a
    rw [List.mem_reverse]
    constructor
    · intro h
      have := List.mem_filter.1 (i2.mem_iff.1 (List.mem_append_left _ h))
      exact ⟨this.1, i4 a h, by simpa using this.2⟩
    · rintro ⟨h1, h2, h3⟩
      have := i2.mem_iff.2 (List.mem_filter.2 ⟨h1, by simpa using h3⟩)
      rcases List.mem_append.1 this with h | h
      · exact h
      · have hh := i5 a (by simpa using h)
        have : a.1.1.1 < a.1.2.1 := h2
        omega
  have hWi : ∀ a, Wi = some a ↔ a ∈ D ∧ a.1.1.1 = a.1.2.1 ∧ a.1.1 = p := by
    intro a
    constructor
    · intro h
      have := List.mem_filter.1 (i2.mem_iff.1 (List.mem_append_right L (show a ∈ Wi.toList by rw [h]; exact List.mem_singleton.2 rfl)))
      exact ⟨this.1, i5 a h, by simpa using this.2⟩
    · rintro ⟨h1, h2, h3⟩
      have := i2.mem_iff.2 (List.mem_filter.2 ⟨h1, by simpa using h3⟩)
      rcases List.mem_append.1 this with h | h
      · have h4 : a.1.1.1 < a.1.2.1 := i4 a h
        omega
      · simpa using h
  have hic := c.inc_colors hv (L := L.reverse) (by rw [List.pairwise_reverse]; exact i3) hLi hWi
  have hic' : Colors (fun a : Pt × Int => a.2) (tt D p) inc.reverse (bb D p) := by
    refine hic.signs ?_
    rw [hinc, ← List.map_reverse, List.reverse_append, List.map_map]
    have : Wi.toList.reverse = Wi.toList := by cases Wi <;> rfl
    rw [this]
    rfl
  have hil : ∀ a ∈ inc, lessPoint a.1 p = false := by
    intro a ha
    rw [hinc] at ha
    obtain ⟨e, he, rfl⟩ := List.mem_map.1 ha
    have := List.mem_filter.1 (i2.mem_iff.1 he)
    have h1 := hdir e this.1
    have h2 : e.1.1 = p := by simpa using this.2
    dsimp only
    rw [Bool.eq_false_iff, Ne, Contains.lessPoint_iff]
    unfold Spec.Arb.Directed at h1
    rw [h2] at h1
    omega
  have hol : OL p.1 inc := by
    rw [hinc]
    refine olast (D := D) ?_
    intro a ha
    have h1 := (hLi a).1 (List.mem_reverse.2 ha)
    have h2 : a.1.1.1 < a.1.2.1 := h1.2.1
    rw [h1.2.2] at h2
    omega
  have hfc' : Colors (fun a : V × Nat => a.1.2) (tt D p) (isort lessInc B ++ W.toList) (bb D p) := by
    refine hfc.signs ?_
    have := congrArg (List.map Prod.snd) hfr
    rw [List.map_map, List.map_map] at this
    exact this.symm
  have hflt : W = none → s.vt ≠ none → B = [] ∧ inc ≠ [] := by
    intro hW hvt
    rcases st with ⟨-, -, h3⟩ | ⟨a, h1, -⟩ | ⟨h, p0, h1, h2, h3, h4, h5, ev', r', h6, h7, h8, h9⟩
    · exact absurd h3 hvt
    · rw [hW] at h1; cases h1
    · rw [hev] at h6
      obtain ⟨rfl, rfl⟩ := List.cons.inj h6
      rw [hp] at h8 h9
      have hB0 : B = [] := by
        rw [hB, List.filter_eq_nil_iff]
        intro a ha
        simpa using h8 a ha
      have hWe0 : We = none := by
        cases We with
        | none => rfl
        | some e => rw [h1] at hWe2; simp at hWe2
      have hi0 : isort lessInc B = [] := by rw [hB0]; rfl
      refine ⟨hB0, ?_⟩
      intro h0
      rw [h0] at hinc
      have h10 := List.map_eq_nil_iff.1 hinc.symm
      rw [h10] at i2
      rw [hi0, hWe0] at hends
      obtain ⟨g, hg, hgv⟩ := hv
      obtain ⟨w, hw⟩ := has_evs.1 hg
      rcases hgv with hgv | hgv
      · have := i2.mem_iff.2 (List.mem_filter.2 ⟨hw, by simpa using hgv⟩)
        simp at this
      · have := hends.mem_iff.2 (List.mem_filter.2 ⟨hw, by simpa using hgv⟩)
        simp at this
  have hwcar : ∀ a, W = some a → s.vt = some a.2 ∧ s.vc = (a.1.1.1, -a.1.2) := by
    intro a ha
    rcases st with ⟨h1, -⟩ | ⟨b, h1, -, h3, h4, -⟩ | ⟨_, _, h1, -⟩
    · rw [ha] at h1; cases h1
    · rw [ha] at h1; cases h1; exact ⟨h3, h4⟩
    · rw [ha] at h1; cases h1
  have hwno : ∀ h, W = none → s.vt = some h → s.vc.2 = 0 ∧ s.vc.1.1 = x := by
    intro h hW hvt
    rcases st with ⟨-, -, h1⟩ | ⟨b, h1, -⟩ | ⟨_, _, -, -, -, h4, h5, -⟩
    · rw [hvt] at h1; cases h1
    · rw [hW] at h1; cases h1
    · rw [h4]; exact ⟨rfl, h5⟩
  have hbot : W ≠ none → ∃ e ∈ D, e.1.1.1 = e.1.2.1 ∧ e.1.2 = p ∧ W.map Prod.fst = some (e.1, sg e) := by
    intro hW
    rcases W with _ | a
    · exact absurd rfl hW
    · obtain ⟨-, e, he, h1, h2, h3⟩ := hWtop a rfl
      exact ⟨e, he, h2, h3, by rw [Option.map_some, h1]⟩
  have hfp : ∀ a ∈ isort lessInc B ++ W.toList, a.1.1.1 ≠ p := by
    intro a ha
    have h1 : a.1 ∈ (isort lessInc B ++ W.toList).map Prod.fst := List.mem_map.2 ⟨a, ha, rfl⟩
    rw [hfr] at h1
    obtain ⟨e, he, h2⟩ := List.mem_map.1 h1
    have h3 := List.mem_filter.1 (hends.mem_iff.1 he)
    have h4 : e.1.2 = p := by simpa using h3.2
    have h5 := hdir e h3.1
    rw [← h2]
    dsimp only
    intro h6
    unfold Spec.Arb.Directed at h5
    rw [h4, h6] at h5
    omega
  refine ⟨A, B, C, L, Wi, (isort lessInc B).map Prod.fst ++ We.toList, ⟨hx, hv, hnd, hfirst, l1, l2, l3, l4, l5, l6, hinc, i2, i4, i5, hends, hfr,
    fun a ha => (hWtop a ha).1, hfc', hic', hil, hol, hBsrt, i3, hbot, hflt, hwcar, hwno⟩, hB, hfp, ?_⟩
  rcases st with ⟨h1, h2, h3⟩ | ⟨a, h1, h2, h3, h4, _⟩ | ⟨h, p0, h1, h2, h3, h4, h5, ev', r', h6, h7, h8, h9⟩
  · exact Or.inl ⟨h2, by rw [h3, h1]; rfl⟩
  · refine Or.inl ⟨h2, ?_⟩
    rw [h3, h4, h1]
    dsimp only
    rw [neg_neg, ← (hWtop a h1).1]
    rfl
  · rw [hev] at h6
    obtain ⟨rfl, rfl⟩ := List.cons.inj h6
    rw [hp] at h8 h9
    have hB0 : B = [] := by
      rw [hB, List.filter_eq_nil_iff]
      intro a ha
      simpa using h8 a ha
    have hWe0 : We = none := by
      cases We with
      | none => rfl
      | some e => rw [h1] at hWe2; simp at hWe2
    have hi0 : isort lessInc B = [] := by rw [hB0]; rfl
    have hb1 : bb D p = 1 := by
      rw [hi0, hWe0] at hfc
      rw [← hfc.1]; exact h9
    refine Or.inr ⟨(((p0, p), 0), h), rfl, by unfold isVertical; dsimp only; rw [h5, hx]; simp, h2, h1, hB0, ?_, h9, hb1, by rw [hi0, h3, h4]; rfl⟩
    exact (hflt h1 (by rw [h3]; simp)).2

theorem here {D : List V} (c : Clean D) {x : Int} {sd : List (V × Nat)} (hc : Col D x sd) {dn : Pt → Bool} {s : ES} {F : Option Nat} {W : Option (V × Nat)}
    (m : MidC D x sd dn s F W) (st : St D x sd dn s F W) {ev : V} {r : List V} (hev : s.evs = ev :: r) (hx : ev.1.1.1 = x) {inc : List (Pt × Int)}
    (hinc : inc = turnLast ev.1.1.1 ((isort (lessCount ev.1.1) ((s.evs.takeWhile (fun e => decide (e.1.1 = ev.1.1))).map (fun e => (e.1.2, e.2)))).filter
      (fun a => lessPoint ev.1.1 a.1))) :
    ∃ A B C L Wi Le, Here D x sd dn s W ev.1.1 inc A B C L Wi Le ∧
      ∃ sp N F', processPoint ev.1.1 (isort lessInc B ++ (match s.vt with | some t => [(((s.vc.1, ev.1.1), -s.vc.2), t)] | none => [])) inc s.H s.out s.els = some sp ∧
        After ev.1.1 (isort lessInc B ++ W.toList) inc s.els ((sd.filter (fun a => !(dn a.1.1.2 || a.1.1.2 == ev.1.1))).map en ++ s.els.map en)
          ((D.filter (fun e => dn e.1.2)).map solidLeft) (tt D ev.1.1) sp N F' := by
  obtain ⟨A, B, C, L, Wi, Le, hh, hB, hfp, hF⟩ := here_core c hc m st hev hx hinc
  refine ⟨A, B, C, L, Wi, Le, hh, ?_⟩
  have hnd := hh.ndn
  generalize hp : ev.1.1 = p at *
  have hBp := isort_perm lessInc B
  -- the web
  have hperm : ((sd.filter (fun a => !dn a.1.1.2)).map en).Perm ((isort lessInc B).map en ++ (sd.filter (fun a => !(dn a.1.1.2 || a.1.1.2 == p))).map en) := by
    rw [← List.map_append]
    refine List.Perm.map _ ?_
    have h1 := filter_or_perm sd (fun a => decide (a.1.1.2 = p)) (fun a => !(dn a.1.1.2 || a.1.1.2 == p)) (by
      intro a _ ha
      simp only [decide_eq_true_eq] at ha
      simp [ha])
    rw [← hB] at h1
    refine List.Perm.trans (List.Perm.of_eq (List.filter_congr ?_)) (h1.trans (hBp.symm.append_right _))
    intro a _
    by_cases h : a.1.1.2 = p
    · simp [h, hnd]
    · simp [h]
  have hweb := m.web
  have hw1 : Web s.H ((isort lessInc B ++ W.toList).map en ++ ((sd.filter (fun a => !(dn a.1.1.2 || a.1.1.2 == p))).map en ++ s.els.map en)) F s.out
      ((D.filter (fun e => dn e.1.2)).map solidLeft) := by
    refine hweb.permA ?_
    refine (hperm.append_right _).trans ?_
    rw [List.perm_iff_count]; intro z
    simp only [List.map_append, List.count_append]
    omega
  rcases hF with ⟨rfl, heq⟩ | ⟨f, f1, f2, f3, f4, f5, f6, f7, f8, f9⟩
  · rw [heq]
    exact processPoint_spec hh.fcol hh.icol hfp hh.nlt hh.ol hw1
  · have hic' := hh.icol
    rw [f7, f8] at hic'
    have hi0 : isort lessInc B = [] := by rw [f5]; rfl
    rw [hi0, f4, f3] at hw1
    rw [f9, hi0, f4]
    obtain ⟨sp, N, e1, e2⟩ := processPoint_float (f := f) f1 f2 hic' f6 hh.nlt hh.ol hw1 (els := s.els)
    exact ⟨sp, N, none, e1, by rw [f7]; exact e2⟩

end Verif.ArbForm
