import Verif.Spec.VoronoiDiagram
import Mathlib.Data.List.Chain
import Mathlib.Tactic.SplitIfs
import Mathlib.Tactic.Tauto

/-! The invariant of the Voronoi sweep. -/
namespace Verif.Voronoi

variable {P : Type}

/-- The other index of the pair. -/
def tw (i : Nat) : Nat := if i % 2 = 0 then i + 1 else i - 1

theorem tw_tw (i : Nat) : tw (tw i) = i := by unfold tw; split <;> split <;> omega
theorem tw_ne (i : Nat) : tw i ≠ i := by unfold tw; split <;> omega
theorem tw_lt {i n : Nat} (hn : n % 2 = 0) : tw i < n ↔ i < n := by unfold tw; split <;> omega
theorem tw_inj {i j : Nat} : tw i = tw j ↔ i = j := ⟨fun h => by rw [← tw_tw i, h, tw_tw], fun h => by rw [h]⟩
theorem tw_eq_comm {i j : Nat} : tw i = j ↔ i = tw j := ⟨fun h => by rw [← h, tw_tw], fun h => by rw [h, tw_tw]⟩

theorem upd_same {α : Type} (f : Nat → α) (i : Nat) (a : α) : upd f i a i = a := by simp [upd]
theorem upd_ne {α : Type} (f : Nat → α) {i j : Nat} (a : α) (h : j ≠ i) : upd f i a j = f j := by simp [upd, h]

/-- The half-edge invariant. -/
structure DInv (D : Diag P) : Prop where
  even : D.ne % 2 = 0
  twin : ∀ i < D.ne, D.twin i = tw i
  cell : ∀ i < D.ne, D.cell i < D.cells
  np : ∀ i < D.ne, ∀ j, D.next i = some j → j < D.ne ∧ D.prev j = some i ∧ D.cell j = D.cell i ∧ D.v0 j = D.v0 (tw i)
  pn : ∀ i < D.ne, ∀ j, D.prev i = some j → j < D.ne ∧ D.next j = some i
  pv : ∀ i < D.ne, D.prev i = none ↔ D.v0 i = none
  nv : ∀ i < D.ne, D.next i = none ↔ D.v0 (tw i) = none
  vr : ∀ i < D.ne, ∀ v, D.v0 i = some v → v < D.verts.length
  ray : D.verts ≠ [] → ∃ i, i < D.ne ∧ D.v0 i = none ∧ D.v0 (tw i) ≠ none
  cov : ∀ v < D.verts.length, ∃ i, i < D.ne ∧ D.v0 i = some v

theorem DInv.empty : DInv (Diag.empty P) := by
  constructor <;> simp [Diag.empty]

theorem insertEdge_spec {D D' : Diag P} {s1 s2 e1 e2 : Nat} (h : DInv D) (hr : D.insertEdge s1 s2 = some (D', e1, e2)) :
    DInv D' ∧ D'.ne = D.ne + 2 ∧ e1 = D.ne ∧ e2 = D.ne + 1 ∧ D'.verts = D.verts ∧
    D'.cells = (if D.cells = 0 then 1 else D.cells) + 1 ∧
    D'.cell e1 = s1 ∧ D'.cell e2 = s2 ∧ D'.prev e1 = none ∧ D'.prev e2 = none ∧
    (∀ i < D.ne, D'.cell i = D.cell i ∧ D'.prev i = D.prev i) := by
  unfold Diag.insertEdge at hr
  dsimp only at hr
  by_cases hc : s1 < (if D.cells = 0 then 1 else D.cells) + 1 ∧ s2 < (if D.cells = 0 then 1 else D.cells) + 1
  · rw [if_pos hc] at hr
    simp only [Option.some.injEq, Prod.mk.injEq] at hr
    obtain ⟨rfl, rfl, rfl⟩ := hr
    have ev := h.even
    have t0 : tw D.ne = D.ne + 1 := by unfold tw; simp [ev]
    have t1 : tw (D.ne + 1) = D.ne := by rw [← t0, tw_tw]
    have hlt : ∀ i, i < D.ne + 2 → i < D.ne ∨ i = D.ne ∨ i = D.ne + 1 := by omega
    have hu : ∀ {α : Type} (f : Nat → α) a b i, i < D.ne → upd (upd f D.ne a) (D.ne + 1) b i = f i := by
      intro α f a b i hi
      rw [upd_ne _ _ (by omega), upd_ne _ _ (by omega)]
    have hu0 : ∀ {α : Type} (f : Nat → α) a b, upd (upd f D.ne a) (D.ne + 1) b D.ne = a := by
      intro α f a b
      rw [upd_ne _ _ (by omega), upd_same]
    have hu1 : ∀ {α : Type} (f : Nat → α) a b, upd (upd f D.ne a) (D.ne + 1) b (D.ne + 1) = b := by
      intro α f a b
      rw [upd_same]
    have htl : ∀ i, i < D.ne → tw i < D.ne := fun i hi => (tw_lt ev).2 hi
    refine ⟨⟨by dsimp only; omega, ?_, ?_, ?_, ?_, ?_, ?_, ?_, fun hne => ?_, fun v hv => ?_⟩, rfl, rfl, rfl, rfl, rfl, hu0 _ _ _, hu1 _ _ _, hu0 _ _ _, hu1 _ _ _, fun i hi => ⟨hu _ _ _ _ hi, hu _ _ _ _ hi⟩⟩
    all_goals dsimp only
    rotate_right 1
    · obtain ⟨i, r1, r2⟩ := h.cov v hv
      exact ⟨i, by omega, by rw [hu _ _ _ _ r1]; exact r2⟩
    rotate_right 1
    · obtain ⟨i, r1, r2, r3⟩ := h.ray hne
      refine ⟨i, by omega, ?_, ?_⟩
      · rw [hu _ _ _ _ r1]; exact r2
      · rw [hu _ _ _ _ (htl i r1)]; exact r3
    all_goals intro i hi
    all_goals rcases hlt i hi with hi | rfl | rfl
    · rw [hu _ _ _ _ hi]; exact h.twin i hi
    · rw [hu0, t0]
    · rw [hu1, t1]
    · rw [hu _ _ _ _ hi]; have := h.cell i hi; split <;> omega
    · rw [hu0]; omega
    · rw [hu1]; omega
    · intro j hj
      rw [hu _ _ _ _ hi] at hj
      obtain ⟨a, b, c, d⟩ := h.np i hi j hj
      rw [hu _ _ _ _ a, hu _ _ _ _ a, hu _ _ _ _ a, hu _ _ _ _ hi, hu _ _ _ _ (htl i hi)]
      exact ⟨by omega, b, c, d⟩
    · rw [hu0]; simp
    · rw [hu1]; simp
    · intro j hj
      rw [hu _ _ _ _ hi] at hj
      obtain ⟨a, b⟩ := h.pn i hi j hj
      rw [hu _ _ _ _ a]
      exact ⟨by omega, b⟩
    · rw [hu0]; simp
    · rw [hu1]; simp
    · rw [hu _ _ _ _ hi, hu _ _ _ _ hi]; exact h.pv i hi
    · rw [hu0, hu0]
    · rw [hu1, hu1]
    · rw [hu _ _ _ _ hi, hu _ _ _ _ (htl i hi)]; exact h.nv i hi
    · rw [hu0, t0, hu1]
    · rw [hu1, t1, hu0]
    · rw [hu _ _ _ _ hi]; exact h.vr i hi
    · rw [hu0]; simp
    · rw [hu1]; simp
  · rw [if_neg hc] at hr; cases hr

theorem insertEdge_some {D : Diag P} {s1 s2 : Nat} (h1 : s1 < D.cells ∨ D.cells = 0 ∧ s1 ≤ 1) (h2 : s2 ≤ D.cells ∨ D.cells = 0 ∧ s2 ≤ 1) :
    ∃ r, D.insertEdge s1 s2 = some r := by
  unfold Diag.insertEdge
  dsimp only
  rw [if_pos (by split <;> omega)]
  exact ⟨_, rfl⟩

theorem insertCircle_spec {D D' : Diag P} {s1 s3 e12 e23 n1 n2 : Nat} {p : P} (h : DInv D)
    (h12 : e12 < D.ne) (h23 : e23 < D.ne) (hne : e12 ≠ e23) (p12 : D.prev e12 = none) (p23 : D.prev e23 = none)
    (c12 : D.cell e12 = s1) (c23 : D.cell (tw e23) = s3) (cm : D.cell e23 = D.cell (tw e12))
    (hr : D.insertCircle s1 s3 p e12 e23 = some (D', n1, n2)) :
    DInv D' ∧ D'.ne = D.ne + 2 ∧ n1 = D.ne ∧ n2 = D.ne + 1 ∧ D'.verts = D.verts ++ [p] ∧ D'.cells = D.cells ∧
    D'.cell n1 = s1 ∧ D'.cell n2 = s3 ∧ D'.prev n1 = none ∧
    (∀ i < D.ne, D'.cell i = D.cell i) ∧ (∀ i < D.ne, i ≠ e12 → i ≠ e23 → D'.prev i = D.prev i) := by
  unfold Diag.insertCircle at hr
  dsimp only at hr
  split at hr
  · rename_i hc
    simp only [Option.some.injEq, Prod.mk.injEq] at hr
    obtain ⟨rfl, rfl, rfl⟩ := hr
    have ev := h.even
    have t0 : tw D.ne = D.ne + 1 := by unfold tw; simp [ev]
    have t1 : tw (D.ne + 1) = D.ne := by rw [← t0, tw_tw]
    have hlt : ∀ i, i < D.ne + 2 → i < D.ne ∨ i = D.ne ∨ i = D.ne + 1 := by omega
    have htl : ∀ i, i < D.ne → tw i < D.ne := fun i hi => (tw_lt ev).2 hi
    have v12 := (h.pv _ h12).1 p12
    have v23 := (h.pv _ h23).1 p23
    have ht12 := htl _ h12
    have ht23 := htl _ h23
    have hu : ∀ {α : Type} (f : Nat → α) a b i, i < D.ne → upd (upd f D.ne a) (D.ne + 1) b i = f i := by
      intro α f a b i hi
      rw [upd_ne _ _ (by omega), upd_ne _ _ (by omega)]
    have e12t : upd (upd D.twin D.ne (D.ne + 1)) (D.ne + 1) D.ne e12 = tw e12 := by rw [hu _ _ _ _ h12, h.twin _ h12]
    have e23t : upd (upd D.twin D.ne (D.ne + 1)) (D.ne + 1) D.ne e23 = tw e23 := by rw [hu _ _ _ _ h23, h.twin _ h23]
    rw [e12t, e23t]
    have hne' : tw e12 ≠ tw e23 := fun e => hne (tw_inj.1 e)
    -- the new functions
    have hcell : ∀ i, upd (upd D.cell D.ne s1) (D.ne + 1) s3 i = if i = D.ne + 1 then s3 else if i = D.ne then s1 else D.cell i := fun i => rfl
    have hv : ∀ i, upd (upd (upd (upd D.v0 e12 (some D.verts.length)) e23 (some D.verts.length)) D.ne none) (D.ne + 1) (some D.verts.length) i
        = if i = D.ne + 1 then some D.verts.length else if i = D.ne then none else if i = e23 then some D.verts.length else if i = e12 then some D.verts.length else D.v0 i := fun i => rfl
    have hp : ∀ i, upd (upd (upd (upd (upd D.prev D.ne none) (D.ne + 1) none) e12 (some D.ne)) e23 (some (tw e12))) (D.ne + 1) (some (tw e23)) i
        = if i = D.ne + 1 then some (tw e23) else if i = e23 then some (tw e12) else if i = e12 then some D.ne else if i = D.ne + 1 then none else if i = D.ne then none else D.prev i := fun i => rfl
    have hn : ∀ i, upd (upd (upd (upd (upd D.next D.ne none) (D.ne + 1) none) D.ne (some e12)) (tw e12) (some e23)) (tw e23) (some (D.ne + 1)) i
        = if i = tw e23 then some (D.ne + 1) else if i = tw e12 then some e23 else if i = D.ne then some e12 else if i = D.ne + 1 then none else if i = D.ne then none else D.next i := fun i => rfl
    have x1 : ¬ D.ne = D.ne + 1 := by omega
    have x2 : ¬ D.ne = e12 := by omega
    have x3 : ¬ D.ne = e23 := by omega
    have x4 : ¬ D.ne + 1 = e12 := by omega
    have x5 : ¬ D.ne + 1 = e23 := by omega
    have x6 : ¬ D.ne = tw e12 := by omega
    have x7 : ¬ D.ne = tw e23 := by omega
    have x8 : ¬ D.ne + 1 = tw e12 := by omega
    have x9 : ¬ D.ne + 1 = tw e23 := by omega
    have y1 : ¬ e12 = D.ne := by omega
    have y2 : ¬ e12 = D.ne + 1 := by omega
    have y3 : ¬ e23 = D.ne := by omega
    have y4 : ¬ e23 = D.ne + 1 := by omega
    have y5 : ¬ tw e12 = D.ne := by omega
    have y6 : ¬ tw e12 = D.ne + 1 := by omega
    have y7 : ¬ tw e23 = D.ne := by omega
    have y8 : ¬ tw e23 = D.ne + 1 := by omega
    have y9 : ¬ e23 = e12 := fun e => hne e.symm
    refine ⟨⟨by dsimp only; omega, ?_, ?_, ?_, ?_, ?_, ?_, ?_, fun _ => ⟨D.ne, by dsimp only; omega, ?_, ?_⟩, fun v hvl => ?_⟩, rfl, rfl, rfl, rfl, rfl, ?_, ?_, ?_, ?_, ?_⟩
    all_goals dsimp only
    rotate_left 7
    · rw [hv, if_neg x1, if_pos rfl]
    · rw [t0, hv, if_pos rfl]; simp
    · dsimp only at hvl
      rw [List.length_append, List.length_singleton] at hvl
      rcases Nat.lt_or_ge v D.verts.length with hvl | hvl
      · obtain ⟨i, r1, r2⟩ := h.cov v hvl
        refine ⟨i, by omega, ?_⟩
        rw [hv, if_neg (by omega), if_neg (by omega), if_neg, if_neg]
        · exact r2
        · rintro rfl; rw [v12] at r2; cases r2
        · rintro rfl; rw [v23] at r2; cases r2
      · have : v = D.verts.length := by omega
        subst this
        exact ⟨D.ne + 1, by omega, by rw [hv, if_pos rfl]⟩
    rotate_right 7
    all_goals try intro i hi
    all_goals try simp only [hcell, hv, hp, hn]
    · rcases hlt i hi with hi | rfl | rfl
      · rw [hu _ _ _ _ hi]; exact h.twin i hi
      · rw [upd_ne _ _ (by omega), upd_same, t0]
      · rw [upd_same, t1]
    · split_ifs
      · exact hc.2
      · exact hc.1
      · exact h.cell i (by omega)
    · intro j hj
      by_cases a1 : i = tw e23
      · subst a1
        simp only [if_true, Option.some.injEq] at hj
        subst hj
        simp only [if_true, y8, y7, if_false, tw_tw, y4, y3]
        exact ⟨by omega, trivial, c23.symm, trivial⟩
      · rw [if_neg a1] at hj
        by_cases a2 : i = tw e12
        · subst a2
          simp only [if_true, Option.some.injEq] at hj
          subst hj
          simp only [if_true, y3, y4, y5, y6, if_false, tw_tw, y1, y2, hne]
          exact ⟨by omega, trivial, cm, trivial⟩
        · rw [if_neg a2] at hj
          rcases hlt i hi with hi | rfl | rfl
          · have b1 : ¬ i = D.ne := by omega
            have b2 : ¬ i = D.ne + 1 := by omega
            simp only [b1, b2, if_false] at hj
            obtain ⟨c1, c2, c3, c4⟩ := h.np i hi j hj
            have d1 : ¬ j = D.ne := by omega
            have d2 : ¬ j = D.ne + 1 := by omega
            have d3 : ¬ j = e12 := fun e => by rw [e, p12] at c2; cases c2
            have d4 : ¬ j = e23 := fun e => by rw [e, p23] at c2; cases c2
            have f1 : ¬ tw i = e12 := fun e => a2 (by rw [← e, tw_tw])
            have f2 : ¬ tw i = e23 := fun e => a1 (by rw [← e, tw_tw])
            have f3 : ¬ tw i = D.ne := by have := htl i hi; omega
            have f4 : ¬ tw i = D.ne + 1 := by have := htl i hi; omega
            simp only [d1, d2, d3, d4, b1, b2, f1, f2, f3, f4, if_false]
            exact ⟨by omega, c2, c3, c4⟩
          · simp only [if_true, Option.some.injEq] at hj
            subst hj
            simp only [t0, if_true, y1, y2, x1, hne, if_false]
            exact ⟨by omega, trivial, c12, trivial⟩
          · have : ¬ D.ne + 1 = D.ne := by omega
            simp only [if_true, this, if_false] at hj
            cases hj
    · intro j hj
      by_cases a1 : i = D.ne + 1
      · subst a1
        simp only [if_true, Option.some.injEq] at hj
        subst hj
        simp only [if_true]
        exact ⟨by omega, trivial⟩
      · rw [if_neg a1] at hj
        by_cases a2 : i = e23
        · subst a2
          simp only [if_true, Option.some.injEq] at hj
          subst hj
          simp only [hne', if_false, if_true]
          exact ⟨by omega, trivial⟩
        · rw [if_neg a2] at hj
          by_cases a3 : i = e12
          · subst a3
            simp only [if_true, Option.some.injEq] at hj
            subst hj
            simp only [x7, x6, if_false, if_true]
            exact ⟨by omega, trivial⟩
          · rw [if_neg a3, if_neg a1] at hj
            by_cases a4 : i = D.ne
            · rw [if_pos a4] at hj; cases hj
            · rw [if_neg a4] at hj
              have hi' : i < D.ne := by omega
              obtain ⟨c1, c2⟩ := h.pn i hi' j hj
              have d1 : ¬ j = D.ne := by omega
              have d2 : ¬ j = D.ne + 1 := by omega
              have n12 : D.next (tw e12) = none := (h.nv _ ht12).2 (by rw [tw_tw]; exact v12)
              have n23 : D.next (tw e23) = none := (h.nv _ ht23).2 (by rw [tw_tw]; exact v23)
              have d3 : ¬ j = tw e12 := fun e => by rw [e, n12] at c2; cases c2
              have d4 : ¬ j = tw e23 := fun e => by rw [e, n23] at c2; cases c2
              simp only [d1, d2, d3, d4, if_false]
              exact ⟨by omega, c2⟩
    · by_cases a1 : i = D.ne + 1
      · simp only [a1, if_true]; simp
      · by_cases a4 : i = D.ne
        · simp only [a4, x1, x3, x2, if_false, if_true]
        · by_cases a2 : i = e23
          · simp only [a1, a4, a2, if_false, if_true, y4, y3]; simp
          · by_cases a3 : i = e12
            · simp only [a1, a3, if_false, if_true, y2, y1, hne]; simp
            · simp only [a1, a2, a3, a4, if_false]
              exact h.pv i (by omega)
    · have q1 : i = tw e23 ↔ tw i = e23 := by rw [tw_eq_comm]
      have q2 : i = tw e12 ↔ tw i = e12 := by rw [tw_eq_comm]
      have q3 : i = D.ne ↔ tw i = D.ne + 1 := by rw [tw_eq_comm, t1]
      have q4 : i = D.ne + 1 ↔ tw i = D.ne := by rw [tw_eq_comm, t0]
      by_cases a1 : i = D.ne + 1
      · simp only [a1, x9, x8, t1, x1, x3, x2, if_true, if_false]
        simp
      · by_cases a4 : i = D.ne
        · simp only [a4, x7, x6, t0, if_true, if_false]; simp
        · have r3 : ¬ tw i = D.ne + 1 := fun e => a4 (q3.2 e)
          have r4 : ¬ tw i = D.ne := fun e => a1 (q4.2 e)
          by_cases a2 : i = tw e23
          · simp only [a2, tw_tw, y4, y3, if_true, if_false]; simp
          · have r1 : ¬ tw i = e23 := fun e => a2 (q1.2 e)
            by_cases a3 : i = tw e12
            · simp only [a3, tw_tw, y2, y1, if_true, if_false, hne, hne']; simp
            · have r2 : ¬ tw i = e12 := fun e => a3 (q2.2 e)
              simp only [a1, a2, a3, a4, r1, r2, r3, r4, if_false]
              exact h.nv i (by omega)
    · intro v hv'
      rw [List.length_append, List.length_singleton]
      have : D.v0 i = some v ∧ i < D.ne ∨ v = D.verts.length := by
        split_ifs at hv'
        · exact Or.inr (Option.some.inj hv').symm
        · exact Or.inr (Option.some.inj hv').symm
        · exact Or.inr (Option.some.inj hv').symm
        · exact Or.inl ⟨hv', by omega⟩
      rcases this with ⟨a, b⟩ | a
      · have := h.vr i b v a; omega
      · omega
    · simp only [x1, if_false, if_true]
    · simp
    · simp only [x1, x2, x3, if_false, if_true]
    · have b1 : ¬ i = D.ne := by omega
      have b2 : ¬ i = D.ne + 1 := by omega
      simp only [b1, b2, if_false]
    · intro z1 z2
      have b1 : ¬ i = D.ne := by omega
      have b2 : ¬ i = D.ne + 1 := by omega
      simp only [b1, b2, z1, z2, if_false]
  · cases hr

/-! ## The beach line -/

/-- Neighbouring nodes: they share a site, and an active event has two real half-edges to join. -/
def Adj (a b : Node) : Prop := a.r = b.l ∧ (b.ev = true → a.e ≠ none ∧ b.e ≠ none)

/-- A node agrees with the diagram. -/
structure NodeOk (D : Diag P) (nd : Node) : Prop where
  l : nd.l < D.cells
  r : nd.r < D.cells
  tmp : nd.e = none → nd.l = nd.r
  e : ∀ e, nd.e = some e → e < D.ne ∧ D.prev e = none ∧ D.cell e = nd.l ∧ D.cell (tw e) = nd.r

/-- The half-edges on the beach line. -/
def edgesOf (b : List Node) : List Nat := b.filterMap (·.e)

structure SInv (s : St P) : Prop where
  d : DInv s.D
  two : 2 ≤ s.nextSite
  cells : s.D.cells = s.nextSite
  adj : List.IsChain Adj s.beach
  ne : s.beach ≠ []
  head : ∀ nd, s.beach.head? = some nd → nd.ev = false ∧ nd.e ≠ none
  ok : ∀ nd ∈ s.beach, NodeOk s.D nd
  nodup : (edgesOf s.beach).Nodup
  count : (edgesOf s.beach).length + s.D.verts.length + 2 ≤ 2 * s.D.cells
  necount : s.D.ne + 2 = 2 * s.D.cells + 2 * s.D.verts.length

theorem NodeOk.congr {D : Diag P} {a b : Node} (h : NodeOk D a) (hl : b.l = a.l) (hr : b.r = a.r) (he : b.e = a.e) : NodeOk D b :=
  ⟨hl ▸ h.l, hr ▸ h.r, fun x => by rw [hl, hr]; exact h.tmp (he ▸ x), fun e x => by rw [hl, hr]; exact h.e e (he ▸ x)⟩

theorem NodeOk.mono {D D' : Diag P} {a : Node} (h : NodeOk D a) (ev : D.ne % 2 = 0) (hc : D.cells ≤ D'.cells) (hn : D.ne ≤ D'.ne)
    (hcell : ∀ i < D.ne, D'.cell i = D.cell i) (hprev : ∀ i, a.e = some i → i < D.ne → D'.prev i = D.prev i) : NodeOk D' a :=
  ⟨by have := h.l; omega, by have := h.r; omega, h.tmp, fun e x => by
    obtain ⟨a1, a2, a3, a4⟩ := h.e e x
    refine ⟨by omega, ?_, ?_, ?_⟩
    · rw [hprev e x a1]; exact a2
    · rw [hcell e a1]; exact a3
    · rw [hcell _ ((tw_lt ev).2 a1)]; exact a4⟩

theorem activate_l (c : Bool) (a b d : Nat) (nd : Node) : (activate c a b d nd).l = nd.l := by unfold activate; split <;> rfl
theorem activate_r (c : Bool) (a b d : Nat) (nd : Node) : (activate c a b d nd).r = nd.r := by unfold activate; split <;> rfl
theorem activate_e (c : Bool) (a b d : Nat) (nd : Node) : (activate c a b d nd).e = nd.e := by unfold activate; split <;> rfl
theorem activate_ev {c : Bool} {a b d : Nat} {nd : Node} (h : (activate c a b d nd).ev = true) (hf : nd.ev = false) : a ≠ b ∧ b ≠ d := by
  unfold activate at h
  split at h
  · rename_i hc
    simp only [Bool.and_eq_true, bne_iff_ne, ne_eq] at hc
    exact ⟨hc.1.2, hc.2⟩
  · rw [hf] at h; cases h

theorem edgesOf_append (a b : List Node) : edgesOf (a ++ b) = edgesOf a ++ edgesOf b := List.filterMap_append

theorem mem_edgesOf {b : List Node} {e : Nat} : e ∈ edgesOf b ↔ ∃ nd ∈ b, nd.e = some e := by simp [edgesOf]

/-! ### Removing temporary nodes -/

theorem removeTemps_edges (rm : Nat → Bool) : ∀ (b : List Node) (i : Nat), edgesOf (removeTemps rm i b) = edgesOf b
  | [], _ => rfl
  | nd :: r, i => by
    rw [removeTemps]
    split
    · rename_i h
      simp only [Bool.and_eq_true, Option.isNone_iff_eq_none] at h
      rw [removeTemps_edges rm r]
      simp [edgesOf, h.1]
    · have := removeTemps_edges rm r (i + 1)
      unfold edgesOf at this ⊢
      rw [List.filterMap_cons, List.filterMap_cons, this]

theorem removeTemps_sub (rm : Nat → Bool) : ∀ (b : List Node) (i : Nat), ∀ nd ∈ removeTemps rm i b, nd ∈ b
  | [], _, nd, h => by simp [removeTemps] at h
  | a :: r, i, nd, h => by
    rw [removeTemps] at h
    split at h
    · exact List.mem_cons_of_mem _ (removeTemps_sub rm r _ nd h)
    · rcases List.mem_cons.1 h with rfl | h
      · exact List.mem_cons_self
      · exact List.mem_cons_of_mem _ (removeTemps_sub rm r _ nd h)

theorem removeTemps_chain (rm : Nat → Bool) : ∀ (b : List Node) (i : Nat) (a : Node), (∀ nd ∈ b, nd.e = none → nd.l = nd.r) →
    List.IsChain Adj (a :: b) → List.IsChain Adj (a :: removeTemps rm i b)
  | [], _, a, _, h => h
  | nd :: r, i, a, ht, h => by
    rw [removeTemps]
    rw [List.isChain_cons_cons] at h
    have ht' : ∀ x ∈ r, x.e = none → x.l = x.r := fun x hx => ht x (List.mem_cons_of_mem _ hx)
    split
    · rename_i hc
      simp only [Bool.and_eq_true, Option.isNone_iff_eq_none] at hc
      apply removeTemps_chain rm r (i + 1) a ht'
      cases r with
      | nil => exact List.isChain_singleton _
      | cons b r =>
        have h2 := h.2
        rw [List.isChain_cons_cons] at h2 ⊢
        refine ⟨⟨?_, fun hev => absurd hc.1 (h2.1.2 hev).1⟩, h2.2⟩
        rw [h.1.1, ht nd List.mem_cons_self hc.1, h2.1.1]
    · rw [List.isChain_cons_cons]
      exact ⟨h.1, removeTemps_chain rm r (i + 1) nd ht' h.2⟩

theorem removeTemps_inv {s : St P} (h : SInv s) (rm : Nat → Bool) : SInv { s with beach := removeTemps rm 0 s.beach } := by
  have hne := h.ne
  cases hb : s.beach with
  | nil => exact absurd hb hne
  | cons a r =>
    have hh := h.head a (by rw [hb]; rfl)
    have hr : removeTemps rm 0 (a :: r) = a :: removeTemps rm 1 r := by
      rw [removeTemps, if_neg]
      simp only [Bool.and_eq_true, Option.isNone_iff_eq_none, not_and]
      intro x
      exact absurd x hh.2
    have hed := removeTemps_edges rm s.beach 0
    rw [hb] at hed
    have hsub : ∀ nd ∈ removeTemps rm 0 (a :: r), NodeOk s.D nd := fun nd hnd => h.ok nd (by rw [hb]; exact removeTemps_sub rm _ _ nd hnd)
    refine ⟨h.d, h.two, h.cells, ?_, ?_, ?_, hsub, ?_, ?_, h.necount⟩
    · dsimp only
      rw [hr]
      have := h.adj
      rw [hb] at this
      exact removeTemps_chain rm r 1 a (fun nd hnd => (h.ok nd (by rw [hb]; exact List.mem_cons_of_mem _ hnd)).tmp) this
    · dsimp only; rw [hr]; simp
    · dsimp only; rw [hr]; intro nd e; cases e; exact hh
    · dsimp only; rw [hed, ← hb]; exact h.nodup
    · dsimp only; rw [hed, ← hb]; exact h.count

/-! ### A new arc -/

/-- What `insertArc` returns. -/
theorem insertArc_spec {D D' : Diag P} {arc site : Nat} {seg : Bool} {nodes : List Node} (h : DInv D)
    (h0 : D.cells = 0 ∧ arc = 0 ∧ site = 1 ∨ 2 ≤ D.cells ∧ arc < D.cells ∧ site = D.cells)
    (hr : insertArc D arc arc site seg = some (nodes, D')) :
    ∃ A X B, nodes = A :: (X ++ [B]) ∧ (X = [] ∨ X = [⟨site, site, none, false⟩]) ∧
      A = ⟨arc, site, some D.ne, false⟩ ∧ B = ⟨site, arc, some (D.ne + 1), false⟩ ∧
      DInv D' ∧ D'.ne = D.ne + 2 ∧ D'.verts = D.verts ∧ D'.cells = site + 1 ∧
      (∀ i < D.ne, D'.cell i = D.cell i ∧ D'.prev i = D.prev i) ∧ (∀ nd ∈ nodes, NodeOk D' nd) := by
  unfold insertArc at hr
  cases hi : D.insertEdge arc site with
  | none => rw [hi] at hr; cases hr
  | some q =>
    obtain ⟨D1, e1, e2⟩ := q
    rw [hi] at hr
    have hr' := Option.some.inj hr
    simp only [Prod.mk.injEq] at hr'
    obtain ⟨hnodes, rfl⟩ := hr'
    obtain ⟨a1, a2, rfl, rfl, a5, a6, a7, a8, a9, a10, a11⟩ := insertEdge_spec h hi
    have t0 : tw D.ne = D.ne + 1 := by unfold tw; simp [h.even]
    have t1 : tw (D.ne + 1) = D.ne := by rw [← t0, tw_tw]
    have hcells : D1.cells = site + 1 := by
      rw [a6]
      rcases h0 with ⟨b1, b2, b3⟩ | ⟨b1, b2, b3⟩
      · rw [if_pos b1]; omega
      · rw [if_neg (by omega)]; omega
    have harc : arc < D1.cells := by omega
    have hsite : site < D1.cells := by omega
    refine ⟨_, (if seg then [⟨site, site, none, false⟩] else []), _, hnodes.symm, ?_, rfl, rfl, a1, a2, a5, hcells, a11, ?_⟩
    · cases seg
      · exact Or.inl rfl
      · exact Or.inr rfl
    · intro nd hnd
      rw [← hnodes] at hnd
      simp only [List.mem_cons, List.mem_append, List.not_mem_nil, or_false] at hnd
      rcases hnd with rfl | hnd | rfl
      · refine ⟨harc, hsite, fun x => by simp at x, fun e x => ?_⟩
        simp only [Option.some.injEq] at x
        subst x
        rw [t0]
        exact ⟨by omega, a9, a7, a8⟩
      · cases seg
        · simp at hnd
        · simp only [if_true, List.mem_singleton] at hnd
          subst hnd
          exact ⟨hsite, hsite, fun _ => rfl, fun e x => by simp at x⟩
      · refine ⟨hsite, harc, fun x => by simp at x, fun e x => ?_⟩
        simp only [Option.some.injEq] at x
        subst x
        rw [t1]
        exact ⟨by omega, a10, a8, a7⟩

theorem arc_chain {X : List Node} {A B : Node} {site : Nat} (hX : X = [] ∨ X = [⟨site, site, none, false⟩])
    (hA : A.r = site) (hB : B.l = site) (hBv : B.ev = false) : List.IsChain Adj (A :: (X ++ [B])) := by
  rcases hX with rfl | rfl
  · simp only [List.nil_append, List.isChain_cons_cons, List.isChain_singleton, and_true]
    exact ⟨by rw [hA, hB], fun x => by rw [hBv] at x; cases x⟩
  · simp only [List.cons_append, List.nil_append, List.isChain_cons_cons, List.isChain_singleton, and_true]
    exact ⟨⟨hA, fun x => by cases x⟩, ⟨hB.symm, fun x => by rw [hBv] at x; cases x⟩⟩

theorem edgesOf_arc {X : List Node} {A B : Node} {site a b : Nat} (hX : X = [] ∨ X = [⟨site, site, none, false⟩])
    (hA : A.e = some a) (hB : B.e = some b) : edgesOf (A :: (X ++ [B])) = [a, b] := by
  rcases hX with rfl | rfl <;> simp [edgesOf, hA, hB]

/-- A change that keeps sites and half-edge. -/
def Keeps (f : Node → Node) : Prop := ∀ nd, (f nd).l = nd.l ∧ (f nd).r = nd.r ∧ (f nd).e = nd.e

theorem keeps_activate (c : Bool) (a b d : Nat) : Keeps (activate c a b d) := fun nd => ⟨activate_l .., activate_r .., activate_e ..⟩
theorem keeps_activate' (c : Bool) (a b d : Nat) : Keeps (fun nd => activate c a b d (deactivate nd)) :=
  fun nd => ⟨activate_l .., activate_r .., activate_e ..⟩

theorem edgesOf_onHead {f : Node → Node} (hf : Keeps f) (b : List Node) : edgesOf (onHead f b) = edgesOf b := by
  cases b with
  | nil => rfl
  | cons a r => simp only [onHead, edgesOf, List.filterMap_cons, (hf a).2.2]

theorem mem_onHead {f : Node → Node} {b : List Node} {nd : Node} (h : nd ∈ onHead f b) : nd ∈ b ∨ ∃ a ∈ b, nd = f a := by
  cases b with
  | nil => exact Or.inl h
  | cons a r =>
    rcases List.mem_cons.1 h with rfl | h
    · exact Or.inr ⟨a, List.mem_cons_self, rfl⟩
    · exact Or.inl (List.mem_cons_of_mem _ h)

theorem chain_head {a a' : Node} {R : List Node} (h : List.IsChain Adj (a :: R)) (hr : a'.r = a.r) (he : a'.e = a.e) :
    List.IsChain Adj (a' :: R) := by
  cases R with
  | nil => exact List.isChain_singleton _
  | cons b R =>
    rw [List.isChain_cons_cons] at h ⊢
    refine ⟨⟨by rw [hr]; exact h.1.1, fun x => ?_⟩, h.2⟩
    rw [he]; exact h.1.2 x

theorem chain_onHead {f : Node → Node} (hf : Keeps f) {R : List Node} (h : List.IsChain Adj R) : List.IsChain Adj (onHead f R) := by
  cases R with
  | nil => exact h
  | cons a R => exact chain_head h (hf a).2.1 (hf a).2.2

theorem nodup_ins {E1 E2 : List Nat} {n : Nat} (h : (E1 ++ E2).Nodup) (hl : ∀ e ∈ E1 ++ E2, e < n) : (E1 ++ [n, n + 1] ++ E2).Nodup := by
  rw [List.nodup_append] at h
  obtain ⟨h1, h2, h3⟩ := h
  have l1 : ∀ e ∈ E1, e < n := fun e he => hl e (List.mem_append_left _ he)
  have l2 : ∀ e ∈ E2, e < n := fun e he => hl e (List.mem_append_right _ he)
  rw [List.nodup_append, List.nodup_append]
  refine ⟨⟨h1, by simp, ?_⟩, h2, ?_⟩
  · intro a ha b hb
    have := l1 a ha
    simp only [List.mem_cons, List.not_mem_nil, or_false] at hb
    omega
  · intro a ha b hb
    have := l2 b hb
    rcases List.mem_append.1 ha with ha | ha
    · exact h3 a ha b hb
    · simp only [List.mem_cons, List.not_mem_nil, or_false] at ha
      omega

theorem site_assemble {s : St P} (h : SInv s) {L R : List Node} (hb : s.beach = L ++ R) {arc : Nat} {seg : Bool} (harc : arc < s.D.cells)
    {nodes : List Node} {D' : Diag P} (hi : insertArc s.D arc arc s.nextSite seg = some (nodes, D'))
    {f g : Node → Node} (hf : Keeps f) (hg : Keeps g)
    (hl : ∀ nd, L.getLast? = some nd → nd.r = arc ∧ ((g ⟨arc, s.nextSite, some s.D.ne, false⟩).ev = true → nd.e ≠ none))
    (hL : L = [] → (g ⟨arc, s.nextSite, some s.D.ne, false⟩).ev = false)
    (hr : ∀ nd, R.head? = some nd → nd.l = arc ∧ ((f nd).ev = true → nd.e ≠ none)) :
    SInv ⟨L ++ onHead g nodes ++ onHead f R, D', s.nextSite + 1⟩ := by
  have h0 : s.D.cells = 0 ∧ arc = 0 ∧ s.nextSite = 1 ∨ 2 ≤ s.D.cells ∧ arc < s.D.cells ∧ s.nextSite = s.D.cells :=
    Or.inr ⟨by rw [h.cells]; exact h.two, harc, h.cells.symm⟩
  obtain ⟨A, X, B, rfl, hX, hA, hB, d1, d2, d3, d4, d5, d6⟩ := insertArc_spec h.d h0 hi
  have hgA : (g A).l = arc ∧ (g A).r = s.nextSite ∧ (g A).e = some s.D.ne := by
    obtain ⟨a, b, c⟩ := hg A
    rw [a, b, c, hA]
    exact ⟨rfl, rfl, rfl⟩
  have hBe : B.e = some (s.D.ne + 1) := by rw [hB]
  have hE : edgesOf (L ++ onHead g (A :: (X ++ [B])) ++ onHead f R) = edgesOf L ++ [s.D.ne, s.D.ne + 1] ++ edgesOf R := by
    rw [edgesOf_append, edgesOf_append, edgesOf_onHead hf, edgesOf_onHead hg, edgesOf_arc hX (by rw [hA]) hBe]
  have hlt : ∀ e ∈ edgesOf L ++ edgesOf R, e < s.D.ne := by
    intro e he
    rw [← edgesOf_append, ← hb, mem_edgesOf] at he
    obtain ⟨nd, hnd, hne⟩ := he
    exact ((h.ok nd hnd).e e hne).1
  have hmono : ∀ nd ∈ s.beach, NodeOk D' nd := fun nd hnd =>
    (h.ok nd hnd).mono h.d.even (by rw [d4, h.cells]; omega) (by omega) (fun i hi => (d5 i hi).1) (fun i _ hi => (d5 i hi).2)
  have hadj := h.adj
  rw [hb] at hadj
  refine ⟨d1, by have := h.two; dsimp only; omega, d4, ?_, by simp [onHead], ?_, ?_, ?_, ?_, ?_⟩
  · -- adjacency
    show List.IsChain Adj (L ++ (g A :: (X ++ [B])) ++ onHead f R)
    have hmid : List.IsChain Adj (g A :: (X ++ [B])) := arc_chain hX hgA.2.1 (by rw [hB]) (by rw [hB])
    have hright : List.IsChain Adj (g A :: (X ++ [B]) ++ onHead f R) := by
      cases R with
      | nil => simpa [onHead] using hmid
      | cons r R =>
        have hRc : List.IsChain Adj (r :: R) := (List.isChain_append.1 hadj).2.1
        obtain ⟨q1, q2⟩ := hr r rfl
        rw [show g A :: (X ++ [B]) ++ onHead f (r :: R) = (g A :: X) ++ B :: f r :: R by simp [onHead]]
        rw [List.isChain_append_cons_cons]
        refine ⟨by simpa using hmid, ⟨?_, fun x => ⟨by rw [hBe]; simp, ?_⟩⟩, chain_head hRc (hf r).2.1 (hf r).2.2⟩
        · rw [hB, (hf r).1, q1]
        · rw [(hf r).2.2]; exact q2 x
    rw [List.append_assoc]
    rcases List.eq_nil_or_concat' L with rfl | ⟨L', left, rfl⟩
    · exact hright
    · obtain ⟨q1, q2⟩ := hl left (by simp)
      rw [show L' ++ [left] ++ (g A :: (X ++ [B]) ++ onHead f R) = L' ++ left :: g A :: (X ++ [B] ++ onHead f R) by simp]
      rw [List.isChain_append_cons_cons]
      refine ⟨(List.isChain_append.1 hadj).1, ⟨?_, fun x => ⟨?_, by rw [hgA.2.2]; simp⟩⟩, by simpa using hright⟩
      · rw [q1, hgA.1]
      · rw [hA] at x; exact q2 x
  · intro nd hnd
    dsimp only at hnd
    cases L with
    | nil =>
      simp only [onHead, List.nil_append, List.cons_append, List.head?_cons, Option.some.injEq] at hnd
      subst hnd
      refine ⟨?_, by rw [hgA.2.2]; simp⟩
      rw [hA]; exact hL rfl
    | cons l L =>
      simp only [List.cons_append, List.head?_cons, Option.some.injEq] at hnd
      subst hnd
      exact h.head l (by rw [hb]; rfl)
  · intro nd hnd
    dsimp only at hnd ⊢
    rw [List.mem_append, List.mem_append] at hnd
    rcases hnd with (hnd | hnd) | hnd
    · exact hmono nd (by rw [hb]; exact List.mem_append_left _ hnd)
    · rcases mem_onHead hnd with hnd | ⟨a, ha, rfl⟩
      · exact d6 nd hnd
      · exact (d6 a ha).congr (hg a).1 (hg a).2.1 (hg a).2.2
    · rcases mem_onHead hnd with hnd | ⟨a, ha, rfl⟩
      · exact hmono nd (by rw [hb]; exact List.mem_append_right _ hnd)
      · exact (hmono a (by rw [hb]; exact List.mem_append_right _ ha)).congr (hf a).1 (hf a).2.1 (hf a).2.2
  · dsimp only
    rw [hE]
    refine nodup_ins ?_ hlt
    rw [← edgesOf_append, ← hb]
    exact h.nodup
  · have := h.count
    rw [hb, edgesOf_append] at this
    dsimp only
    rw [hE, d3, d4]
    have hc := h.cells
    simp only [List.length_append, List.length_cons, List.length_nil] at this ⊢
    omega
  · have := h.necount
    have hc := h.cells
    dsimp only
    rw [d2, d3, d4]
    omega

theorem insertArc_some {D : Diag P} {arc site : Nat} {seg : Bool}
    (h0 : D.cells = 0 ∧ arc = 0 ∧ site = 1 ∨ 2 ≤ D.cells ∧ arc < D.cells ∧ site = D.cells) :
    ∃ nodes D', insertArc D arc arc site seg = some (nodes, D') := by
  obtain ⟨⟨D1, e1, e2⟩, hq⟩ := insertEdge_some (D := D) (s1 := arc) (s2 := site) (by omega) (by omega)
  unfold insertArc
  rw [hq]
  exact ⟨_, _, rfl⟩

/-- A site event keeps the invariant and dereferences nothing it must not, wherever `lower_bound` points. -/
theorem siteStep_spec {s : St P} (h : SInv s) {n : Nat} (hn : s.nextSite < n) (seg : Bool) (rm : Nat → Bool) (pos : Nat) (c1 c2 : Bool) :
    ∃ s', siteStep n seg rm pos c1 c2 s = some s' ∧ SInv s' ∧ s'.nextSite = s.nextSite + 1 ∧ s'.D.verts = s.D.verts := by
  unfold siteStep
  rw [if_pos hn]
  dsimp only
  have hT : SInv { s with beach := if seg then s.beach else removeTemps rm 0 s.beach } := by
    cases seg
    · exact removeTemps_inv h rm
    · exact h
  generalize (if seg then s.beach else removeTemps rm 0 s.beach) = beach at hT ⊢
  have hsplit : beach = beach.take pos ++ beach.drop pos := (List.take_append_drop pos beach).symm
  generalize beach.take pos = L at hsplit ⊢
  generalize beach.drop pos = R at hsplit ⊢
  subst hsplit
  have h0 : ∀ arc, arc < s.D.cells → s.D.cells = 0 ∧ arc = 0 ∧ s.nextSite = 1 ∨ 2 ≤ s.D.cells ∧ arc < s.D.cells ∧ s.nextSite = s.D.cells :=
    fun arc ha => Or.inr ⟨by rw [h.cells]; exact h.two, ha, h.cells.symm⟩
  have hcv : ∀ {arc nodes D'}, arc < s.D.cells → insertArc s.D arc arc s.nextSite seg = some (nodes, D') → D'.verts = s.D.verts := by
    intro arc nodes D' ha hi
    obtain ⟨_, _, _, _, _, _, _, _, _, q, _⟩ := insertArc_spec h.d (h0 arc ha) hi
    exact q
  rcases List.eq_nil_or_concat' L with rfl | ⟨L', left, rfl⟩
  · cases R with
    | nil => exact absurd rfl hT.ne
    | cons right R =>
      have hright := hT.ok right (by simp)
      have hev := (hT.head right rfl).1
      have hrl := hright.l
      obtain ⟨nodes, D', hi⟩ := insertArc_some (D := s.D) (seg := seg) (h0 right.l hrl)
      simp only [List.getLast?_nil, hi]
      refine ⟨_, rfl, ?_, rfl, hcv hrl hi⟩
      have := site_assemble hT (L := []) (R := right :: R) rfl hrl hi (keeps_activate c2 s.nextSite right.l right.r) (g := id)
        (fun nd => ⟨rfl, rfl, rfl⟩) (by simp) (fun _ => rfl) (by
          intro nd hnd
          cases hnd
          exact ⟨rfl, fun x y => (activate_ev x hev).2 (hright.tmp y)⟩)
      have hid : onHead id nodes = nodes := by cases nodes <;> rfl
      rw [hid] at this
      exact this
  · have hleft := hT.ok left (by simp)
    cases R with
    | nil =>
      obtain ⟨nodes, D', hi⟩ := insertArc_some (D := s.D) (seg := seg) (h0 left.r hleft.r)
      simp only [List.getLast?_concat, hi]
      refine ⟨_, rfl, ?_, rfl, hcv hleft.r hi⟩
      have := site_assemble hT (L := L' ++ [left]) (R := []) rfl hleft.r hi (f := id) (fun nd => ⟨rfl, rfl, rfl⟩) (keeps_activate c1 left.l left.r s.nextSite)
        (by
          intro nd hnd
          rw [List.getLast?_concat, Option.some.injEq] at hnd
          subst hnd
          exact ⟨rfl, fun x y => (activate_ev x rfl).1 (hleft.tmp y)⟩) (by simp) (by simp)
      simpa [onHead] using this
    | cons right R =>
      have hright := hT.ok right (by simp)
      have hadj : left.r = right.l := by
        have := hT.adj
        dsimp only at this
        rw [List.append_assoc, List.singleton_append, List.isChain_append_cons_cons] at this
        exact this.2.1.1
      obtain ⟨nodes, D', hi⟩ := insertArc_some (D := s.D) (seg := seg) (h0 left.r hleft.r)
      have hi' : insertArc s.D left.r (deactivate right).l s.nextSite seg = some (nodes, D') := by
        show insertArc s.D left.r right.l s.nextSite seg = _
        rw [← hadj]; exact hi
      simp only [List.getLast?_concat, hi']
      refine ⟨_, rfl, ?_, rfl, hcv hleft.r hi⟩
      have := site_assemble hT (L := L' ++ [left]) (R := right :: R) rfl hleft.r hi
        (keeps_activate' c2 s.nextSite right.l right.r) (keeps_activate c1 left.l left.r s.nextSite)
        (by
          intro nd hnd
          rw [List.getLast?_concat, Option.some.injEq] at hnd
          subst hnd
          exact ⟨rfl, fun x y => (activate_ev x rfl).1 (hleft.tmp y)⟩) (by simp) (by
          intro nd hnd
          cases hnd
          exact ⟨hadj.symm, fun x y => (activate_ev x rfl).2 (hright.tmp y)⟩)
      exact this

/-- A circle event keeps the invariant and dereferences nothing it must not. -/
theorem circleStep_spec {s : St P} (h : SInv s) {k : Nat} {nd : Node} (hk : s.beach[k]? = some nd) (hev : nd.ev = true) (p : P) (c1 c2 : Bool) :
    ∃ s', circleStep k p c1 c2 s = some s' ∧ SInv s' ∧ s'.nextSite = s.nextSite ∧ s'.D.verts = s.D.verts ++ [p] := by
  unfold circleStep
  dsimp only
  have hsplit : s.beach = s.beach.take k ++ s.beach.drop k := (List.take_append_drop k s.beach).symm
  have hlt : k < s.beach.length := by
    rcases Nat.lt_or_ge k s.beach.length with q | q
    · exact q
    · rw [List.getElem?_eq_none q] at hk; cases hk
  have hdrop : ∃ R, s.beach.drop k = nd :: R := by
    refine ⟨s.beach.drop (k + 1), ?_⟩
    rw [List.drop_eq_getElem_cons hlt]
    rw [List.getElem?_eq_getElem hlt, Option.some.injEq] at hk
    rw [hk]
  obtain ⟨R, hR⟩ := hdrop
  rw [hR] at hsplit ⊢
  generalize s.beach.take k = L at hsplit ⊢
  have hadj := h.adj
  have hok := h.ok
  have hnodup := h.nodup
  have hcount := h.count
  have hhead := h.head
  rw [hsplit] at hadj hok hnodup hcount hhead
  rcases List.eq_nil_or_concat' L with rfl | ⟨L', ab, rfl⟩
  · have := (hhead nd rfl).1
    rw [hev] at this; cases this
  · have had : Adj ab nd := by
      have := hadj
      rw [List.append_assoc, List.singleton_append, List.isChain_append_cons_cons] at this
      exact this.2.1
    obtain ⟨e12, h12⟩ := Option.ne_none_iff_exists'.1 (had.2 hev).1
    obtain ⟨e23, h23⟩ := Option.ne_none_iff_exists'.1 (had.2 hev).2
    have oka := hok ab (by simp)
    have okb := hok nd (by simp)
    obtain ⟨a1, a2, a3, a4⟩ := oka.e _ h12
    obtain ⟨b1, b2, b3, b4⟩ := okb.e _ h23
    have hE : edgesOf (L' ++ [ab] ++ nd :: R) = edgesOf L' ++ e12 :: e23 :: edgesOf R := by
      rw [edgesOf_append, edgesOf_append]
      simp [edgesOf, h12, h23]
    rw [hE] at hnodup hcount
    have hne : e12 ≠ e23 := by
      intro e
      rw [e, List.nodup_append] at hnodup
      have := hnodup.2.1
      rw [List.nodup_cons] at this
      exact this.1 List.mem_cons_self
    simp only [List.getLast?_concat, List.dropLast_concat, hev, if_true, h12, h23]
    have hc : ab.l < s.D.cells ∧ nd.r < s.D.cells := ⟨oka.l, okb.r⟩
    have hsome : ∃ q, s.D.insertCircle ab.l nd.r p e12 e23 = some q := by
      unfold Diag.insertCircle
      dsimp only
      rw [if_pos hc]
      exact ⟨_, rfl⟩
    obtain ⟨⟨D', n1, n2⟩, hi⟩ := hsome
    obtain ⟨d1, d2, rfl, rfl, d5, d6, d7, d8, d9, d10, d11⟩ := insertCircle_spec h.d a1 b1 hne a2 b2 a3 b4 (by rw [b3, a4, had.1]) hi
    simp only [hi]
    refine ⟨_, rfl, ?_, rfl, d5⟩
    have t0 : tw s.D.ne = s.D.ne + 1 := by unfold tw; simp [h.d.even]
    -- the changed node and its right neighbour
    generalize hac : relink c1 L'.getLast? ⟨ab.l, nd.r, some s.D.ne, ab.ev⟩ = ac
    have hacp : ac.l = ab.l ∧ ac.r = nd.r ∧ ac.e = some s.D.ne := by
      rw [← hac]
      unfold relink
      split
      · exact ⟨rfl, rfl, rfl⟩
      · exact ⟨activate_l .., activate_r .., activate_e ..⟩
    have hf : Keeps (fun r1 => activate c2 ab.l nd.r r1.r (deactivate r1)) := fun r1 => ⟨activate_l .., activate_r .., activate_e ..⟩
    have hfev : ∀ r1 : Node, (activate c2 ab.l nd.r r1.r (deactivate r1)).ev = true → nd.r ≠ r1.r := fun r1 x => (activate_ev x rfl).2
    generalize hfd : (fun r1 : Node => activate c2 ab.l nd.r r1.r (deactivate r1)) = f at hf
    have hfev' : ∀ r1 : Node, (f r1).ev = true → nd.r ≠ r1.r := by rw [← hfd]; exact hfev
    have hlt' : ∀ e ∈ edgesOf L' ++ e12 :: e23 :: edgesOf R, e < s.D.ne := by
      intro e he
      rw [← hE, mem_edgesOf] at he
      obtain ⟨x, hx, hxe⟩ := he
      exact ((hok x hx).e e hxe).1
    have hmono : ∀ x ∈ L' ++ R, NodeOk D' x := by
      intro x hx
      have hx' : x ∈ L' ++ [ab] ++ nd :: R := by
        rcases List.mem_append.1 hx with q | q <;> simp [q]
      refine (hok x hx').mono h.d.even (by rw [d6]) (by omega) d10 ?_
      intro i hxi hi
      have hmem : i ∈ edgesOf L' ++ edgesOf R := by rw [← edgesOf_append, mem_edgesOf]; exact ⟨x, hx, hxi⟩
      have hn := hnodup
      rw [List.nodup_append, List.nodup_cons, List.nodup_cons] at hn
      obtain ⟨g1, ⟨g2, g3, g4⟩, g5⟩ := hn
      refine d11 i hi ?_ ?_
      · rintro rfl
        rcases List.mem_append.1 hmem with q | q
        · exact g5 _ q _ List.mem_cons_self rfl
        · exact g2 (List.mem_cons_of_mem _ q)
      · rintro rfl
        rcases List.mem_append.1 hmem with q | q
        · exact g5 _ q _ (List.mem_cons_of_mem _ List.mem_cons_self) rfl
        · exact g3 q
    have hE' : edgesOf (L' ++ ac :: onHead f R) = edgesOf L' ++ s.D.ne :: edgesOf R := by
      rw [edgesOf_append]
      congr 1
      have := edgesOf_onHead hf R
      unfold edgesOf at this ⊢
      rw [List.filterMap_cons, hacp.2.2, this]
    refine ⟨d1, h.two, by rw [← h.cells]; exact d6, ?_, by simp, ?_, ?_, ?_, ?_, ?_⟩
    · dsimp only
      have hR1 : List.IsChain Adj (ac :: onHead f R) := by
        cases R with
        | nil => exact List.isChain_singleton _
        | cons r R =>
          have hc2 : List.IsChain Adj (nd :: r :: R) := (List.isChain_append.1 hadj).2.1
          rw [List.isChain_cons_cons] at hc2
          rw [onHead, List.isChain_cons_cons]
          refine ⟨⟨by rw [hacp.2.1, (hf r).1]; exact hc2.1.1, fun x => ⟨by rw [hacp.2.2]; simp, ?_⟩⟩, chain_head hc2.2 (hf r).2.1 (hf r).2.2⟩
          rw [(hf r).2.2]
          intro y
          refine hfev' r x ?_
          rw [hc2.1.1]
          exact (hok r (by simp)).tmp y
      rcases List.eq_nil_or_concat' L' with rfl | ⟨L2, l1, rfl⟩
      · exact hR1
      · have hadj2 := hadj
        rw [show L2 ++ [l1] ++ [ab] ++ nd :: R = L2 ++ l1 :: ab :: nd :: R by simp, List.isChain_append_cons_cons] at hadj2
        rw [show L2 ++ [l1] ++ ac :: onHead f R = L2 ++ l1 :: ac :: onHead f R by simp, List.isChain_append_cons_cons]
        refine ⟨hadj2.1, ⟨by rw [hacp.1]; exact hadj2.2.1.1, fun x => ⟨?_, by rw [hacp.2.2]; simp⟩⟩, hR1⟩
        intro y
        rw [← hac] at x
        simp only [List.getLast?_concat, relink] at x
        have := (activate_ev x rfl).1
        refine this ?_
        rw [(hok l1 (by simp)).tmp y]
        exact hadj2.2.1.1
    · intro x hx
      dsimp only at hx
      cases L' with
      | nil =>
        simp only [List.nil_append, List.head?_cons, Option.some.injEq] at hx
        subst hx
        refine ⟨?_, by rw [hacp.2.2]; simp⟩
        rw [← hac]
        exact (hhead ab rfl).1
      | cons l L' =>
        simp only [List.cons_append, List.head?_cons, Option.some.injEq] at hx
        subst hx
        exact hhead l rfl
    · intro x hx
      dsimp only at hx ⊢
      rw [List.mem_append, List.mem_cons] at hx
      rcases hx with hx | rfl | hx
      · exact hmono x (List.mem_append_left _ hx)
      · refine ⟨by rw [hacp.1, d6]; exact hc.1, by rw [hacp.2.1, d6]; exact hc.2, fun y => absurd (hacp.2.2.symm.trans y) (by simp), fun e y => ?_⟩
        rw [hacp.2.2, Option.some.injEq] at y
        subst y
        rw [hacp.1, hacp.2.1, t0]
        exact ⟨by omega, d9, d7, d8⟩
      · rcases mem_onHead hx with hx | ⟨a, ha, rfl⟩
        · exact hmono x (List.mem_append_right _ hx)
        · exact (hmono a (List.mem_append_right _ ha)).congr (hf a).1 (hf a).2.1 (hf a).2.2
    · dsimp only
      rw [hE']
      rw [List.nodup_append, List.nodup_cons, List.nodup_cons] at hnodup
      obtain ⟨g1, ⟨g2, g3, g4⟩, g5⟩ := hnodup
      rw [List.nodup_append, List.nodup_cons]
      refine ⟨g1, ⟨fun q => ?_, g4⟩, ?_⟩
      · have := hlt' s.D.ne (by simp [q])
        omega
      · intro a ha b hb
        rcases List.mem_cons.1 hb with rfl | hb
        · have := hlt' a (by simp [ha]); omega
        · exact g5 a ha b (by simp [hb])
    · dsimp only
      rw [hE', d5, d6]
      simp only [List.length_append, List.length_cons, List.length_nil] at hcount ⊢
      omega
    · have := h.necount
      dsimp only
      rw [d2, d5, d6, List.length_append, List.length_singleton]
      omega

/-! ### The start -/

theorem init_default {seg : Bool} : ∃ nodes D, insertArc (Diag.empty P) 0 0 1 seg = some (nodes, D) ∧ SInv (⟨nodes, D, 2⟩ : St P) ∧ D.verts = [] := by
  have h0 : (Diag.empty P).cells = 0 ∧ 0 = 0 ∧ 1 = 1 ∨ 2 ≤ (Diag.empty P).cells ∧ 0 < (Diag.empty P).cells ∧ 1 = (Diag.empty P).cells := Or.inl ⟨rfl, rfl, rfl⟩
  obtain ⟨nodes, D, hi⟩ := insertArc_some (D := Diag.empty P) (seg := seg) h0
  obtain ⟨A, X, B, rfl, hX, hA, hB, d1, d2, d3, d4, d5, d6⟩ := insertArc_spec DInv.empty h0 hi
  refine ⟨_, _, hi, ⟨d1, by simp, d4, ?_, by simp, ?_, d6, ?_, ?_, ?_⟩, d3⟩
  · exact arc_chain hX (by rw [hA]) (by rw [hB]) (by rw [hB])
  · intro nd hnd
    cases hnd
    rw [hA]
    exact ⟨rfl, by simp⟩
  · rw [edgesOf_arc hX (by rw [hA]) (by rw [hB])]; simp
  · rw [edgesOf_arc hX (by rw [hA]) (by rw [hB]), d3, d4]; simp [Diag.empty]
  · rw [d2, d3, d4]; simp [Diag.empty]

/-- The invariant of the collinear start. -/
structure CInv (i : Nat) (b : List Node) (D : Diag P) : Prop where
  d : DInv D
  adj : List.IsChain Adj b
  last : ∀ nd, b.getLast? = some nd → nd.r = i
  cells : D.cells = i + 1
  ev : ∀ nd ∈ b, nd.ev = false ∧ nd.e ≠ none
  ok : ∀ nd ∈ b, NodeOk D nd
  nodup : (edgesOf b).Nodup
  len : (edgesOf b).length = i
  verts : D.verts = []
  ne : D.ne = 2 * i

theorem collinear_first : ∃ D, (Diag.empty P).insertEdge 0 1 = some (D, 0, 1) ∧ CInv 1 [⟨0, 1, some 0, false⟩] D := by
  obtain ⟨⟨D, e1, e2⟩, hi⟩ := insertEdge_some (D := Diag.empty P) (s1 := 0) (s2 := 1) (by simp [Diag.empty]) (by simp [Diag.empty])
  obtain ⟨a1, a2, rfl, rfl, a5, a6, a7, a8, a9, a10, a11⟩ := insertEdge_spec DInv.empty hi
  refine ⟨D, hi, ⟨a1, List.isChain_singleton _, by simp, a6, by simp, ?_, by simp [edgesOf], by simp [edgesOf], a5, a2⟩⟩
  intro nd hnd
  rw [List.mem_singleton] at hnd
  subst hnd
  have hc : D.cells = 2 := a6
  refine ⟨by rw [hc]; simp, by rw [hc]; simp, by simp, fun e he => ?_⟩
  simp only [Option.some.injEq] at he
  subst he
  exact ⟨by rw [a2]; simp [Diag.empty], a9, a7, a8⟩

theorem collinearGo_spec : ∀ (k i : Nat) (b : List Node) (D : Diag P), CInv i b D →
    ∃ b' D', collinearGo k i b D = some (b', D') ∧ CInv (i + k) b' D'
  | 0, i, b, D, h => ⟨b, D, rfl, h⟩
  | k + 1, i, b, D, h => by
    obtain ⟨⟨D1, e1, e2⟩, hi⟩ := insertEdge_some (D := D) (s1 := i) (s2 := i + 1) (by have := h.cells; omega) (by have := h.cells; omega)
    obtain ⟨a1, a2, rfl, rfl, a5, a6, a7, a8, a9, a10, a11⟩ := insertEdge_spec h.d hi
    have t0 : tw D.ne = D.ne + 1 := by unfold tw; simp [h.d.even]
    have hc : D1.cells = i + 2 := by rw [a6, h.cells, if_neg (by omega)]
    have hlt : ∀ e ∈ edgesOf b, e < D.ne := by
      intro e he
      rw [mem_edgesOf] at he
      obtain ⟨nd, hnd, hne⟩ := he
      exact ((h.ok nd hnd).e e hne).1
    have hE : edgesOf (b ++ [⟨i, i + 1, some D.ne, false⟩]) = edgesOf b ++ [D.ne] := by rw [edgesOf_append]; rfl
    have hn : CInv (i + 1) (b ++ [⟨i, i + 1, some D.ne, false⟩]) D1 := by
      refine ⟨a1, ?_, by simp, hc, ?_, ?_, ?_, ?_, by rw [a5]; exact h.verts, by rw [a2, h.ne]; omega⟩
      · rw [List.isChain_append]
        refine ⟨h.adj, List.isChain_singleton _, ?_⟩
        intro x hx y hy
        simp only [List.head?_cons, Option.mem_some_iff] at hy
        subst hy
        exact ⟨h.last x hx, by simp⟩
      · intro nd hnd
        rcases List.mem_append.1 hnd with q | q
        · exact h.ev nd q
        · rw [List.mem_singleton] at q; subst q; exact ⟨rfl, by simp⟩
      · intro nd hnd
        rcases List.mem_append.1 hnd with q | q
        · exact (h.ok nd q).mono h.d.even (by rw [hc, h.cells]; omega) (by omega) (fun i hi => (a11 i hi).1) (fun i _ hi => (a11 i hi).2)
        · rw [List.mem_singleton] at q
          subst q
          refine ⟨by rw [hc]; dsimp only; omega, by rw [hc]; dsimp only; omega, by simp, fun e he => ?_⟩
          simp only [Option.some.injEq] at he
          subst he
          rw [t0]
          exact ⟨by omega, a9, a7, a8⟩
      · rw [hE, List.nodup_append]
        refine ⟨h.nodup, by simp, ?_⟩
        intro a ha b hb
        rw [List.mem_singleton] at hb
        have := hlt a ha
        omega
      · rw [hE, List.length_append, h.len]; rfl
    obtain ⟨b', D', q1, q2⟩ := collinearGo_spec k (i + 1) _ D1 hn
    refine ⟨b', D', ?_, by rw [show i + (k + 1) = i + 1 + k by omega]; exact q2⟩
    rw [collinearGo, hi]
    exact q1

theorem CInv.sinv {i : Nat} {b : List Node} {D : Diag P} (h : CInv i b D) (hi : 1 ≤ i) : SInv ⟨b, D, i + 1⟩ := by
  have hl : b ≠ [] := by
    rintro rfl
    have := h.len
    simp [edgesOf] at this
    omega
  refine ⟨h.d, by dsimp only; omega, h.cells, h.adj, hl, ?_, h.ok, h.nodup, ?_, ?_⟩
  · intro nd hnd
    exact h.ev nd (List.mem_of_mem_head? hnd)
  · dsimp only; rw [h.len, h.verts, h.cells]; simp; omega
  · dsimp only; rw [h.verts, h.cells, h.ne]; simp; omega

/-- `init_beach_line` for two or more sites. -/
theorem init_spec {n skip : Nat} (hn : 2 ≤ n) (h1 : 1 ≤ skip) (h2 : skip ≤ n) (seg : Bool) :
    ∃ s, initBeach (P := P) n skip seg = some s ∧ SInv s ∧ s.nextSite ≤ n ∧ s.D.verts = [] := by
  unfold initBeach
  rw [if_neg (by omega), if_neg (by omega)]
  by_cases hs : skip = 1
  · rw [if_pos hs]
    obtain ⟨nodes, D, hi, hv, hve⟩ := init_default (P := P) (seg := seg)
    rw [hi]
    exact ⟨_, rfl, hv, hn, hve⟩
  · rw [if_neg hs]
    obtain ⟨D, hi, hc⟩ := collinear_first (P := P)
    obtain ⟨b', D', q1, q2⟩ := collinearGo_spec (skip - 2) 1 _ D hc
    have : collinearGo (skip - 1) 0 [] (Diag.empty P) = some (b', D') := by
      rw [show skip - 1 = skip - 2 + 1 by omega, collinearGo, hi]
      exact q1
    rw [this]
    have hv := q2.sinv (by omega)
    rw [show 1 + (skip - 2) + 1 = skip by omega] at hv
    exact ⟨_, rfl, hv, h2, q2.verts⟩

end Verif.Voronoi
