import Verif.Proofs.VoronoiRun

/-!
# C40, C59, C60: the half-edge structure of Voronoi diagrams

The states are those of `Run` (Spec/VoronoiDiagram.lean): any number of sites, any order of events, any answers of
the geometric predicates.
-/
namespace Verif.Properties.VoronoiDiagram
open Verif.Voronoi

variable {P : Type}

/-! ## Replaying event lists, for the examples -/

/-- A site event at a position, or a circle event of a node at a position. -/
inductive Ev where
  | site (pos : Nat) (c1 c2 : Bool)
  | circle (i p : Nat) (c1 c2 : Bool)

/-- Replay events; circle events that join arcs of the same site are refused. -/
def replay (n : Nat) : List Ev → St Nat → Option (St Nat)
  | [], s => some s
  | .site pos c1 c2 :: r, s => (siteStep n false (fun _ => false) pos c1 c2 s).bind (replay n r)
  | .circle i p c1 c2 :: r, s =>
    if (s.beach[i]?).bind (fun a => (s.beach[i + 1]?).map fun b => a.l == b.r) = some false then (circleStep (i + 1) p c1 c2 s).bind (replay n r)
    else none

theorem replay_run {n : Nat} : ∀ (l : List Ev) {k : Nat} {s s' : St Nat}, Run n true k s → replay n l s = some s' → Run n true (k + l.length) s'
  | [], k, s, s', h, hr => by cases hr; exact h
  | .site pos c1 c2 :: r, k, s, s', h, hr => by
    rw [replay, Option.bind_eq_some_iff] at hr
    obtain ⟨s1, h1, h2⟩ := hr
    have := replay_run r (Run.site h h1) h2
    rw [List.length_cons, show k + (r.length + 1) = k + 1 + r.length by omega]
    exact this
  | .circle i p c1 c2 :: r, k, s, s', h, hr => by
    rw [replay] at hr
    split at hr
    · rename_i hc
      rw [Option.bind_eq_some_iff] at hr
      obtain ⟨s1, h1, h2⟩ := hr
      have := replay_run r (Run.circle h (fun _ a b ha hb => by rw [ha, hb] at hc; simpa using hc) h1) h2
      rw [List.length_cons, show k + (r.length + 1) = k + 1 + r.length by omega]
      exact this
    · cases hr

/-- Sites 0 and 1, then site 2 splits the arc of site 0, then the circle event that ends the arc of site 1. -/
def demo : Option (St Nat) := (initBeach 3 1 false).bind (replay 3 [.site 0 true true, .circle 1 7 true true])

theorem demo_run : ∃ s, demo = some s ∧ Run 3 true 2 s := by
  cases h1 : initBeach (P := Nat) 3 1 false with
  | none => exact absurd h1 (by simp [initBeach, insertArc, Diag.insertEdge, Diag.empty])
  | some s1 =>
    have r1 : Run 3 true 0 s1 := Run.init (by omega) (by omega) h1
    have : ∃ s, demo = some s := ⟨_, rfl⟩
    obtain ⟨s, hs⟩ := this
    have h2 : replay 3 [.site 0 true true, .circle 1 7 true true] s1 = some s := by
      unfold demo at hs
      rw [h1] at hs
      exact hs
    exact ⟨s, hs, replay_run _ r1 h2⟩

/-! ## C40 -/

/-- Whatever the events and the answers of the predicates are, the diagram is a half-edge structure. -/
theorem C40_sweep {n k : Nat} {d : Bool} {s : St P} (h : Run n d k s) : HalfEdges s.D := (run_inv h).d.toL.halfEdges

/-- The half-edge of a beach line node lies in the cell of its left site, the twin in the cell of its right site; neighbouring
nodes share a site. -/
theorem C40_beach {n k : Nat} {d : Bool} {s : St P} (h : Run n d k s) :
    (∀ nd ∈ s.beach, ∀ e, nd.e = some e → e < s.D.ne ∧ s.D.cell e = nd.l ∧ s.D.cell (s.D.twin e) = nd.r) ∧
    List.IsChain (fun a b : Node => a.r = b.l) s.beach := by
  by_cases hn : 2 ≤ n
  · have hi := (run_inv h).big hn
    refine ⟨fun nd hnd e he => ?_, hi.adj.imp fun _ _ q => q.1⟩
    obtain ⟨a, b, c, f⟩ := (hi.ok nd hnd).e e he
    exact ⟨a, c, by rw [hi.d.twin e a]; exact f⟩
  · rw [((run_inv h).small (by omega)).1]
    simp

/-- No null pointer is followed: while sites are left a site event can be processed wherever `lower_bound` points, and
every active circle event can be processed. -/
theorem C40_progress {n k : Nat} {d : Bool} {s : St P} (h : Run n d k s) :
    (s.nextSite < n → ∀ seg rm pos c1 c2, ∃ s', siteStep n seg rm pos c1 c2 s = some s') ∧
    (∀ j nd, s.beach[j]? = some nd → nd.ev = true → ∀ p c1 c2, ∃ i s', j = i + 1 ∧ circleStep j p c1 c2 s = some s') := by
  have hi := run_inv h
  by_cases hn : 2 ≤ n
  · refine ⟨fun hlt seg rm pos c1 c2 => ?_, fun j nd hj hev p c1 c2 => ?_⟩
    · obtain ⟨s', a, _⟩ := siteStep_spec (hi.big hn) hlt seg rm pos c1 c2
      exact ⟨s', a⟩
    · obtain ⟨i, rfl⟩ := event_pos (hi.big hn) hj hev
      obtain ⟨s', a, _⟩ := circleStep_spec (hi.big hn) hj hev p c1 c2
      exact ⟨i, s', rfl, a⟩
  · have hs := hi.small (by omega)
    refine ⟨fun hlt => by omega, fun j nd hj => ?_⟩
    rw [hs.1] at hj
    simp at hj

/-- A site event separates the new site from the site whose arc it splits. -/
theorem C40_site_edge {n k : Nat} {d : Bool} {s s' : St P} {seg : Bool} {rm : Nat → Bool} {pos : Nat} {c1 c2 : Bool} (h : Run n d k s)
    (hs : siteStep n seg rm pos c1 c2 s = some s') :
    s'.D.ne = s.D.ne + 2 ∧ s'.D.cell (s.D.ne + 1) = s.nextSite ∧ s'.D.cell s.D.ne < s.nextSite ∧
    (∃ nd ∈ s.beach, s'.D.cell s.D.ne = nd.l ∨ s'.D.cell s.D.ne = nd.r) ∧ ∀ e < s.D.ne, s'.D.cell e = s.D.cell e := by
  obtain ⟨a, ⟨nd, q4, q5⟩, q1, q2, q3⟩ := siteStep_cell hs
  have hi := run_inv h
  have hn : 2 ≤ n := by
    by_contra hn
    have := (hi.small (by omega)).2.1
    have := siteStep_lt hs
    omega
  have hok := (hi.big hn).ok nd q4
  have h1 := hok.l
  have h2 := hok.r
  have h3 := (hi.big hn).cells
  have e0 : s'.D.cell s.D.ne = a := by rw [q2, upd_ne _ _ (by omega), upd_same]
  refine ⟨q1, by rw [q2, upd_same], by rw [e0]; omega, ⟨nd, q4, by rw [e0]; exact q5⟩, fun e he => ?_⟩
  rw [q2, upd_ne _ _ (by omega), upd_ne _ _ (by omega)]

/-- A circle event separates the outer two of the three sites. -/
theorem C40_circle_edge {s s' : St P} {i : Nat} {p : P} {c1 c2 : Bool} (h : circleStep (i + 1) p c1 c2 s = some s') :
    ∃ a b, s.beach[i]? = some a ∧ s.beach[i + 1]? = some b ∧ s'.D.ne = s.D.ne + 2 ∧ s'.D.cell s.D.ne = a.l ∧ s'.D.cell (s.D.ne + 1) = b.r ∧
      ∀ e < s.D.ne, s'.D.cell e = s.D.cell e := by
  obtain ⟨a, b, p1, p2, q1, q2, q3⟩ := circleStep_cell h
  refine ⟨a, b, p1, p2, q1, by rw [q2, upd_ne _ _ (by omega), upd_same], by rw [q2, upd_same], fun e he => ?_⟩
  rw [q2, upd_ne _ _ (by omega), upd_ne _ _ (by omega)]

/-- The existence predicate rejects triples in which neighbours are the same site, for all coordinates; `activate` relies on it. -/
theorem C40_existence_rejects_equal {s1 s2 s3 : Site} (h : circleExists s1 s2 s3 = some true) : ¬ SameSite s1 s2 ∧ ¬ SameSite s2 s3 :=
  exists_distinct h

example : circleExists ⟨(0, 0), (0, 0), 0, 0, 0⟩ ⟨(1, 1), (1, 1), 1, 0, 0⟩ ⟨(2, 0), (2, 0), 2, 0, 0⟩ = some true := by decide +kernel
example : circleExists ⟨(0, 0), (0, 0), 0, 0, 0⟩ ⟨(1, 1), (5, 1), 1, 0, 0⟩ ⟨(1, 1), (5, 1), 1, 0, 0⟩ = some false := by decide +kernel
/-- The outer sites may be the same, which is why `Run` has the flag `d`. -/
example : circleExists ⟨(0, 0), (0, 0), 0, 0, 0⟩ ⟨(1, 1), (5, 1), 1, 0, 0⟩ ⟨(0, 0), (0, 0), 0, 0, 0⟩ = some true := by decide +kernel

example : ∃ s, demo = some s ∧ HalfEdges s.D ∧ s.D.ne = 6 ∧ s.D.verts = [7] := by
  obtain ⟨s, h, r⟩ := demo_run
  refine ⟨s, h, C40_sweep r, ?_⟩
  have := h
  rw [show demo = some _ from rfl] at this
  cases this
  exact ⟨rfl, rfl⟩

/-! ## C60 -/

/-- The memory reserved before the sweep suffices, so no vector is reallocated and all pointers stay valid: `n` cells, `2n`
vertices, `6n` half-edges. -/
theorem C60_capacity {n k : Nat} {d : Bool} {s : St P} (h : Run n d k s) :
    s.D.cells ≤ n ∧ s.D.verts.length ≤ 2 * n ∧ s.D.ne ≤ 6 * n := by
  have hi := run_inv h
  by_cases hn : 2 ≤ n
  · have hb := hi.big hn
    have := hb.cells
    have := hb.count
    have := hb.necount
    have := hi.le
    omega
  · obtain ⟨_, a, b, c, e⟩ := hi.small (by omega)
    rw [e, c, b]
    simp

/-- The exact bounds of planar subdivisions: at most `2n - 3` vertices and `3n - 4` edges while the beach line has at least one
node, and the number of edges is determined by the numbers of cells and vertices. -/
theorem C60_euler {n k : Nat} {d : Bool} {s : St P} (h : Run n d k s) (hn : 2 ≤ n) :
    s.D.ne + 2 = 2 * (s.nextSite + s.D.verts.length) ∧ s.D.cells = s.nextSite ∧ s.D.verts.length + 3 ≤ 2 * n ∧ s.D.ne / 2 + 4 ≤ 3 * n := by
  have hi := run_inv h
  have hb := hi.big hn
  have h1 := hb.cells
  have h2 := hb.count
  have h3 := hb.necount
  have h4 := hi.le
  have h5 : 1 ≤ (edgesOf s.beach).length := by
    cases hbe : s.beach with
    | nil => exact absurd hbe hb.ne
    | cons a r =>
      have := (hb.head a (by rw [hbe]; rfl)).2
      obtain ⟨e, he⟩ := Option.ne_none_iff_exists'.1 this
      simp [edgesOf, he]
  omega

/-- The sweep ends after fewer than `3n` events, whatever the predicates answer. -/
theorem C60_terminates {n k : Nat} {d : Bool} {s : St P} (h : Run n d k s) : k ≤ 3 * n := by
  have hi := run_inv h
  have h1 := (C60_capacity h).2.1
  have := hi.steps
  have := hi.le
  by_cases hn : n = 0
  · have := (hi.small (by omega)).2.2.2.2
    rw [this] at *
    simp at *
    omega
  · omega

example : ∃ s, demo = some s ∧ Run 3 true 2 s ∧ s.D.verts.length + 3 ≤ 2 * 3 := by
  obtain ⟨s, h, r⟩ := demo_run
  exact ⟨s, h, r, (C60_euler r (by omega)).2.2.1⟩

/-! ## C59 -/

/-- The clean-up after the sweep ends, follows no null pointer and leaves a half-edge structure, in which every cell that has an edge has an
incident edge, and from this edge `next` leads back to it. The vertex equality need only be reflexive.

Missing: `hl` (without vertices the edges separate consecutive strips) and `NoSelfEdge` (implied by `d = true`) are hypotheses about the
answers of the predicates; that start vertices are still vertices of the diagram needs `C59_build_keeps`. -/
theorem C59_build_partial {n k : Nat} {s : St P} (h : Run n true k s) {eq : P → P → Bool} (hrefl : ∀ p, eq p p = true)
    (hl : s.D.verts = [] → LineChain s.D) :
    ∃ F, build eq s.D = some F ∧ HalfEdges F.D ∧ F.D.cells = s.D.cells ∧
      (∀ e < F.D.ne, ∃ f, F.cinc (F.D.cell e) = some f) ∧
      (∀ c f, F.cinc c = some f → f < F.D.ne ∧ F.D.cell f = c ∧ ∃ m, 1 ≤ m ∧ F.D.walkNext m f = some f) :=
  build_spec (run_inv h).d (run_noSelf h) hrefl hl

/-- If no edge has length zero the clean-up removes nothing: cells, edges and vertices are those of the sweep, every start vertex is a vertex of the
diagram, every vertex has an incident edge that starts at it, and linked edges stay linked. -/
theorem C59_build_keeps {n k : Nat} {d : Bool} {s : St P} (h : Run n d k s) {eq : P → P → Bool} (hz : ∀ e < s.D.ne, ¬ ZeroLength eq s.D e)
    (hv : s.D.verts ≠ []) :
    ∃ F, build eq s.D = some F ∧ F.D.ne = s.D.ne ∧ F.D.cells = s.D.cells ∧ F.D.verts = s.D.verts ∧
      (∀ e < s.D.ne, F.D.cell e = s.D.cell e ∧ F.D.v0 e = s.D.v0 e ∧ (∀ f, s.D.next e = some f → F.D.next e = some f) ∧
        ∀ v, F.D.v0 e = some v → v < F.D.verts.length) ∧
      (∀ v < F.D.verts.length, ∃ e < F.D.ne, F.vinc v = some e ∧ F.D.v0 e = some v) := by
  have hd := (run_inv h).d
  obtain ⟨F, a1, a2, a3, a4, a5, a6, a7, a8⟩ := build_keep hd (not_zeroLength hd hz) hv
  refine ⟨F, a1, a2, a3, a6, fun e he => ⟨by rw [a4], by rw [a5], a7 e, ?_⟩, ?_⟩
  · rw [a5, a6]; exact hd.vr e he
  · rw [a6, a2, a5]; exact a8

/-- Sites on a vertical line: the complete statement without hypotheses. -/
theorem C59_vertical {n : Nat} (hn : 2 ≤ n) (seg : Bool) {eq : P → P → Bool} (hrefl : ∀ p, eq p p = true) :
    ∃ (s : St P) (F : Full P), initBeach n n seg = some s ∧ s.nextSite = n ∧ build eq s.D = some F ∧ HalfEdges F.D ∧
      F.D.cells = n ∧
      (∀ e < F.D.ne, ∃ f, F.cinc (F.D.cell e) = some f) ∧
      (∀ c f, F.cinc c = some f → f < F.D.ne ∧ F.D.cell f = c ∧ ∃ m, 1 ≤ m ∧ F.D.walkNext m f = some f) := by
  obtain ⟨s, a1, a2, a3, a4⟩ := init_spec (P := P) hn (by omega) (le_refl n) seg
  have hr : Run n true 0 s := Run.init (by omega) (by omega) a1
  obtain ⟨F, b1, b2, b3, b4⟩ := C59_build_partial hr hrefl (fun _ => vertical_line hn a1)
  have hns : s.nextSite = n := by
    have := a1
    unfold initBeach at this
    rw [if_neg (by omega), if_neg (by omega), if_neg (by omega)] at this
    simp only [Option.bind_eq_bind, Option.bind_eq_some_iff, Option.pure_def, Option.some.injEq] at this
    obtain ⟨_, _, e⟩ := this
    rw [← e]
  exact ⟨s, F, a1, hns, b1, b2, by rw [b3, a2.cells, hns], b4⟩

example : ∃ s F, demo = some s ∧ build (· == ·) s.D = some F ∧ HalfEdges F.D := by
  obtain ⟨s, h, r⟩ := demo_run
  obtain ⟨F, a, b, _⟩ := C59_build_partial r (eq := (· == ·)) (by simp) (by
    intro hv
    have := h
    rw [show demo = some _ from rfl] at this
    cases this
    cases hv)
  exact ⟨s, F, h, a, b⟩

/-- The hypothesis `hl` is needed: if the predicates put sites 1 and 2 both on the arc of site 0 and report no circle event, the lines are linked
in the order of insertion and `next` leaves the cell. (Exact predicates report a circle event or put site 2 on the arc of site 1.) -/
theorem C59_lines_violated : ∃ (s : St Nat) (F : Full Nat), Run 3 true 1 s ∧ build (· == ·) s.D = some F ∧
    ∃ e < F.D.ne, ∃ f, F.D.next e = some f ∧ F.D.cell f ≠ F.D.cell e := by
  cases h1 : initBeach (P := Nat) 3 1 false with
  | none => exact absurd h1 (by simp [initBeach, insertArc, Diag.insertEdge, Diag.empty])
  | some s1 =>
    have r1 : Run 3 true 0 s1 := Run.init (by omega) (by omega) h1
    obtain ⟨s, hs⟩ : ∃ s, (initBeach 3 1 false).bind (replay 3 [.site 0 false false]) = some s := ⟨_, rfl⟩
    have h2 : replay 3 [.site 0 false false] s1 = some s := by rw [h1] at hs; exact hs
    obtain ⟨F, hF⟩ : ∃ F, ((initBeach 3 1 false).bind (replay 3 [.site 0 false false])).bind (fun s => build (· == ·) s.D) = some F := ⟨_, rfl⟩
    refine ⟨s, F, replay_run _ r1 h2, by rw [hs] at hF; exact hF, ?_⟩
    have h3 : ((((initBeach 3 1 false).bind (replay 3 [.site 0 false false])).bind (fun s => build (· == ·) s.D)).map
      fun F : Full Nat => decide (1 < F.D.ne ∧ F.D.next 1 = some 2 ∧ F.D.cell 2 ≠ F.D.cell 1)) = some true := by decide +kernel
    rw [hF] at h3
    have h3 : 1 < F.D.ne ∧ F.D.next 1 = some 2 ∧ F.D.cell 2 ≠ F.D.cell 1 := by simpa using h3
    exact ⟨1, h3.1, 2, h3.2.1, h3.2.2⟩

/-- Without the hypothesis of `C59_build_keeps` start vertices may be lost: if equal vertices form a closed chain around others, the edges of the merged
vertex fall into two rotation cycles, and when the vertex is moved only one of them is relabelled. In this run half-edge 3
starts at vertex 5 of a diagram with two vertices. (The vertices of a zero-length chain around a cell of positive
size can not be equal in exact geometry.) -/
theorem C59_vertices_violated : ∃ (s : St Nat) (F : Full Nat), Run 5 true 9 s ∧ s.nextSite = 5 ∧ (∀ nd ∈ s.beach, nd.ev = false) ∧
    build (· == ·) s.D = some F ∧ ∃ e < F.D.ne, ∃ v, F.D.v0 e = some v ∧ F.D.verts.length ≤ v := by
  let l : List Ev := [.site 2 true true, .site 2 true true, .circle 1 1 true true, .site 2 true true, .circle 4 1 true true, .circle 1 0 true true,
    .circle 1 1 true true, .circle 0 1 true true, .circle 0 1 false false]
  have hl : l.length = 9 := rfl
  cases h1 : initBeach (P := Nat) 5 1 false with
  | none => exact absurd h1 (by simp [initBeach, insertArc, Diag.insertEdge, Diag.empty])
  | some s1 =>
    have r1 : Run 5 true 0 s1 := Run.init (by omega) (by omega) h1
    have h3 : ((initBeach 5 1 false).bind (replay 5 l)).map
        (fun s => decide (s.nextSite = 5) && s.beach.all (fun nd => !nd.ev) &&
          ((build (· == ·) s.D).map fun F : Full Nat => decide (3 < F.D.ne ∧ F.D.v0 3 = some 5 ∧ F.D.verts.length ≤ 5)) == some true) = some true := by
      decide +kernel
    cases hs : (initBeach 5 1 false).bind (replay 5 l) with
    | none => rw [hs] at h3; cases h3
    | some s =>
      rw [hs] at h3
      have h2 : replay 5 l s1 = some s := by rw [h1] at hs; exact hs
      simp only [Option.map_some, Option.some.injEq, Bool.and_eq_true, decide_eq_true_eq, List.all_eq_true, beq_iff_eq] at h3
      obtain ⟨⟨a, b⟩, c⟩ := h3
      cases hF : build (· == ·) s.D with
      | none => rw [hF] at c; cases c
      | some F =>
        rw [hF] at c
        have c : 3 < F.D.ne ∧ F.D.v0 3 = some 5 ∧ F.D.verts.length ≤ 5 := by simpa using c
        refine ⟨s, F, ?_, a, fun nd hnd => by simpa using b nd hnd, hF, 3, c.1, 5, c.2.1, c.2.2⟩
        have := replay_run l r1 h2
        rw [hl] at this
        exact this

end Verif.Properties.VoronoiDiagram
