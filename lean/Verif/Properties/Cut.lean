import Verif.Proofs.CutInsert
/-!
# Boolean operations on sets of polygons at arbitrary angles, from the polygons to the result

The operands are cut at their intersections before they are scanned. Intersection points are rounded to lattice
points; the floating point results are parameters (`FP`).
-/
namespace Verif.Properties.Cut
open Verif Verif.Arb Verif.Cut Verif.PolySet Verif.Spec Verif.Spec.Arb

/-- An object to insert: an outline with holes, and whether it is inserted as a hole. -/
abbrev Obj := (List (Int × Int) × List (List (Int × Int))) × Bool

/-- A set built by inserting objects one after the other. -/
def build (ops : List Obj) : Data := ops.foldl (fun D o => insertHoles D o.1.1 o.1.2 o.2) []

/-- The depth of a point: what the objects add there. -/
def total (ops : List Obj) (q : ℚ × ℚ) : Int := (ops.map (fun o => (if o.2 then -1 else 1) * objDepth o.1.1 o.1.2 q)).sum

/-- All outlines, of objects and of holes. -/
def outlines (ops : List Obj) : List (List (Int × Int)) := ops.flatMap (fun o => o.1.1 :: o.1.2)

theorem build_spec (ops : List Obj) : (∀ q, depth (build ops) q = total ops q) ∧ Closed (build ops) ∧ (∀ e ∈ build ops, Directed e.1) ∧
    ∀ e ∈ build ops, ∃ P ∈ outlines ops, e.1 ∈ edges P ∨ e.1.swap ∈ edges P := by
  obtain ⟨h1, h2, h3⟩ := Properties.PolySet.C71_history ops
  refine ⟨h1, h2, h3, fun e he => ?_⟩
  rcases history_mem ops [] he with g | ⟨o, ho, Q, hQ, g⟩
  · simp at g
  · exact ⟨Q, List.mem_flatMap.2 ⟨o, ho, hQ⟩, g⟩

theorem build_low {ops : List Obj} {umin : Int} (h : ∀ P ∈ outlines ops, ∀ p ∈ P, umin ≤ p.2) : ∀ e ∈ build ops, umin ≤ min e.1.1.2 e.1.2.2 := by
  intro e he
  obtain ⟨P, hP, g⟩ := (build_spec ops).2.2.2 e he
  rcases g with g | g
  · obtain ⟨a, b⟩ := edges_ends g
    have := h P hP _ a; have := h P hP _ b; omega
  · obtain ⟨a, b⟩ := edges_ends g
    simp only [Prod.fst_swap, Prod.snd_swap] at a b
    have := h P hP _ a; have := h P hP _ b; omega

/-! ### Cutting, for every arithmetic -/

/-- Cutting keeps the curves closed: at every point of every layer, what enters minus what leaves is unchanged. Every
piece runs left to right, or upwards, has the layer of a segment and lies in its bounding box. -/
theorem C73_cut (fp : FP) (hfp : fp.Sane) (umin : Int) (E : List Ev) :
    (∀ k v, ((layer (cut fp umin E) k).map (fun e => inflow e v)).sum = ((layer E k).map (fun e => inflow e v)).sum) ∧
    (∀ k, Closed (layer E k) → Closed (layer (cut fp umin E) k)) ∧
    ∀ e ∈ cut fp umin E, Directed e.1 ∧ ∃ ev ∈ E, e.2.1 = ev.2.1 ∧
      min ev.1.1.1 ev.1.2.1 ≤ e.1.1.1 ∧ e.1.2.1 ≤ max ev.1.1.1 ev.1.2.1 ∧
      min ev.1.1.2 ev.1.2.2 ≤ min e.1.1.2 e.1.2.2 ∧ max e.1.1.2 e.1.2.2 ≤ max ev.1.1.2 ev.1.2.2 := by
  refine ⟨cut_flow hfp umin E, fun k h v => by rw [cut_flow hfp umin E]; exact h v, fun e he => ?_⟩
  obtain ⟨h1, ev, h2, h3, h4, h5⟩ := cut_mem hfp umin E e he
  rw [inBox_iff] at h4 h5
  exact ⟨h1, ev, h2, h3, by omega, by omega, by omega, by omega⟩

/-- Exact arithmetic rounded down meets the assumption. -/
theorem C73_exact : exactFP.Sane := exactFP_sane

example : cut exactFP (-100) [(((0, 0), (5, 5)), (0, 1)), (((0, 4), (5, 0)), (1, 1))] =
    [(((0, 0), (2, 2)), (0, 1)), (((2, 2), (5, 5)), (0, 1)), (((0, 4), (2, 2)), (1, 1)), (((2, 2), (5, 0)), (1, 1))] := by decide +kernel

/-! ### Horizontal and vertical edges, for every arithmetic -/

/-- On closed sets of horizontal and vertical edges the operation succeeds and gives exactly the result region, at
depth one, whatever the floating point unit computes. What is written is in the form that is read again, has only
horizontal and vertical edges, and is empty exactly when the region is. -/
theorem C74_boolean (fp : FP) (op : Nat) (umin umax : Int) (A B : Data) (hM : Manhattan ((A ++ B).map Prod.fst))
    (hd : ∀ e ∈ A ++ B, Directed e.1) (hu : ∀ e ∈ A ++ B, umin ≤ min e.1.1.2 e.1.2.2) (hA : Closed A) (hB : Closed B) :
    ∃ out, boolOp fp op umin umax A B = some out ∧
      (∀ q, depth out q = if inResult op (depth A q > 0) (depth B q > 0) then 1 else 0) ∧
      (∀ a ∈ out, PartOf ((A ++ B).map Prod.fst) a.1 ∧ (a.2 = 1 ∨ a.2 = -1)) ∧ Manhattan (out.map Prod.fst) ∧
      (out.map Prod.fst).Nodup ∧ Planar (out.map Prod.fst) ∧ Closed out ∧
      (out = [] ↔ ∀ q, ¬ inResult op (depth A q > 0) (depth B q > 0)) := by
  have hd' : ∀ a ∈ (A ++ B).map Prod.fst, Directed a := by
    intro a ha; obtain ⟨e, he, rfl⟩ := List.mem_map.1 ha; exact hd e he
  have hu' : ∀ a ∈ (A ++ B).map Prod.fst, umin ≤ min a.1.2 a.2.2 := by
    intro a ha; obtain ⟨e, he, rfl⟩ := List.mem_map.1 ha; exact hu e he
  unfold boolOp
  rw [insertSet_nil (fun e he => hd e (List.mem_append_left _ he)), insertSet_nil (fun e he => hd e (List.mem_append_right _ he))]
  obtain ⟨out, h1, h2, h3, h4, h5, h6, h7⟩ := execute_exact (fp := fp) umax op (manhattan_exact fp hM hd' hu') hA hB
  refine ⟨out, h1, h2, h3, ?_, h4, h5, h6, h7⟩
  refine part_manhattan hd' (fun e he => ?_) hM
  obtain ⟨e', he', rfl⟩ := List.mem_map.1 he
  exact (h3 e' he').1

/-- From polygons to the region: for any two histories of insertions of rectilinear polygons with holes, the
operation gives the points where the result of the depths is positive. -/
theorem C74_polygons (fp : FP) (op : Nat) (umin umax : Int) (X Y : List Obj)
    (hM : ∀ P ∈ outlines X ++ outlines Y, ∀ e ∈ edges P, e.1.1 = e.2.1 ∨ e.1.2 = e.2.2)
    (hu : ∀ P ∈ outlines X ++ outlines Y, ∀ p ∈ P, umin ≤ p.2) :
    ∃ out, boolOp fp op umin umax (build X) (build Y) = some out ∧
      (∀ q, depth out q = if inResult op (total X q > 0) (total Y q > 0) then 1 else 0) ∧
      (out = [] ↔ ∀ q, ¬ inResult op (total X q > 0) (total Y q > 0)) := by
  obtain ⟨x1, x2, x3, x4⟩ := build_spec X
  obtain ⟨y1, y2, y3, y4⟩ := build_spec Y
  have lx := build_low (ops := X) (umin := umin) (fun P hP => hu P (List.mem_append_left _ hP))
  have ly := build_low (ops := Y) (umin := umin) (fun P hP => hu P (List.mem_append_right _ hP))
  have man : ∀ e ∈ (build X ++ build Y).map Prod.fst, e.1.1 = e.2.1 ∨ e.1.2 = e.2.2 := by
    intro e he
    obtain ⟨a, ha, rfl⟩ := List.mem_map.1 he
    have : ∃ P ∈ outlines X ++ outlines Y, a.1 ∈ edges P ∨ a.1.swap ∈ edges P := by
      rcases List.mem_append.1 ha with g | g
      · obtain ⟨P, hP, k⟩ := x4 a g; exact ⟨P, List.mem_append_left _ hP, k⟩
      · obtain ⟨P, hP, k⟩ := y4 a g; exact ⟨P, List.mem_append_right _ hP, k⟩
    obtain ⟨P, hP, g | g⟩ := this
    · exact hM P hP _ g
    · have := hM P hP _ g
      simp only [Prod.fst_swap, Prod.snd_swap] at this
      omega
  have hd : ∀ e ∈ build X ++ build Y, Directed e.1 := by
    intro e he; rcases List.mem_append.1 he with g | g
    exacts [x3 e g, y3 e g]
  have hl : ∀ e ∈ build X ++ build Y, umin ≤ min e.1.1.2 e.1.2.2 := by
    intro e he; rcases List.mem_append.1 he with g | g
    exacts [lx e g, ly e g]
  obtain ⟨out, h1, h2, _, _, _, _, _, h8⟩ := C74_boolean fp op umin umax (build X) (build Y) man hd hl x2 y2
  simp only [x1, y1] at h2 h8
  exact ⟨out, h1, h2, h8⟩

/-- A square with a hole, and a bar across it. -/
def frame : List Obj := [(([(0, 0), (9, 0), (9, 9), (0, 9)], [[(3, 3), (6, 3), (6, 6), (3, 6)]]), false)]
def bar : List Obj := [(([(-2, 4), (12, 4), (12, 5), (-2, 5)], []), false)]

example : (∀ P ∈ outlines frame ++ outlines bar, ∀ e ∈ edges P, e.1.1 = e.2.1 ∨ e.1.2 = e.2.2) ∧
    (∀ P ∈ outlines frame ++ outlines bar, ∀ p ∈ P, (-100 : Int) ≤ p.2) ∧ total frame (4, 4) = 0 ∧ total bar (4, 4) = 1 ∧
    (boolOp exactFP 3 (-100) 100 (build frame) (build bar)).map List.length = some 16 := by decide +kernel

/-- Expressions of any depth: whatever the operators are applied to, the value covers exactly the points of the
region the expression denotes. -/
theorem C74_expression (fp : FP) (umin umax : Int) (x : Expr)
    (hx : ∀ D ∈ x.sets, Closed D ∧ Manhattan (D.map Prod.fst) ∧ ∀ e ∈ D, Directed e.1 ∧ umin ≤ min e.1.1.2 e.1.2.2) :
    ∃ out, evalExpr fp umin umax x = some out ∧ (∀ q, depth out q > 0 ↔ x.Inside q) ∧ Closed out ∧ Manhattan (out.map Prod.fst) := by
  have hE : Manhattan (x.sets.flatten.map Prod.fst) ∧ (∀ a ∈ x.sets.flatten.map Prod.fst, Directed a) ∧
      ∀ a ∈ x.sets.flatten.map Prod.fst, umin ≤ min a.1.2 a.2.2 := by
    refine ⟨?_, ?_, ?_⟩
    all_goals
      intro a ha
      obtain ⟨e, he, rfl⟩ := List.mem_map.1 ha
      obtain ⟨D, hD, he⟩ := List.mem_flatten.1 he
    · exact (hx D hD).2.1 _ (List.mem_map.2 ⟨e, he, rfl⟩)
    · exact ((hx D hD).2.2 e he).1
    · exact ((hx D hD).2.2 e he).2
  obtain ⟨out, h1, h2, h3, h4⟩ := expr_ok umax (kind_manhattan fp umin) hE x
    (fun D hD => ⟨(hx D hD).1, fun e he => List.mem_map.2 ⟨e, List.mem_flatten.2 ⟨D, hD, he⟩, rfl⟩⟩)
  refine ⟨out, h1, h2, h3, part_manhattan hE.2.1 (fun e he => ?_) hE.1⟩
  obtain ⟨e', he', rfl⟩ := List.mem_map.1 he
  exact h4 e' he'

example : (evalExpr exactFP (-100) 100 (.op 3 (.op 0 (.set (build frame)) (.set (build bar))) (.op 1 (.set (build frame)) (.set (build bar))))).isSome = true := by
  decide +kernel

/-- Two sets compare equal exactly when they cover the same points. -/
theorem C74_equality (fp : FP) (umin umax : Int) (A B : Data) (hM : Manhattan ((A ++ B).map Prod.fst))
    (hd : ∀ e ∈ A ++ B, Directed e.1) (hu : ∀ e ∈ A ++ B, umin ≤ min e.1.1.2 e.1.2.2) (hA : Closed A) (hB : Closed B) :
    ∃ b, setEq fp umin umax A B = some b ∧ (b = true ↔ ∀ q, (depth A q > 0 ↔ depth B q > 0)) := by
  obtain ⟨out, h1, _, _, _, _, _, _, h8⟩ := C74_boolean fp 2 umin umax A B hM hd hu hA hB
  refine ⟨out.isEmpty, by rw [setEq, h1]; rfl, ?_⟩
  rw [List.isEmpty_iff, h8]
  refine forall_congr' fun q => ?_
  show ¬ ((depth A q > 0 ∧ ¬ depth B q > 0) ∨ (depth B q > 0 ∧ ¬ depth A q > 0)) ↔ _
  tauto

example : setEq exactFP (-100) 100 (build bar) (build (bar ++ bar)) = some true ∧ setEq exactFP (-100) 100 (build bar) (build frame) = some false := by
  decide +kernel

/-- Cleaning keeps the points of positive depth and gives each depth one, in whatever order sorting leaves the
edges. -/
theorem C74_clean (fp : FP) (umin umax : Int) (D S : Data) (hS : S.Perm D) (hM : Manhattan (D.map Prod.fst))
    (hd : ∀ e ∈ D, Directed e.1) (hu : ∀ e ∈ D, umin ≤ min e.1.1.2 e.1.2.2) (hD : Closed D) :
    ∃ out, clean fp umin umax S = some out ∧ (∀ q, depth out q = if depth D q > 0 then 1 else 0) ∧
      (∀ a ∈ out, Directed a.1 ∧ (a.2 = 1 ∨ a.2 = -1)) ∧ (out.map Prod.fst).Nodup ∧ Planar (out.map Prod.fst) ∧ Closed out ∧
      Manhattan (out.map Prod.fst) := by
  have hM' : Manhattan ((S ++ []).map Prod.fst) := by
    rw [List.append_nil]; intro e he; exact hM e ((hS.map _).mem_iff.1 he)
  have hS' : Closed S := fun v => by rw [(hS.map _).sum_eq]; exact hD v
  obtain ⟨out, h1, h2, h3, h4, h5, h6, h7, _⟩ := C74_boolean fp 0 umin umax S [] hM'
    (by rw [List.append_nil]; intro e he; exact hd e (hS.mem_iff.1 he)) (by rw [List.append_nil]; intro e he; exact hu e (hS.mem_iff.1 he)) hS' (fun v => rfl)
  unfold boolOp at h1
  rw [insertSet_nil (fun e he => hd e (hS.mem_iff.1 he)), insertSet_nil (by simp)] at h1
  refine ⟨out, h1, fun q => ?_, fun a ha => ⟨(h3 a ha).1.1, (h3 a ha).2⟩, h5, h6, h7, h4⟩
  rw [h2 q]
  have e1 : depth S q = depth D q := (hS.map _).sum_eq
  have e2 : ¬ depth [] q > 0 := by unfold Spec.Arb.depth; simp
  rw [e1]
  by_cases c : depth D q > 0
  · rw [if_pos c, if_pos (show inResult 0 _ _ from Or.inl c)]
  · rw [if_neg c, if_neg]
    rintro (g | g)
    exacts [c g, e2 g]

example : (clean exactFP (-100) 100 (build (frame ++ bar))).map List.length = some 20 := by decide +kernel

/-! ### Edges that meet in lattice points -/

/-- Edges at any angle that meet in lattice points, and pass through the unit square of such a point or of an end
point only if they pass through the point: the result region is exact as long as the arithmetic is exact for
lattice points. -/
theorem C75_boolean (fp : FP) (hfp : fp.Accurate) (op : Nat) (umin umax : Int) (A B : Data) (hL : OnLattice ((A ++ B).map Prod.fst))
    (hd : ∀ e ∈ A ++ B, Directed e.1) (hu : ∀ e ∈ A ++ B, umin ≤ min e.1.1.2 e.1.2.2) (hA : Closed A) (hB : Closed B) :
    ∃ out, boolOp fp op umin umax A B = some out ∧
      (∀ q, depth out q = if inResult op (depth A q > 0) (depth B q > 0) then 1 else 0) ∧
      (∀ a ∈ out, PartOf ((A ++ B).map Prod.fst) a.1 ∧ (a.2 = 1 ∨ a.2 = -1)) ∧
      (out.map Prod.fst).Nodup ∧ Planar (out.map Prod.fst) ∧ Closed out ∧
      (out = [] ↔ ∀ q, ¬ inResult op (depth A q > 0) (depth B q > 0)) := by
  have hd' : ∀ a ∈ (A ++ B).map Prod.fst, Directed a := by
    intro a ha; obtain ⟨e, he, rfl⟩ := List.mem_map.1 ha; exact hd e he
  have hu' : ∀ a ∈ (A ++ B).map Prod.fst, umin ≤ min a.1.2 a.2.2 := by
    intro a ha; obtain ⟨e, he, rfl⟩ := List.mem_map.1 ha; exact hu e he
  unfold boolOp
  rw [insertSet_nil (fun e he => hd e (List.mem_append_left _ he)), insertSet_nil (fun e he => hd e (List.mem_append_right _ he))]
  exact execute_exact umax op (lattice_exact hfp hL hd' hu') hA hB

/-- Expressions of any depth over sets whose edges together meet in lattice points. -/
theorem C75_expression (fp : FP) (hfp : fp.Accurate) (umin umax : Int) (x : Expr) (hL : OnLattice (x.sets.flatten.map Prod.fst))
    (hx : ∀ D ∈ x.sets, Closed D ∧ ∀ e ∈ D, Directed e.1 ∧ umin ≤ min e.1.1.2 e.1.2.2) :
    ∃ out, evalExpr fp umin umax x = some out ∧ (∀ q, depth out q > 0 ↔ x.Inside q) ∧ Closed out := by
  have hE : OnLattice (x.sets.flatten.map Prod.fst) ∧ (∀ a ∈ x.sets.flatten.map Prod.fst, Directed a) ∧
      ∀ a ∈ x.sets.flatten.map Prod.fst, umin ≤ min a.1.2 a.2.2 := by
    refine ⟨hL, ?_, ?_⟩
    all_goals
      intro a ha
      obtain ⟨e, he, rfl⟩ := List.mem_map.1 ha
      obtain ⟨D, hD, he⟩ := List.mem_flatten.1 he
    · exact ((hx D hD).2 e he).1
    · exact ((hx D hD).2 e he).2
  obtain ⟨out, h1, h2, h3, _⟩ := expr_ok umax (kind_lattice hfp umin) hE x
    (fun D hD => ⟨(hx D hD).1, fun e he => List.mem_map.2 ⟨e, List.mem_flatten.2 ⟨D, hD, he⟩, rfl⟩⟩)
  exact ⟨out, h1, h2, h3⟩

/-- Exact arithmetic is exact for lattice points. -/
theorem C75_exact : exactFP.Accurate := floor_accurate exactFP_floor

/-- A diamond and a square whose corners stick out of it: all lines meet in lattice points. -/
def diamond : Data := insertPoly [] [(0, -4), (4, 0), (0, 4), (-4, 0)] false
def square : Data := insertPoly [] [(-3, -3), (3, -3), (3, 3), (-3, 3)] false

theorem diamond_square : OnLattice ((diamond ++ square).map Prod.fst) ∧ (∀ e ∈ diamond ++ square, Directed e.1) := by
  have h : ∀ e ∈ diamond ++ square, Directed e.1 := by decide +kernel
  refine ⟨latticeTest_ok (J := [(4, 0), (-4, 0), (0, 4), (0, -4), (3, 1), (3, -1), (-3, 1), (-3, -1), (1, 3), (1, -3), (-1, 3), (-1, -3), (3, 7), (3, -7), (-3, 7), (-3, -7), (7, 3), (7, -3), (-7, 3), (-7, -3), (3, 3), (3, -3), (-3, 3), (-3, -3)]) ?_ (by decide +kernel), h⟩
  intro e he
  obtain ⟨a, ha, rfl⟩ := List.mem_map.1 he
  exact h a ha

example : boolOp exactFP 1 (-100) 100 diamond square =
    some [(((-3, -1), (-1, -3)), 1), (((-3, -1), (-3, 1)), 1), (((-3, 1), (-1, 3)), -1), (((-1, -3), (1, -3)), 1),
      (((-1, 3), (1, 3)), -1), (((1, -3), (3, -1)), 1), (((1, 3), (3, 1)), -1), (((3, -1), (3, 1)), -1)] := by
  decide +kernel

/-! ### Arbitrary edges, exact arithmetic -/

/-- With exact arithmetic the operation succeeds on all closed sets. At every point whose unit square no edge of
the operands meets, the result is right. Every edge of the result joins two end points or corners of intersections
and stays within one unit of an edge of an operand; the result has the form that is read again. -/
theorem C76_boolean (fp : FP) (hfp : fp.Floor) (op : Nat) (umin umax : Int) (A B : Data) (hd : ∀ e ∈ A ++ B, Directed e.1)
    (hu : ∀ e ∈ A ++ B, umin ≤ min e.1.1.2 e.1.2.2) (hA : Closed A) (hB : Closed B) :
    ∃ out, boolOp fp op umin umax A B = some out ∧
      (∀ q, Clear ((A ++ B).map Prod.fst) q → depth out q = if inResult op (depth A q > 0) (depth B q > 0) then 1 else 0) ∧
      (∀ a ∈ out, Directed a.1 ∧ Hot ((A ++ B).map Prod.fst) a.1.1 ∧ Hot ((A ++ B).map Prod.fst) a.1.2 ∧
        (∃ e ∈ A ++ B, Near a.1 e.1) ∧ (a.2 = 1 ∨ a.2 = -1)) ∧
      (out.map Prod.fst).Nodup ∧ Planar (out.map Prod.fst) ∧ Closed out ∧ ∀ q, depth out q = 0 ∨ depth out q = 1 := by
  unfold boolOp
  rw [insertSet_nil (fun e he => hd e (List.mem_append_left _ he)), insertSet_nil (fun e he => hd e (List.mem_append_right _ he))]
  exact execute_snap hfp umax op hd hu hA hB

/-- From polygons to the result: for any two histories of insertions of polygons with holes at any angle, at every
point whose unit square no outline meets. -/
theorem C76_polygons (fp : FP) (hfp : fp.Floor) (op : Nat) (umin umax : Int) (X Y : List Obj)
    (hu : ∀ P ∈ outlines X ++ outlines Y, ∀ p ∈ P, umin ≤ p.2) :
    ∃ out, boolOp fp op umin umax (build X) (build Y) = some out ∧
      ∀ q, (∀ P ∈ outlines X ++ outlines Y, Clear (edges P) q) → depth out q = if inResult op (total X q > 0) (total Y q > 0) then 1 else 0 := by
  obtain ⟨x1, x2, x3, x4⟩ := build_spec X
  obtain ⟨y1, y2, y3, y4⟩ := build_spec Y
  have lx := build_low (ops := X) (umin := umin) (fun P hP => hu P (List.mem_append_left _ hP))
  have ly := build_low (ops := Y) (umin := umin) (fun P hP => hu P (List.mem_append_right _ hP))
  have hd : ∀ e ∈ build X ++ build Y, Directed e.1 := by
    intro e he; rcases List.mem_append.1 he with g | g
    exacts [x3 e g, y3 e g]
  have hl : ∀ e ∈ build X ++ build Y, umin ≤ min e.1.1.2 e.1.2.2 := by
    intro e he; rcases List.mem_append.1 he with g | g
    exacts [lx e g, ly e g]
  obtain ⟨out, h1, h2, _⟩ := C76_boolean fp hfp op umin umax (build X) (build Y) hd hl x2 y2
  refine ⟨out, h1, fun q hq => ?_⟩
  rw [h2 q, x1, y1]
  intro e he z hz
  obtain ⟨a, ha, rfl⟩ := List.mem_map.1 he
  have : ∃ P ∈ outlines X ++ outlines Y, a.1 ∈ edges P ∨ a.1.swap ∈ edges P := by
    rcases List.mem_append.1 ha with g | g
    · obtain ⟨P, hP, k⟩ := x4 a g; exact ⟨P, List.mem_append_left _ hP, k⟩
    · obtain ⟨P, hP, k⟩ := y4 a g; exact ⟨P, List.mem_append_right _ hP, k⟩
  obtain ⟨P, hP, g | g⟩ := this
  · exact hq P hP _ g z hz
  · exact hq P hP _ g z (onEdge_swap hz)

/-- Two sets that cover the same points differ, after an exclusive or, at most within a unit of their edges: the
result has no point of positive depth elsewhere. -/
theorem C76_equal_regions (fp : FP) (hfp : fp.Floor) (umin umax : Int) (A B : Data) (hd : ∀ e ∈ A ++ B, Directed e.1)
    (hu : ∀ e ∈ A ++ B, umin ≤ min e.1.1.2 e.1.2.2) (hA : Closed A) (hB : Closed B) (h : ∀ q, depth A q > 0 ↔ depth B q > 0) :
    ∃ out, boolOp fp 2 umin umax A B = some out ∧ ∀ q, Clear ((A ++ B).map Prod.fst) q → depth out q = 0 := by
  obtain ⟨out, h1, h2, _⟩ := C76_boolean fp hfp 2 umin umax A B hd hu hA hB
  refine ⟨out, h1, fun q hq => ?_⟩
  rw [h2 q hq, if_neg]
  rintro (⟨a, b⟩ | ⟨a, b⟩)
  · exact b ((h q).1 a)
  · exact b ((h q).2 a)

/-- The assumption on the arithmetic is met by exact arithmetic rounded down. -/
theorem C76_exact : exactFP.Floor := exactFP_floor

/-- Two triangles whose edges cross between lattice points. -/
def tri1 : List Obj := [(([(0, 0), (20, 3), (5, 17)], []), false)]
def tri2 : List Obj := [(([(18, 16), (-3, 9), (9, -4)], []), false)]

example : (∀ P ∈ outlines tri1 ++ outlines tri2, ∀ p ∈ P, (-100 : Int) ≤ p.2) ∧ total tri1 (8, 7) = 1 ∧ total tri2 (8, 7) = 1 ∧
    (boolOp exactFP 1 (-100) 100 (build tri1) (build tri2)).map (fun o => Spec.Arb.depth o (8, 7)) = some 1 := by decide +kernel

example : Clear ((build tri1 ++ build tri2).map Prod.fst) (8, 7) := by
  have hd : ∀ e ∈ (build tri1 ++ build tri2).map Prod.fst, Directed e := by decide +kernel
  have hg : ∀ e ∈ (build tri1 ++ build tri2).map Prod.fst, grid (8, 7) e = false := by decide +kernel
  intro e he z hz h
  have := (grid_iff (hd e he) (8, 7)).2 ⟨z, hz, by simpa using h⟩
  rw [hg e he] at this; simp at this

/-! ### What rounding breaks -/

/-- A triangle, and a rectangle inside it whose corner is less than a unit from the long side. -/
def big : Data := insertPoly [] [(0, 0), (8, 0), (0, 8)] false
def inner : Data := insertRect [] 1 1 3 4 false

/-- The union of a set with a part of it is not the set: the long side is moved to the corner of the rectangle, and
a point of the triangle is lost, even with exact arithmetic. -/
theorem C77_union_with_part_violated : ∃ out, boolOp exactFP 0 (-100) 100 big inner = some out ∧
    (∀ q, depth inner q > 0 → depth big q > 0) ∧ depth big (3, 9/2) > 0 ∧ ¬ depth out (3, 9/2) > 0 := by
  refine ⟨[(((0, 0), (8, 0)), 1), (((0, 0), (0, 8)), 1), (((0, 8), (3, 4)), -1), (((3, 4), (8, 0)), -1)], by decide +kernel, ?_, by decide +kernel, by decide +kernel⟩
  intro q h
  have e1 : inner = [(((1, 1), (3, 1)), 1), (((3, 1), (3, 4)), -1), (((1, 4), (3, 4)), -1), (((1, 1), (1, 4)), 1)] := by decide +kernel
  have e2 : big = [(((0, 0), (8, 0)), 1), (((0, 8), (8, 0)), -1), (((0, 0), (0, 8)), 1)] := by decide +kernel
  rw [e1] at h
  rw [e2]
  simp only [Spec.Arb.depth, List.map_cons, List.map_nil, List.sum_cons, List.sum_nil, PassesBelow, lineY] at h ⊢
  push_cast at h ⊢
  by_cases c1 : 1 ≤ q.1 ∧ q.1 < 3 ∧ 1 ≤ q.2 ∧ q.2 < 4
  · rw [if_pos ⟨by linarith, by linarith, by linarith⟩, if_neg (by rintro ⟨_, _, k⟩; linarith), if_neg (by rintro ⟨_, k, _⟩; linarith)]
    norm_num
  · exfalso
    have n1 : ¬ ((3 : ℚ) ≤ q.1 ∧ q.1 < 3 ∧ 1 + (4 - 1) * (q.1 - 3) / (3 - 3) ≤ q.2) := by rintro ⟨a, b, _⟩; linarith
    have n2 : ¬ ((1 : ℚ) ≤ q.1 ∧ q.1 < 1 ∧ 1 + (4 - 1) * (q.1 - 1) / (1 - 1) ≤ q.2) := by rintro ⟨a, b, _⟩; linarith
    rw [if_neg n1, if_neg n2] at h
    by_cases c2 : 1 ≤ q.1 ∧ q.1 < 3 ∧ 1 ≤ q.2
    · have : 4 ≤ q.2 := by by_contra hc; push Not at hc; exact c1 ⟨c2.1, c2.2.1, c2.2.2, hc⟩
      rw [if_pos (by exact ⟨c2.1, c2.2.1, by linarith⟩), if_pos (by exact ⟨c2.1, c2.2.1, by linarith⟩)] at h
      norm_num at h
    · rw [if_neg (by rintro ⟨a, b, c⟩; exact c2 ⟨a, b, by linarith⟩)] at h
      split_ifs at h <;> norm_num at h

/-- Sets that compare equal need not cover the same points. -/
theorem C77_equality_violated : ∃ A B : Data, Closed A ∧ Closed B ∧ (∀ e ∈ A ++ B, Directed e.1) ∧
    setEq exactFP (-100) 100 A B = some true ∧ ∃ q, depth A q > 0 ∧ ¬ depth B q > 0 :=
  ⟨big, insertPoly [] [(0, 0), (8, 0), (3, 4), (0, 8)] false, (build_spec [(([(0, 0), (8, 0), (0, 8)], []), false)]).2.1,
    (build_spec [(([(0, 0), (8, 0), (3, 4), (0, 8)], []), false)]).2.1, by decide +kernel, by decide +kernel, (3, 9/2), by decide +kernel, by decide +kernel⟩

/-- Comparing equal is not transitive. -/
theorem C77_transitive_violated : ∃ P Q R : List (Int × Int),
    setEq exactFP (-100) 100 (insertPoly [] P false) (insertPoly [] Q false) = some true ∧
    setEq exactFP (-100) 100 (insertPoly [] Q false) (insertPoly [] R false) = some true ∧
    setEq exactFP (-100) 100 (insertPoly [] P false) (insertPoly [] R false) = some false :=
  ⟨[(2, 3), (7, 6), (7, 7)], [(3, 3), (7, 6), (7, 7)], [(3, 3), (4, 3), (7, 6), (7, 7)], by decide +kernel, by decide +kernel, by decide +kernel⟩

/-- Cleaning a clean set changes it: the second cleaning loses points that the first one kept. -/
theorem C77_clean_violated : ∃ D one two : Data, clean exactFP (-100) 100 D = some one ∧ clean exactFP (-100) 100 one = some two ∧
    Closed D ∧ ∃ q, depth one q > 0 ∧ ¬ depth two q > 0 :=
  ⟨build [(([(0, 6), (0, 4), (7, 1)], []), false), (([(1, 4), (4, 0), (3, 3)], []), false)],
    [(((0, 4), (1, 3)), 1), (((0, 4), (0, 6)), 1), (((0, 6), (1, 4)), -1), (((1, 3), (4, 0)), 1), (((1, 4), (3, 3)), -1),
      (((3, 2), (4, 0)), -1), (((3, 2), (7, 1)), 1), (((3, 3), (7, 1)), -1)],
    [(((0, 4), (1, 3)), 1), (((0, 4), (1, 4)), -1), (((1, 3), (4, 0)), 1), (((1, 3), (3, 3)), -1), (((1, 3), (1, 4)), -1),
      (((3, 2), (4, 0)), -1), (((3, 2), (3, 3)), -1)],
    by decide +kernel, by decide +kernel, (build_spec _).2.1, (1/10, 41/10), by decide +kernel, by decide +kernel⟩

/-- Where edges meet in lattice points, comparing equal means covering the same points, so it is an equivalence; and the
union with a part, the union with itself and cleaning do not change the region. -/
theorem C77_lattice_partial (fp : FP) (hfp : fp.Accurate) (umin umax : Int) (A B : Data) (hL : OnLattice ((A ++ B).map Prod.fst))
    (hd : ∀ e ∈ A ++ B, Directed e.1) (hu : ∀ e ∈ A ++ B, umin ≤ min e.1.1.2 e.1.2.2) (hA : Closed A) (hB : Closed B) :
    (∃ b, setEq fp umin umax A B = some b ∧ (b = true ↔ ∀ q, (depth A q > 0 ↔ depth B q > 0))) ∧
    ((∀ q, depth B q > 0 → depth A q > 0) → ∃ out, boolOp fp 0 umin umax A B = some out ∧ ∀ q, (depth out q > 0 ↔ depth A q > 0)) := by
  constructor
  · obtain ⟨out, h1, _, _, _, _, _, h7⟩ := C75_boolean fp hfp 2 umin umax A B hL hd hu hA hB
    refine ⟨out.isEmpty, by rw [setEq, h1]; rfl, ?_⟩
    rw [List.isEmpty_iff, h7]
    refine forall_congr' fun q => ?_
    show ¬ ((depth A q > 0 ∧ ¬ depth B q > 0) ∨ (depth B q > 0 ∧ ¬ depth A q > 0)) ↔ _
    tauto
  · intro hsub
    obtain ⟨out, h1, h2, _⟩ := C75_boolean fp hfp 0 umin umax A B hL hd hu hA hB
    refine ⟨out, h1, fun q => ?_⟩
    rw [h2 q]
    by_cases c : depth A q > 0
    · rw [if_pos (show inResult 0 _ _ from Or.inl c)]; simp [c]
    · rw [if_neg]
      · simp [c]
      · rintro (g | g)
        exacts [c g, c (hsub q g)]

end Verif.Properties.Cut
