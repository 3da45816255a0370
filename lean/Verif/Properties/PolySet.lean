import Verif.Proofs.PolySet
/-!
# Sets of polygons at arbitrary angles: what insertion and scaling do to the depth
-/
namespace Verif.Properties.PolySet
open Verif Verif.PolySet Verif.Polygon Verif.Spec Verif.Spec.Arb

/-- A counter-clockwise quadrilateral with no axis-parallel edge and a triangular hole, listed clockwise. -/
def quad : List (Int × Int) := [(0, 0), (10, 3), (12, 11), (-1, 9)]
def hole : List (Int × Int) := [(3, 3), (4, 6), (7, 5)]

/-- Inserting a polygon adds, at every point, its winding number taken counter-clockwise (the opposite when
it is inserted as a hole); closed curves stay closed and every edge is stored left to right, or upwards. -/
theorem C71_insert_polygon (D : Data) (P : List (Int × Int)) (h : Bool) :
    (∀ q, depth (insertPoly D P h) q = depth D q + (if h then -1 else 1) * (orient P * windAt P q)) ∧
    (Closed D → Closed (insertPoly D P h)) ∧ ((∀ e ∈ D, Directed e.1) → ∀ e ∈ insertPoly D P h, Directed e.1) :=
  ⟨(insertPoly_adds D P h).depth, (insertPoly_adds D P h).closed, (insertPoly_adds D P h).dir⟩

example : depth (insertPoly [] quad false) (5, 5) = 1 ∧ depth (insertPoly [] quad false) (20, 5) = 0 ∧
    depth (insertPoly [] quad.reverse true) (5, 5) = -1 := by decide +kernel

/-- A polygon with holes adds the winding number of its outline minus those of its holes, however each of
them is listed. -/
theorem C71_insert_with_holes (D : Data) (P : List (Int × Int)) (H : List (List (Int × Int))) (h : Bool) :
    (∀ q, depth (insertHoles D P H h) q = depth D q + (if h then -1 else 1) * objDepth P H q) ∧
    (Closed D → Closed (insertHoles D P H h)) ∧ ((∀ e ∈ D, Directed e.1) → ∀ e ∈ insertHoles D P H h, Directed e.1) :=
  ⟨(insertHoles_adds D P H h).depth, (insertHoles_adds D P H h).closed, (insertHoles_adds D P H h).dir⟩

example : depth (insertHoles [] quad [hole] false) (9/2, 5) = 0 ∧ depth (insertHoles [] quad [hole] false) (1, 5) = 1 := by
  decide +kernel

/-- After any history of insertions into an empty set, the depth at a point is the sum of what the objects
add there, and the edges form closed curves. -/
theorem C71_history (ops : List ((List (Int × Int) × List (List (Int × Int))) × Bool)) :
    let D := ops.foldl (fun D o => insertHoles D o.1.1 o.1.2 o.2) []
    (∀ q, depth D q = (ops.map (fun o => (if o.2 then -1 else 1) * objDepth o.1.1 o.1.2 q)).sum) ∧ Closed D ∧ ∀ e ∈ D, Directed e.1 := by
  have key : ∀ (ops : List ((List (Int × Int) × List (List (Int × Int))) × Bool)) (D : Data),
      PAdds D (ops.foldl (fun D o => insertHoles D o.1.1 o.1.2 o.2) D)
        (fun q => (ops.map (fun o => (if o.2 then -1 else 1) * objDepth o.1.1 o.1.2 q)).sum) := by
    intro ops
    induction ops with
    | nil => exact fun D => ⟨fun q => by simp, fun h => h, fun h => h⟩
    | cons o r ih =>
      intro D
      have h := (insertHoles_adds D o.1.1 o.1.2 o.2).trans (ih (insertHoles D o.1.1 o.1.2 o.2))
      exact ⟨fun q => by rw [List.foldl_cons, h.depth, List.map_cons, List.sum_cons], h.closed, h.dir⟩
  have h := key ops []
  exact ⟨fun q => (h.depth q).trans (by simp [Spec.Arb.depth]), h.closed (fun v => rfl), h.dir (by simp)⟩

/-- The vertex the list starts with does not matter; for a polygon of non-zero area the direction does not
matter either. -/
theorem C71_start_and_direction (D : Data) (P : List (Int × Int)) (h : Bool) (k : Nat) (q : ℚ × ℚ) :
    depth (insertPoly D (P.rotate k) h) q = depth (insertPoly D P h) q ∧
    (shoelace P ≠ 0 → depth (insertPoly D P.reverse h) q = depth (insertPoly D P h) q) := by
  rw [(insertPoly_adds D (P.rotate k) h).depth, (insertPoly_adds D P.reverse h).depth, (insertPoly_adds D P h).depth]
  refine ⟨?_, fun h0 => ?_⟩
  · rw [windAt_rotate, orient, shoelace_rot, orient]
  · rw [windAt_reverse, orient, shoelace_reverse, orient]
    rcases lt_trichotomy (shoelace P) 0 with g | g | g
    · rw [if_pos (c := 0 < -shoelace P) (by omega), if_neg (c := 0 < shoelace P) (by omega)]; ring
    · exact absurd g h0
    · rw [if_neg (c := 0 < -shoelace P) (by omega), if_pos g]; ring

example : shoelace quad ≠ 0 := by decide +kernel

/-- For a polygon of zero area the direction decides which of its parts are kept. -/
theorem C71_zero_area : ∃ (P : List (Int × Int)) (q : ℚ × ℚ), shoelace P = 0 ∧
    0 < depth (insertPoly [] P false) q ∧ ¬ 0 < depth (insertPoly [] P.reverse false) q :=
  ⟨[(0, 0), (4, 4), (4, 0), (0, 4)], (3, 2), by decide +kernel⟩

/-- Inserting another set adds its depth, or subtracts it as a hole. -/
theorem C71_insert_set (D S : Data) (h : Bool) (hS : ∀ e ∈ S, Directed e.1) :
    (∀ q, depth (insertSet D S h) q = depth D q + (if h then -1 else 1) * depth S q) ∧
    (Closed D → Closed S → Closed (insertSet D S h)) ∧ ((∀ e ∈ D, Directed e.1) → ∀ e ∈ insertSet D S h, Directed e.1) := by
  rw [insertSet_adds h S D hS]
  refine ⟨fun q => by rw [depth_append, set_depth], fun h1 h2 v => ?_, fun hD e he => ?_⟩
  · rw [List.map_append, List.sum_append, h1 v, set_flow, h2 v]; ring
  · rcases List.mem_append.1 he with g | g
    · exact hD e g
    · obtain ⟨a, ha, rfl⟩ := List.mem_map.1 g; exact hS a ha

example : depth (insertSet (insertPoly [] quad false) (insertPoly [] hole false) true) (9/2, 5) = 0 := by decide +kernel

/-- Scaling up by a positive factor scales the depth with the plane. -/
theorem C71_scale_up (D : Data) (k : Int) (hk : 0 < k) (q : ℚ × ℚ) : depth (scaleUp k D) (q.1 * k, q.2 * k) = depth D q := by
  unfold Spec.Arb.depth scaleUp
  rw [List.map_map]
  congr 1
  apply List.map_congr_left
  intro e _
  have := passes_scale hk e.1 q
  simp only [Function.comp, this]

/-- Scaling down, whatever the rounding of the coordinates, keeps the curves closed: an edge that becomes
vertical has its count negated, because counts of vertical edges have the opposite direction. -/
theorem C71_scale_down (f : Int → Int) (D : Data) (h : Closed D) : Closed (scaleDown f D) := scaleDown_closed f h

example : scaleDown (fun x => x / 10) (insertPoly [] quad false) =
    [(((0, 0), (1, 0)), 1), (((1, 0), (1, 1)), -1), (((-1, 0), (1, 1)), -1), (((-1, 0), (0, 0)), 1)] := by decide +kernel

/-- The concept reported for the contents should be the narrowest one that fits. It is not: a rectangle is
reported as a general polygon set, and a single vertical edge already is. -/
theorem C72_downcast_violated : conceptDowncast (insertRect [] 0 0 4 3 false) = 3 ∧
    (∀ e ∈ insertRect [] 0 0 4 3 false, e.1.1.1 = e.1.2.1 ∨ e.1.1.2 = e.1.2.2) := by decide +kernel

/-- What it reports: 2 (45-degree set) exactly for non-empty sets all of whose edges are diagonals, 1 (Manhattan
set) exactly for the empty set, 3 (general set) for all others. The answer is therefore never too narrow, but a
Manhattan edge makes it 3. -/
theorem C72_downcast_partial (D : Data) (h : ∀ e ∈ D, e.1.1 ≠ e.1.2) :
    (conceptDowncast D = 1 ↔ D = []) ∧
    (conceptDowncast D = 2 ↔ D ≠ [] ∧ ∀ e ∈ D, |e.1.2.1 - e.1.1.1| = |e.1.2.2 - e.1.1.2|) ∧
    (conceptDowncast D = 1 ∨ conceptDowncast D = 2 ∨ conceptDowncast D = 3) := by
  have := downcast_iff D false h
  rw [conceptDowncast, this]
  by_cases h1 : D = []
  · subst h1; simp
  · by_cases h2 : ∀ e ∈ D, |e.1.2.1 - e.1.1.1| = |e.1.2.2 - e.1.1.2|
    · have : D.all (fun e => decide (|e.1.2.1 - e.1.1.1| = |e.1.2.2 - e.1.1.2|)) = true := by
        rw [List.all_eq_true]; intro e he; exact decide_eq_true (h2 e he)
      rw [if_pos this, if_pos (Or.inr h1)]; simp [h1]; intro a b c d e; exact h2 (((a, b), (c, d)), e)
    · have : ¬ D.all (fun e => decide (|e.1.2.1 - e.1.1.1| = |e.1.2.2 - e.1.1.2|)) = true := by
        rw [List.all_eq_true]; intro hc; exact h2 (fun e he => of_decide_eq_true (hc e he))
      rw [if_neg this]; refine ⟨by simp [h1], ⟨fun hc => by omega, fun hc => absurd hc.2 h2⟩, by simp⟩

example : conceptDowncast [(((0, 0), (2, 2)), 1), (((0, 0), (2, -2)), -1)] = 2 := by decide +kernel

end Verif.Properties.PolySet
