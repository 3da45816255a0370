import Verif.Proofs.ResizeDir
import Verif.Proofs.PolyPieces
import Verif.Model.ResizeGet
import Verif.Properties.Set90
/-!
# C49, C58: resizing Manhattan polygons by displacing their edges (`bloat`, `shrink`)
-/
namespace Verif.Properties.ResizePoly
open Verif.Spec Verif.Polygon Verif.BooleanOp Verif.Set90 Verif.Isotropy Verif.Shift1D Verif.ResizePoly

/-- C49: displacing the vertices of a rectilinear boundary without spikes never fails, keeps the number
of edges, and every edge ends up moved outward by the amount of the side it faces. -/
theorem C49_edges_displaced (P : List (Int × Int)) (w e s n : Int) (h2 : 2 ≤ P.length) (hr : Rectilinear P) (hs : NoSpike P) :
    ∃ Q, modifyAll w e s n P = some Q ∧ Q.length = P.length ∧ List.Forall₂ (MovedOut w e s n) (edges P) (edges Q) :=
  displaced P w e s n h2 hr hs

/-- An L-shape. -/
def ell : List (Int × Int) := [(0, 0), (8, 0), (8, 5), (3, 5), (3, 9), (0, 9)]

example : 2 ≤ ell.length ∧ Rectilinear ell ∧ NoSpike ell ∧
    modifyAll 1 2 3 4 ell = some [(-1, -3), (10, -3), (10, 9), (5, 9), (5, 13), (-1, 13)] := by
  refine ⟨by decide, ?_, by decide +kernel, by decide +kernel⟩
  intro e he
  revert e
  decide

/-- The absence of spikes is needed: the south-facing edge from (0, 0) to the tip (8, 0) of a spike
becomes slanted. -/
example : modifyAll 1 1 1 1 [(0, 0), (8, 0), (3, 0), (3, 5), (0, 5)] =
    some [(-1, -1), (8, 1), (4, 1), (4, 6), (-1, 6)] := by decide +kernel

/-- C49: removing collinear vertices keeps the winding number of every point, for every vertex list;
it keeps a rectilinear boundary rectilinear; and it leaves fewer than four vertices or no three
consecutive vertices (cyclically) on one horizontal or vertical line. -/
theorem C49_remove_collinear (P : List (Int × Int)) :
    (∀ q, wind (removeColinear P) q = wind P q) ∧ (Rectilinear P → Rectilinear (removeColinear P)) ∧
    ((removeColinear P).length < 4 ∨ ∀ t ∈ (removeColinear P).zip (((removeColinear P).rotate 1).zip ((removeColinear P).rotate 2)),
      ¬ Collinear90 t.1 t.2.1 t.2.2) :=
  ⟨removeColinear_wind P, removeColinear_rect, removeColinear_spec P⟩

example : removeColinear [(0, 0), (4, 0), (8, 0), (8, 5), (8, 5), (3, 5), (0, 5), (0, 2)] = [(0, 0), (8, 0), (8, 5), (0, 5)] := by
  simp [removeColinear, collapse, collapseGo, colinear]

/-- C58: `bloat(direction, amount)` of a set whose polygons are `polys` (outer boundaries counter-clockwise,
holes clockwise): afterwards a point is covered exactly when moving back by some distance between zero and
`amount` against the direction leads to a point of the polygons. -/
theorem C58_bloat_direction {polys : List PolyHoles} (h : RegularPolys polys) {t : PSet}
    (ht : t.orient = HORIZONTAL ∨ t.orient = VERTICAL) (h0 : t.data = []) {d : Int} (hd : 0 ≤ d) {dir : Nat} (hdir : dir < 4) :
    ∃ t', bloatDir dir d t polys = some t' ∧ t'.orient = t.orient ∧
      ∀ q, Covers t' q ↔ ∃ u : ℚ, 0 ≤ u ∧ u ≤ d ∧ 0 < total polys (q.1 - u * (dirVec dir).1, q.2 - u * (dirVec dir).2) := by
  have hz : ∀ q, depth t q = 0 := by intro q; simp [depth, h0, cover]
  have hg := regular_good h
  obtain rfl | rfl | rfl | rfl : dir = 0 ∨ dir = 1 ∨ dir = 2 ∨ dir = 3 := by omega
  · obtain ⟨t', e1, e2, e3⟩ := bloatPolys_depth d 0 0 0 t ht polys hg
    refine ⟨t', by simp [bloatDir, WEST, e1], e2, fun q => ?_⟩
    unfold Covers
    rw [e3, hz, zero_add, bloatH h d 0 q (dn d) (fun E => sh_dn E d) ⌊q.1⌋ (⌊q.1⌋ + d)
      (by rw [add_zero, abs_of_nonneg hd]; ring) (fun E a b => dilate_dn a b d _ hd),
      exists_stretch_dn (fun z => 0 < total polys ((z : ℚ), q.2))]
    refine exists_congr fun u => and_congr_right fun _ => and_congr_right fun _ => ?_
    simp only [dirVec, mul_zero, sub_zero, mul_neg, mul_one, sub_neg_eq_add]
    rw [(total_floor (q.1 + u) q.2).2]
  · obtain ⟨t', e1, e2, e3⟩ := bloatPolys_depth 0 d 0 0 t ht polys hg
    refine ⟨t', by simp [bloatDir, WEST, EAST, e1], e2, fun q => ?_⟩
    unfold Covers
    rw [e3, hz, zero_add, bloatH h 0 d q (up d) (fun E => sh_up E d) (⌊q.1⌋ - d) ⌊q.1⌋
      (by rw [zero_add, abs_of_nonneg hd]; ring) (fun E a b => dilate_up a b d _ hd),
      exists_stretch_up (fun z => 0 < total polys ((z : ℚ), q.2))]
    refine exists_congr fun u => and_congr_right fun _ => and_congr_right fun _ => ?_
    simp only [dirVec, mul_zero, sub_zero, mul_one]
    rw [(total_floor (q.1 - u) q.2).2]
  · obtain ⟨t', e1, e2, e3⟩ := bloatPolys_depth 0 0 d 0 t ht polys hg
    refine ⟨t', by simp [bloatDir, WEST, EAST, SOUTH, e1], e2, fun q => ?_⟩
    unfold Covers
    rw [e3, hz, zero_add, bloatV h d 0 q (dn d) (fun E => sh_dn E d) ⌊q.2⌋ (⌊q.2⌋ + d)
      (by rw [zero_add, abs_of_nonneg hd]; ring) (fun E a b => dilate_dn a b d _ hd),
      exists_stretch_dn (fun z => 0 < total polys (q.1, (z : ℚ)))]
    refine exists_congr fun u => and_congr_right fun _ => and_congr_right fun _ => ?_
    simp only [dirVec, mul_zero, sub_zero, mul_neg, mul_one, sub_neg_eq_add]
    rw [(total_floor q.1 (q.2 + u)).1]
  · obtain ⟨t', e1, e2, e3⟩ := bloatPolys_depth 0 0 0 d t ht polys hg
    refine ⟨t', by simp [bloatDir, WEST, EAST, SOUTH, e1], e2, fun q => ?_⟩
    unfold Covers
    rw [e3, hz, zero_add, bloatV h 0 d q (up d) (fun E => sh_up E d) (⌊q.2⌋ - d) ⌊q.2⌋
      (by rw [add_zero, abs_of_nonneg hd]; ring) (fun E a b => dilate_up a b d _ hd),
      exists_stretch_up (fun z => 0 < total polys (q.1, (z : ℚ)))]
    refine exists_congr fun u => and_congr_right fun _ => and_congr_right fun _ => ?_
    simp only [dirVec, mul_zero, sub_zero, mul_one]
    rw [(total_floor q.1 (q.2 - u)).1]

/-- C58: `shrink(direction, amount)` of a set whose polygons are `polys`: afterwards a point is covered
exactly when the whole stretch of length `amount` from it in the direction lay in the polygons, in
particular everything narrower than `amount` is gone. -/
theorem C58_shrink_direction {polys : List PolyHoles} (h : RegularPolys polys) {t : PSet}
    (ht : t.orient = HORIZONTAL ∨ t.orient = VERTICAL) (h0 : t.data = []) {d : Int} (hd : 0 ≤ d) {dir : Nat} (hdir : dir < 4) :
    ∃ t', shrinkDir dir d t polys = some t' ∧ t'.orient = t.orient ∧
      ∀ q, Covers t' q ↔ ∀ u : ℚ, 0 ≤ u → u ≤ d → 0 < total polys (q.1 + u * (dirVec dir).1, q.2 + u * (dirVec dir).2) := by
  have hz : ∀ q, depth t q = 0 := by intro q; simp [depth, h0, cover]
  have hg := regular_good h
  obtain rfl | rfl | rfl | rfl : dir = 0 ∨ dir = 1 ∨ dir = 2 ∨ dir = 3 := by omega
  · obtain ⟨t', e1, e2, e3⟩ := shrinkPolys_depth d 0 0 0 t ht polys hg
    refine ⟨t', by simp [shrinkDir, WEST, e1], e2, fun q => ?_⟩
    unfold Covers
    rw [e3, hz, zero_add, shrinkH h d 0 q (dn (-d)) (fun E => by rw [neg_zero]; exact sh_dn E (-d)) (⌊q.1⌋ - d) ⌊q.1⌋
      (by rw [add_zero, abs_of_nonneg hd]; ring) (fun E a b => erode_dn a b d _ hd),
      forall_stretch_up (fun z => 0 < total polys ((z : ℚ), q.2))]
    refine forall_congr' fun u => forall_congr' fun _ => forall_congr' fun _ => ?_
    simp only [dirVec, mul_zero, add_zero, mul_neg, mul_one, ← sub_eq_add_neg]
    rw [(total_floor (q.1 - u) q.2).2]
  · obtain ⟨t', e1, e2, e3⟩ := shrinkPolys_depth 0 d 0 0 t ht polys hg
    refine ⟨t', by simp [shrinkDir, WEST, EAST, e1], e2, fun q => ?_⟩
    unfold Covers
    rw [e3, hz, zero_add, shrinkH h 0 d q (up (-d)) (fun E => by rw [neg_zero]; exact sh_up E (-d)) ⌊q.1⌋ (⌊q.1⌋ + d)
      (by rw [zero_add, abs_of_nonneg hd]; ring) (fun E a b => erode_up a b d _ hd),
      forall_stretch_dn (fun z => 0 < total polys ((z : ℚ), q.2))]
    refine forall_congr' fun u => forall_congr' fun _ => forall_congr' fun _ => ?_
    simp only [dirVec, mul_zero, add_zero, mul_one]
    rw [(total_floor (q.1 + u) q.2).2]
  · obtain ⟨t', e1, e2, e3⟩ := shrinkPolys_depth 0 0 d 0 t ht polys hg
    refine ⟨t', by simp [shrinkDir, WEST, EAST, SOUTH, e1], e2, fun q => ?_⟩
    unfold Covers
    rw [e3, hz, zero_add, shrinkV h d 0 q (dn (-d)) (fun E => by rw [neg_zero]; exact sh_dn E (-d)) (⌊q.2⌋ - d) ⌊q.2⌋
      (by rw [zero_add, abs_of_nonneg hd]; ring) (fun E a b => erode_dn a b d _ hd),
      forall_stretch_up (fun z => 0 < total polys (q.1, (z : ℚ)))]
    refine forall_congr' fun u => forall_congr' fun _ => forall_congr' fun _ => ?_
    simp only [dirVec, mul_zero, add_zero, mul_neg, mul_one, ← sub_eq_add_neg]
    rw [(total_floor q.1 (q.2 - u)).1]
  · obtain ⟨t', e1, e2, e3⟩ := shrinkPolys_depth 0 0 0 d t ht polys hg
    refine ⟨t', by simp [shrinkDir, WEST, EAST, SOUTH, e1], e2, fun q => ?_⟩
    unfold Covers
    rw [e3, hz, zero_add, shrinkV h 0 d q (up (-d)) (fun E => by rw [neg_zero]; exact sh_up E (-d)) ⌊q.2⌋ (⌊q.2⌋ + d)
      (by rw [add_zero, abs_of_nonneg hd]; ring) (fun E a b => erode_up a b d _ hd),
      forall_stretch_dn (fun z => 0 < total polys (q.1, (z : ℚ)))]
    refine forall_congr' fun u => forall_congr' fun _ => forall_congr' fun _ => ?_
    simp only [dirVec, mul_zero, add_zero, mul_one]
    rw [(total_floor q.1 (q.2 + u)).1]

/-- A square with a square hole and, next to it, a small square. -/
def frame : List PolyHoles :=
  [([(0, 0), (10, 0), (10, 10), (0, 10)], [[(3, 3), (3, 6), (6, 6), (6, 3)]]), ([(20, 4), (22, 4), (22, 6), (20, 6)], [])]

theorem wind_box (a b c d : Int) (h1 : a ≤ c) (h2 : b ≤ d) (q : ℚ × ℚ) : wind [(a, b), (c, b), (c, d), (a, d)] q =
    if a ≤ ⌊q.1⌋ ∧ ⌊q.1⌋ < c ∧ b ≤ ⌊q.2⌋ ∧ ⌊q.2⌋ < d then 1 else 0 := by
  have e : edges [(a, b), (c, b), (c, d), (a, d)] = [((a, b), (c, b)), ((c, b), (c, d)), ((c, d), (a, d)), ((a, d), (a, b))] := rfl
  rw [wind_eq, e]
  simp only [List.map_cons, List.map_nil, List.sum_cons, List.sum_nil]
  rw [wE_rect _ _ _ (by simp), wE_rect _ _ _ (by simp), wE_rect _ _ _ (by simp), wE_rect _ _ _ (by simp)]
  dsimp only
  split_ifs <;> omega

theorem wind_box_cw (a b c d : Int) (h1 : a ≤ c) (h2 : b ≤ d) (q : ℚ × ℚ) : wind [(a, b), (a, d), (c, d), (c, b)] q =
    if a ≤ ⌊q.1⌋ ∧ ⌊q.1⌋ < c ∧ b ≤ ⌊q.2⌋ ∧ ⌊q.2⌋ < d then -1 else 0 := by
  have e : edges [(a, b), (a, d), (c, d), (c, b)] = [((a, b), (a, d)), ((a, d), (c, d)), ((c, d), (c, b)), ((c, b), (a, b))] := rfl
  rw [wind_eq, e]
  simp only [List.map_cons, List.map_nil, List.sum_cons, List.sum_nil]
  rw [wE_rect _ _ _ (by simp), wE_rect _ _ _ (by simp), wE_rect _ _ _ (by simp), wE_rect _ _ _ (by simp)]
  dsimp only
  split_ifs <;> omega

theorem frame_regular : RegularPolys frame := by
  refine ⟨?_, by decide +kernel, ?_, ?_, ?_, ?_⟩
  · have : ∀ P ∈ boundaries frame, 2 ≤ P.length ∧ (∀ e ∈ edges P, e.1.1 = e.2.1 ∨ e.1.2 = e.2.2) ∧ NoZeroEdge P ∧ NoSpike P := by
      decide +kernel
    exact this
  · intro q
    simp only [total, boundaries, frame, List.flatMap_cons, List.flatMap_nil, List.cons_append, List.nil_append, List.append_nil,
      List.map_cons, List.map_nil, List.sum_cons, List.sum_nil]
    rw [wind_box _ _ _ _ (by norm_num) (by norm_num), wind_box _ _ _ _ (by norm_num) (by norm_num),
      wind_box_cw _ _ _ _ (by norm_num) (by norm_num)]
    split_ifs <;> omega
  · intro p hp q
    simp only [frame, List.mem_cons, List.not_mem_nil, or_false] at hp
    rcases hp with rfl | rfl <;> dsimp only <;> rw [wind_box _ _ _ _ (by norm_num) (by norm_num)] <;> split_ifs <;> omega
  · intro p hp g hg q
    simp only [frame, List.mem_cons, List.not_mem_nil, or_false] at hp
    rcases hp with rfl | rfl
    · simp only [List.mem_cons, List.not_mem_nil, or_false] at hg
      subst hg
      rw [wind_box_cw _ _ _ _ (by norm_num) (by norm_num)]
      split_ifs <;> omega
    · simp at hg
  · intro p hp q
    simp only [frame, List.mem_cons, List.not_mem_nil, or_false] at hp
    rcases hp with rfl | rfl
    · simp only [List.map_cons, List.map_nil, List.sum_cons, List.sum_nil]
      rw [wind_box _ _ _ _ (by norm_num) (by norm_num), wind_box_cw _ _ _ _ (by norm_num) (by norm_num)]
      split_ifs <;> omega
    · simp only [List.map_nil, List.sum_nil, add_zero]
      rw [wind_box _ _ _ _ (by norm_num) (by norm_num)]
      split_ifs <;> omega

example : ∃ t', bloatDir NORTH 4 (PSet.mk0 HORIZONTAL) frame = some t' ∧ t'.data.length = 8 := by decide +kernel

example : ∃ t', shrinkDir NORTH 3 (PSet.mk0 VERTICAL) frame = some t' ∧ t'.data.length = 8 := by decide +kernel

theorem got {umin umax : Int} {s : PSet} (hs : Valid umin umax s) : ∃ ps t, s.getPolys false umax = some (ps, t) ∧ t.orient = s.orient ∧
    RegularPolys (ps.map verticesOf) ∧ ∀ q, 0 < total (ps.map verticesOf) q ↔ Covers s q := by
  obtain ⟨ps, t, h1, h2, _⟩ := Verif.Proofs.PolyGet.get_spec false hs
  obtain ⟨t', e, e1, _⟩ := clean_spec hs
  rw [h2] at e
  have := Option.some_inj.1 e
  subst this
  obtain ⟨r1, r2⟩ := Verif.Proofs.PolyPieces.regular hs h1
  have hp : ps.map verticesOf = ps.map pts := rfl
  refine ⟨ps, t, h1, e1, hp ▸ r1, fun q => ?_⟩
  rw [hp, r2 q]
  unfold Covers
  split_ifs with h <;> simp [h]

/-- C58, from the set itself: `bloat(direction, amount)` never fails on a valid set, and afterwards a point is
covered exactly when moving back by some distance between zero and `amount` leads to a point of the set. -/
theorem C58_bloat_set {umin umax : Int} {s : PSet} (hs : Valid umin umax s) {d : Int} (hd : 0 ≤ d) {dir : Nat} (hdir : dir < 4) :
    ∃ t, s.bloatIn umax dir d = some t ∧ t.orient = s.orient ∧
      ∀ q, Covers t q ↔ ∃ u : ℚ, 0 ≤ u ∧ u ≤ d ∧ Covers s (q.1 - u * (dirVec dir).1, q.2 - u * (dirVec dir).2) := by
  obtain ⟨ps, t, h1, h2, h3, h4⟩ := got hs
  obtain ⟨t', e1, e2, e3⟩ := C58_bloat_direction h3 (t := t.clear) (by show t.orient = _ ∨ t.orient = _; rw [h2]; exact hs.orient) rfl hd hdir
  refine ⟨t', ?_, by rw [e2]; exact h2, fun q => ?_⟩
  · unfold PSet.bloatIn; rw [h1]; exact e1
  · rw [e3 q]
    exact exists_congr fun u => and_congr_right fun _ => and_congr_right fun _ => h4 _

/-- C58, from the set itself: `shrink(direction, amount)` never fails on a valid set, and afterwards a point is
covered exactly when the whole stretch of length `amount` from it in the direction lay in the set. -/
theorem C58_shrink_set {umin umax : Int} {s : PSet} (hs : Valid umin umax s) {d : Int} (hd : 0 ≤ d) {dir : Nat} (hdir : dir < 4) :
    ∃ t, s.shrinkIn umax dir d = some t ∧ t.orient = s.orient ∧
      ∀ q, Covers t q ↔ ∀ u : ℚ, 0 ≤ u → u ≤ d → Covers s (q.1 + u * (dirVec dir).1, q.2 + u * (dirVec dir).2) := by
  obtain ⟨ps, t, h1, h2, h3, h4⟩ := got hs
  obtain ⟨t', e1, e2, e3⟩ := C58_shrink_direction h3 (t := t.clear) (by show t.orient = _ ∨ t.orient = _; rw [h2]; exact hs.orient) rfl hd hdir
  refine ⟨t', ?_, by rw [e2]; exact h2, fun q => ?_⟩
  · unfold PSet.shrinkIn; rw [h1]; exact e1
  · rw [e3 q]
    exact forall_congr' fun u => forall_congr' fun _ => forall_congr' fun _ => h4 _

/-- A rectangle inserted in an empty set is a valid set. -/
example : Valid (-100) 100 ((PSet.mk0 HORIZONTAL).insertRect ⟨⟨0, 5⟩, ⟨0, 3⟩⟩ false) :=
  Verif.Properties.Set90.C02_reachable_is_valid (.insertRect _ _ (.new _ (Or.inl rfl)) (by simp [RectIn]))

end Verif.Properties.ResizePoly
