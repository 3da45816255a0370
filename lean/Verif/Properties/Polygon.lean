import Verif.Proofs.PolygonInsert
/-!
# Properties of Manhattan polygons: insertion (C08), area and winding (C30), compact encoding (C33),
# `is_45` (C47)
-/
namespace Verif.Properties.Polygon
open Verif.Polygon Verif.Spec Verif.Set90 Verif.Isotropy Verif.Machine

/-- An L-shaped polygon, counter-clockwise. -/
def exL : List (Int × Int) := [(0, 0), (4, 0), (4, 2), (2, 2), (2, 5), (0, 5)]
/-- A quadrilateral that is not rectilinear. -/
def exQuad : List (Int × Int) := [(0, 0), (5, 1), (3, 4), (-1, 2)]

/-! ## C30 -/

/-- C30: the computed area is minus half the shoelace sum (the code counts clockwise area as
positive), for every vertex list. -/
theorem C30_shoelace (P : List (Int × Int)) : 2 * areaQ P = -(shoelace P : ℚ) := two_areaQ P

example : shoelace exQuad = 27 ∧ shoelace exL = 28 := by decide +kernel

/-- C30: with integer arithmetic the area of a rectilinear polygon is exact although every term is
halved separately. -/
theorem C30_manhattan_exact (P : List (Int × Int)) (h : Rectilinear P) : 2 * area90 P = -shoelace P := two_area90 P h

example : Rectilinear exL ∧ area90 exL = -14 := by unfold Rectilinear; decide +kernel

/-- C30: the start vertex does not matter. -/
theorem C30_rotate (P : List (Int × Int)) (k : Nat) : areaQ (P.rotate k) = areaQ P ∧
    (Rectilinear P → area90 (P.rotate k) = area90 P) := by
  have e := shoelace_perm (edges_rotate P k)
  refine ⟨?_, fun h => ?_⟩
  · have h1 := two_areaQ (P.rotate k); have h2 := two_areaQ P
    rw [e] at h1; linarith
  · have h1 := two_area90 _ (rectilinear_perm (edges_rotate P k).symm h); have h2 := two_area90 P h
    omega

/-- C30: the position of the polygon does not matter. -/
theorem C30_translate (P : List (Int × Int)) (dx dy : Int) :
    areaQ (P.map (fun p => (p.1 + dx, p.2 + dy))) = areaQ P := by
  have h1 := two_areaQ (P.map (fun p => (p.1 + dx, p.2 + dy))); have h2 := two_areaQ P
  rw [shoelace_translate] at h1; linarith

/-- C30: reversing the vertex list negates the area. -/
theorem C30_reverse (P : List (Int × Int)) : areaQ P.reverse = -areaQ P ∧
    (Rectilinear P → area90 P.reverse = -area90 P) := by
  have e := shoelace_reverse P
  refine ⟨?_, fun h => ?_⟩
  · have h1 := two_areaQ P.reverse; have h2 := two_areaQ P
    rw [e] at h1; push_cast at h1; linarith
  · have h1 := two_area90 _ (rectilinear_reverse h); have h2 := two_area90 P h
    omega

/-- C30: repeating the first vertex at the end does not matter. -/
theorem C30_closing_vertex (p : Int × Int) (r : List (Int × Int)) :
    areaQ (p :: r ++ [p]) = areaQ (p :: r) ∧ area90 (p :: r ++ [p]) = area90 (p :: r) := by
  refine ⟨?_, area90_close p r⟩
  have h1 := two_areaQ (p :: r ++ [p]); have h2 := two_areaQ (p :: r)
  rw [shoelace_close] at h1; linarith

/-- C30: winding is COUNTERCLOCKWISE exactly for positive orientation. -/
theorem C30_winding (P : List (Int × Int)) : (windingQ P = HIGH ↔ 0 < shoelace P) ∧
    (Rectilinear P → (winding90 P = HIGH ↔ 0 < shoelace P)) := by
  refine ⟨?_, fun h => ?_⟩
  · have h1 := two_areaQ P
    have : areaQ P < 0 ↔ 0 < shoelace P := by
      rw [← Int.cast_pos (R := ℚ)]; constructor <;> intro <;> linarith
    rw [windingQ, ← this]; split_ifs with h <;> simp [h, HIGH, LOW]
  · have h1 := two_area90 P h
    rw [winding90]; split_ifs with h2 <;> simp [HIGH, LOW] <;> omega

example : windingQ exQuad = HIGH ∧ winding90 exL = HIGH ∧ winding90 exL.reverse = LOW := by
  refine ⟨(C30_winding exQuad).1.mpr (by decide +kernel), by decide +kernel, by decide +kernel⟩

/-- C30: area of a polygon with holes is the area of the outer boundary minus the areas of the
holes, each by absolute value. -/
theorem C30_holes (P : List (Int × Int)) (H : List (List (Int × Int))) :
    2 * areaHolesQ P H = |(shoelace P : ℚ)| - (H.map (fun h => |(shoelace h : ℚ)|)).sum ∧
    (Rectilinear P → (∀ h ∈ H, Rectilinear h) → 2 * areaHoles90 P H = |shoelace P| - (H.map (fun h => |shoelace h|)).sum) := by
  have absQ (P : List (Int × Int)) : 2 * (if areaQ P < 0 then areaQ P * -1 else areaQ P) = |(shoelace P : ℚ)| := by
    have h := two_areaQ P
    split_ifs with hn
    · rw [abs_of_pos (by linarith)]; linarith
    · rw [abs_of_nonpos (by linarith)]; linarith
  have absZ (P : List (Int × Int)) (hr : Rectilinear P) :
      2 * (if area90 P < 0 then area90 P * -1 else area90 P) = |shoelace P| := by
    have h := two_area90 P hr
    split_ifs with hn
    · rw [abs_of_pos (by linarith)]; linarith
    · rw [abs_of_nonpos (by linarith)]; linarith
  constructor
  · have gen (r : ℚ) : 2 * H.foldl (fun r h => r - if areaQ h < 0 then areaQ h * -1 else areaQ h) r =
        2 * r - (H.map (fun h => |(shoelace h : ℚ)|)).sum := by
      induction H generalizing r with
      | nil => simp
      | cons a H ih =>
        simp only [List.foldl_cons, List.map_cons, List.sum_cons]
        rw [ih, mul_sub, absQ]; ring
    have := gen (if areaQ P < 0 then areaQ P * -1 else areaQ P)
    rw [absQ] at this
    exact this
  · intro hP hH
    have gen (r : Int) : 2 * H.foldl (fun r h => r - if area90 h < 0 then area90 h * -1 else area90 h) r =
        2 * r - (H.map (fun h => |shoelace h|)).sum := by
      induction H generalizing r with
      | nil => simp
      | cons a H ih =>
        simp only [List.foldl_cons, List.map_cons, List.sum_cons]
        rw [ih (fun h hh => hH h (by simp [hh])), mul_sub, absZ a (hH a (by simp))]; ring
    have := gen (if area90 P < 0 then area90 P * -1 else area90 P)
    rw [absZ P hP] at this
    exact this

example : areaHoles90 [(0, 0), (9, 0), (9, 9), (0, 9)] [[(1, 1), (3, 1), (3, 3), (1, 3)], [(5, 5), (5, 6), (7, 6), (7, 5)]] = 75 := by
  decide +kernel

/-- C30: the area of a rectilinear polygon is the winding number summed over the unit cells of any
box that contains it. -/
theorem C30_counts_cells (P : List (Int × Int)) (hr : Rectilinear P) (lo hi : Int)
    (hb : ∀ p ∈ P, lo ≤ p.1 ∧ p.1 ≤ hi ∧ lo ≤ p.2 ∧ p.2 ≤ hi) :
    ∑ x ∈ Finset.Ico lo hi, ∑ y ∈ Finset.Ico lo hi, wind P (x, y) = -area90 P := by
  rw [← cells_area P hr lo hi hb]
  simp only [wind_eq, Int.floor_intCast]

/-- C53: in 64-bit arithmetic the area does not overflow for coordinates up to `M` in absolute value
when `8 M² (number of vertices) < 2^63`. Missing: other 32-bit polygons, see `C53_overflow_violated`. -/
theorem C53_no_overflow_partial (P : List (Int × Int)) (M : Int) (hM : ∀ p ∈ P, |p.1| ≤ M ∧ |p.2| ≤ M)
    (h : P.length * (8 * M ^ 2) < 2 ^ 63) : area64 P = some (area90 P) := by
  match P with
  | [] => rfl
  | p :: r =>
    refine areaGo64_eq M ?_ p p r 0 0 ?_ (by simp) ?_
    · exact le_trans (abs_nonneg _) (hM p (by simp)).1
    · intro q hq; apply hM; simpa using hq
    · simpa using h

example : area64 exL = some (-14) := by decide +kernel
/-- A polygon of 1000 vertices with coordinates up to ten million meets the bound. -/
example : (1000 : Int) * (8 * 10000000 ^ 2) < 2 ^ 63 := by decide

/-- C53 does not hold for every polygon of 32-bit coordinates whose area is representable: the code
doubles each trapezoid before halving it, so a square of side `2^31` (area `2^62`) overflows. -/
theorem C53_overflow_violated : ∃ P : List (Int × Int), (∀ p ∈ P, I32 p.1 ∧ I32 p.2) ∧ Rectilinear P ∧
    I64 (area90 P) ∧ area64 P = none :=
  ⟨[(-2 ^ 30, -2 ^ 30), (-2 ^ 30, 2 ^ 30), (2 ^ 30, 2 ^ 30), (2 ^ 30, -2 ^ 30)], by decide +kernel,
    by unfold Rectilinear; decide +kernel, by decide +kernel, by decide +kernel⟩

/-! ## C08 -/

/-- C08: inserting a rectilinear polygon changes the coverage of every point by its winding number,
counted positive for the direction in which the polygon is listed (`HIGH`: counter-clockwise), and
negated for a hole. -/
theorem C08_insert_signed (s : PSet) (hs : s.orient = HORIZONTAL ∨ s.orient = VERTICAL) (P : List (Int × Int))
    (hole : Bool) (h4 : 4 ≤ P.length) (ha : Alternating P) (hn : NoStutter P) (q : ℚ × ℚ) :
    depth (s.insertPoly P hole) q = depth s q +
      (if winding90 P = HIGH then wind P q else -wind P q) * (if hole then -1 else 1) := by
  rw [insertPoly_depth s hs P hole h4 ha hn]
  unfold winding90
  split_ifs <;> simp_all [LOW, HIGH]

/-- C08: a polygon that never winds both ways round (in particular a simple one) adds the absolute
value of its winding number to every point. -/
theorem C08_insert_polygon_partial (s : PSet) (hs : s.orient = HORIZONTAL ∨ s.orient = VERTICAL) (P : List (Int × Int))
    (h4 : 4 ≤ P.length) (ha : Alternating P) (hn : NoStutter P)
    (hw : (∀ q, 0 ≤ wind P q) ∨ (∀ q, wind P q ≤ 0)) (hole : Bool) (q : ℚ × ℚ) :
    depth (s.insertPoly P hole) q = depth s q + |wind P q| * (if hole then -1 else 1) := by
  rw [insertPoly_depth s hs P hole h4 ha hn]
  have : (if winding90 P = LOW then (-1 : Int) else 1) * wind P q = |wind P q| := by
    rcases hw with hw | hw
    · exact sign_of_nonneg P (alternating_rect ha) hw q
    · exact sign_of_nonpos P (alternating_rect ha) hw q
  rw [← this]; ring

/-- C08: listing the vertices in the opposite direction or from another start vertex gives the
same coverage, whenever the polygon has non-zero signed area or never winds both ways. -/
theorem C08_direction_and_start_partial (s : PSet) (hs : s.orient = HORIZONTAL ∨ s.orient = VERTICAL)
    (P Q : List (Int × Int)) (hPQ : (∃ k, Q = P.rotate k) ∨ (∃ k, Q = P.reverse.rotate k)) (h4 : 4 ≤ P.length)
    (ha : Alternating P) (hn : NoStutter P) (ha' : Alternating Q) (hn' : NoStutter Q)
    (hw : shoelace P ≠ 0 ∨ (∀ q, 0 ≤ wind P q) ∨ (∀ q, wind P q ≤ 0)) (hole : Bool) (q : ℚ × ℚ) :
    depth (s.insertPoly Q hole) q = depth (s.insertPoly P hole) q := by
  have hlen : 4 ≤ Q.length := by
    rcases hPQ with ⟨k, rfl⟩ | ⟨k, rfl⟩ <;> simpa using h4
  have hrP := alternating_rect ha
  have hrQ := alternating_rect ha'
  have e : (wind Q = wind P ∧ shoelace Q = shoelace P) ∨ ((∀ q, wind Q q = -wind P q) ∧ shoelace Q = -shoelace P) := by
    rcases hPQ with ⟨k, rfl⟩ | ⟨k, rfl⟩
    · exact Or.inl ⟨funext (wind_perm (edges_rotate P k)), shoelace_perm (edges_rotate P k)⟩
    · refine Or.inr ⟨fun q => ?_, ?_⟩
      · rw [wind_perm (edges_rotate _ k), wind_reverse]
      · rw [shoelace_perm (edges_rotate _ k), shoelace_reverse]
  rcases hw with hw | hw
  · rw [insertPoly_depth s hs P hole h4 ha hn, insertPoly_depth s hs Q hole hlen ha' hn']
    have h1 := two_area90 P hrP
    have h2 := two_area90 Q hrQ
    unfold winding90
    rcases e with ⟨e1, e2⟩ | ⟨e1, e2⟩
    · rw [e1, show area90 Q = area90 P by omega]
    · rw [e1]
      have sg (a : Int) : (if (if a < 0 then HIGH else LOW) = LOW then (-1 : Int) else 1) = if a < 0 then 1 else -1 := by
        by_cases ha : a < 0 <;> simp [ha, HIGH, LOW]
      rw [sg, sg]
      by_cases hp : area90 P < 0
      · rw [if_pos hp, if_neg (show ¬ area90 Q < 0 by omega)]; ring
      · rw [if_neg hp, if_pos (show area90 Q < 0 by omega)]; ring
  · have hw' : (∀ q, 0 ≤ wind Q q) ∨ (∀ q, wind Q q ≤ 0) := by
      rcases e with ⟨e1, -⟩ | ⟨e1, -⟩
      · rw [e1]; exact hw
      · rcases hw with hw | hw
        · exact Or.inr (fun q => by rw [e1]; linarith [hw q])
        · exact Or.inl (fun q => by rw [e1]; linarith [hw q])
    rw [C08_insert_polygon_partial s hs P h4 ha hn hw hole q, C08_insert_polygon_partial s hs Q hlen ha' hn' hw' hole q]
    rcases e with ⟨e1, -⟩ | ⟨e1, -⟩
    · rw [e1]
    · rw [e1, abs_neg]

/-- C08: repeating the first vertex at the end makes no difference. -/
theorem C08_closing_vertex (s : PSet) (p : Int × Int) (r : List (Int × Int)) (h4 : 4 ≤ (p :: r).length)
    (hl : (p :: r).getLast? ≠ some p) (hole : Bool) : s.insertPoly (p :: r ++ [p]) hole = s.insertPoly (p :: r) hole := by
  rw [PSet.insertPoly, PSet.insertPoly, polyVertices_close p r s.orient hole h4 hl]

/-- C08: a set stays valid (closed, in range) when a polygon is inserted. -/
theorem C08_insert_valid {umin umax : Int} {s : PSet} (hs : Valid umin umax s) (P : List (Int × Int)) (hole : Bool)
    (h4 : 4 ≤ P.length) (ha : Alternating P) (hn : NoStutter P)
    (hr : ∀ p ∈ P, umin ≤ p.1 ∧ p.1 ≤ umax ∧ umin ≤ p.2 ∧ p.2 ≤ umax) : Valid umin umax (s.insertPoly P hole) :=
  insertPoly_valid hs P hole h4 ha hn hr

/-- C08: fewer than four vertices add nothing. -/
theorem C08_degenerate (s : PSet) (P : List (Int × Int)) (hole : Bool) (h : P.length < 4) : s.insertPoly P hole = s :=
  insertPoly_depth_short s P hole h

/-- C08: a polygon with holes adds the outer boundary's coverage minus that of the holes. -/
theorem C08_insert_with_holes_partial (s : PSet) (hs : s.orient = HORIZONTAL ∨ s.orient = VERTICAL)
    (P : List (Int × Int)) (H : List (List (Int × Int)))
    (hg : ∀ Q ∈ P :: H, 4 ≤ Q.length ∧ Alternating Q ∧ NoStutter Q ∧ ((∀ q, 0 ≤ wind Q q) ∨ (∀ q, wind Q q ≤ 0)))
    (hole : Bool) (q : ℚ × ℚ) :
    depth (s.insertPolyHoles P H hole) q = depth s q +
      (|wind P q| - (H.map (fun Q => |wind Q q|)).sum) * (if hole then -1 else 1) := by
  have term (Q : List (Int × Int)) (hQ : Q ∈ P :: H) : polyTerm Q ⌊q.1⌋ ⌊q.2⌋ = |wind Q q| := by
    obtain ⟨h4, ha, -, hw⟩ := hg Q hQ
    rw [polyTerm, if_neg (by omega), ← wind_eq]
    rcases hw with hw | hw
    · exact sign_of_nonneg Q (alternating_rect ha) hw q
    · exact sign_of_nonpos Q (alternating_rect ha) hw q
  rw [insertPolyHoles_depth s hs P H hole (Or.inr ⟨(hg P (by simp)).2.1, (hg P (by simp)).2.2.1⟩)
    (fun Q hQ => Or.inr ⟨(hg Q (by simp [hQ])).2.1, (hg Q (by simp [hQ])).2.2.1⟩), term P (by simp)]
  have : H.map (fun Q => polyTerm Q ⌊q.1⌋ ⌊q.2⌋) = H.map (fun Q => |wind Q q|) :=
    List.map_congr_left (fun Q hQ => term Q (by simp [hQ]))
  rw [this]; ring

/-- The hypotheses of the C08 theorems hold for the L shape, listed either way. -/
example : 4 ≤ exL.length ∧ Alternating exL ∧ NoStutter exL ∧ Alternating exL.reverse ∧ NoStutter exL.reverse ∧ shoelace exL ≠ 0 := by
  decide +kernel

/-- The L shape winds only one way, so it covers its interior once. -/
theorem exL_wind (q : ℚ × ℚ) : 0 ≤ wind exL q ∧ wind exL q ≤ 1 := by
  rw [wind_eq]
  generalize ⌊q.1⌋ = x
  generalize ⌊q.2⌋ = y
  simp only [edges, exL, List.rotate_cons_succ, List.rotate_zero, List.cons_append, List.nil_append, List.zip_cons_cons,
    List.zip_nil_right, List.map_cons, List.map_nil, List.sum_cons, List.sum_nil, wE]
  norm_num
  split_ifs <;> omega

example : ∀ q, 0 ≤ wind exL q := fun q => (exL_wind q).1

/-- C08 fails for polygons that wind both ways with total area zero: the direction cannot be told
from the area, so listing this figure eight backwards changes what is covered. -/
theorem C08_zero_area_violated : ∃ P : List (Int × Int), 4 ≤ P.length ∧ Alternating P ∧ NoStutter P ∧ Alternating P.reverse ∧
    NoStutter P.reverse ∧ ∃ q : ℚ × ℚ,
      Covers ((PSet.mk0 VERTICAL).insertPoly P false) q ∧ ¬ Covers ((PSet.mk0 VERTICAL).insertPoly P.reverse false) q :=
  ⟨[(0, 0), (1, 0), (1, 2), (2, 2), (2, 1), (0, 1)], by decide +kernel, by decide +kernel, by decide +kernel, by decide +kernel,
    by decide +kernel, (3 / 2, 3 / 2), by unfold Covers; decide +kernel, by unfold Covers; decide +kernel⟩

/-- C08 fails when a vertex is listed three times in a row: the corner is lost, and points far
outside the square are covered. -/
theorem C08_repeated_vertex_violated : ∃ P : List (Int × Int), 4 ≤ P.length ∧ Alternating P ∧
    (∀ p ∈ P, 0 ≤ p.1 ∧ p.1 ≤ 2 ∧ 0 ≤ p.2 ∧ p.2 ≤ 2) ∧ Covers ((PSet.mk0 VERTICAL).insertPoly P false) (100, 1) :=
  ⟨[(0, 0), (2, 0), (2, 0), (2, 0), (2, 2), (0, 2)], by decide +kernel, by decide +kernel, by decide +kernel,
    by unfold Covers; decide +kernel⟩

/-! ## C33 -/

/-- C33: a list `x0 y0 x1 y1 ...` of at least four coordinates whose last `x` differs from the
first expands to as many vertices, a closed alternating polygon starting at `(x0, y0)` with a
horizontal edge, and compacting these gives the coordinates back. -/
theorem C33_compact_expand_partial (x0 y0 : Int) (cs : List Int) (x y : Int) (hev : Even cs.length) (hx : x ≠ x0) :
    let coords := x0 :: y0 :: cs ++ [x, y]
    (expand coords).length = coords.length ∧ Alternating (expand coords) ∧ AltFrom true (edges (expand coords)) ∧
      (expand coords).head? = some (x0, y0) ∧ compact (expand coords) = coords := by
  have hlast : ∀ (d : Int) (L : List Int), L.length % 2 = 0 → lastX d (L ++ [x, y]) = x := by
    intro d L
    induction L using List.twoStepInduction generalizing d with
    | nil => intro; rfl
    | singleton a => intro h; simp at h
    | cons_cons a b L ih _ =>
      intro h
      simp only [List.cons_append, lastX]
      exact ih a (by simp at h; omega)
  have hev' : cs.length % 2 = 0 := Nat.even_iff.mp hev
  have hl : lastX x0 (cs ++ [x, y]) ≠ x0 := by rw [hlast x0 cs hev']; exact hx
  have hl2 : (cs ++ [x, y]).length % 2 = 0 := by simp; omega
  simp only [List.cons_append, expand]
  have h1 := expandGo_length x0 (x0, y0) (cs ++ [x, y]) hl2 hl
  have h2 := expandGo_alt x0 y0 (x0, y0) (cs ++ [x, y]) hl2 hl
  obtain ⟨t, ht⟩ := expandGo_head x0 (x0, y0) (cs ++ [x, y]) HORIZONTAL
  have h3 : AltFrom true (edges (expandGo x0 (x0, y0) (cs ++ [x, y]) HORIZONTAL)) := by
    rw [ht] at h2 ⊢
    rw [edges_cons, altFrom_path]
    exact h2
  refine ⟨by rw [h1]; simp, ⟨?_, Or.inl h3⟩, h3, by rw [ht]; rfl, compact_expandGo x0 (x0, y0) _ hl2 hl⟩
  rw [h1, Nat.even_iff]; simp; omega

example : expand [0, 0, 4, 2, 2, 5] = exL := by decide +kernel

/-- C33: storing an alternating polygon whose first edge is horizontal and whose last horizontal
edge is not degenerate, and reading it back, gives the same vertices. -/
theorem C33_expand_compact_partial (p q : Int × Int) (r : List (Int × Int)) (u v : Int × Int) (hev : Even r.length)
    (ha : AltFrom true (edges (p :: q :: r ++ [u, v]))) (hu : u.1 ≠ p.1) :
    expand (compact (p :: q :: r ++ [u, v])) = p :: q :: r ++ [u, v] := by
  have hev' : r.length % 2 = 0 := Nat.even_iff.mp hev
  have hc : ∀ (L : List (Int × Int)) (d : Int), L.length % 2 = 0 → lastX d (compactGo (L ++ [u, v]) HORIZONTAL) = u.1 := by
    intro L
    induction L using List.twoStepInduction with
    | nil => intros; rfl
    | singleton a => intro d h; simp at h
    | cons_cons a b L ih _ =>
      intro d h
      simp only [List.cons_append, compactGo_two, lastX]
      exact ih a.1 (by simp at h; omega)
  simp only [List.cons_append] at ha ⊢
  rw [edges_cons, altFrom_path] at ha
  have hpq : p.2 = q.2 := by simpa using ha.1
  have : (p.1, q.2) = p := by rw [← hpq]
  rw [compact, compactGo_two, expand, this]
  exact expand_compactGo p.1 p.2 p q (r ++ [u, v]) (by simp; omega) (by simpa using ha) (by rw [hc r p.1 hev']; exact hu)

example : AltFrom true (edges exL) ∧ expand (compact exL) = exL := by decide +kernel

/-- C33 fails for coordinate lists that end on the first `x`: the last vertex is not produced and
the expansion no longer alternates. -/
theorem C33_violated : ∃ cs : List Int, 4 ≤ cs.length ∧ Even cs.length ∧ compact (expand cs) ≠ cs ∧ ¬ Alternating (expand cs) :=
  ⟨[0, 0, 5, 5, 0, 10], by decide +kernel, by decide +kernel, by decide +kernel, by decide +kernel⟩

/-! ## C47 -/

/-- C47: `is_45` of a vertex sequence is true exactly when every edge, including the closing one, is
axis parallel or diagonal. -/
theorem C47_sequence (P : List (Int × Int)) : is45Seq P = true ↔ ∀ e ∈ edges P, Edge45 e := by
  match P with
  | [] => simp [is45Seq, edges]
  | p :: r =>
    rw [is45Seq, is45Go_iff, edges_cons]
    refine forall₂_congr fun e _ => ?_
    rw [bad45_iff, Edge45]
    constructor <;> rintro (h | h | h)
    · exact Or.inl (by omega)
    · exact Or.inr (Or.inl (by omega))
    · exact Or.inr (Or.inr h)
    · exact Or.inl (by omega)
    · exact Or.inr (Or.inl (by omega))
    · exact Or.inr (Or.inr h)

example : is45Seq [(0, 0), (3, 0), (5, 2), (5, 5), (0, 5)] = true ∧ is45Seq exQuad = false := by decide +kernel

/-- C47 fails for holes: a hole with edges of slope 1/2 is accepted. -/
theorem C47_holes_violated : ∃ P H, is45Holes P H = true ∧ ¬ ∀ Q ∈ P :: H, ∀ e ∈ edges Q, Edge45 e :=
  ⟨[(0, 0), (9, 0), (9, 9), (0, 9)], [[(1, 1), (5, 3), (1, 4)]], by decide +kernel, by decide +kernel⟩

/-- C47: what `is_45` does decide for a polygon with holes: the outer boundary only. A `false`
answer is therefore right, and so is `true` when there are no holes. -/
theorem C47_holes_partial (P : List (Int × Int)) (H : List (List (Int × Int))) :
    (is45Holes P H = true ↔ ∀ e ∈ edges P, Edge45 e) ∧
    ((∀ Q ∈ P :: H, ∀ e ∈ edges Q, Edge45 e) → is45Holes P H = true) := by
  have h : is45Holes P H = true ↔ is45Seq P = true := by
    unfold is45Holes
    by_cases hp : is45Seq P = true <;> simp [hp]
  refine ⟨by rw [h, C47_sequence], fun hq => ?_⟩
  rw [h, C47_sequence]
  exact hq P (by simp)

end Verif.Properties.Polygon
