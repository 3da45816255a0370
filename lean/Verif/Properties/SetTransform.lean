import Verif.Model.SetTransform
import Verif.Proofs.WindMap
import Verif.Properties.RoundTrip
import Verif.Properties.Transform
/-!
# C92: moving polygons and polygon sets moves the region they cover

Reflections reverse the order of the vertices, so the winding number changes its sign and the sets turn it back. A point on the boundary belongs to one side
of it by convention, and reflections exchange the sides: the theorems speak of points that are on no side.
-/
namespace Verif.Properties.SetTransform
open Verif Verif.Spec Verif.Spec.Arb Verif.Polygon Verif.PolySet Verif.Cut Verif.Transform Verif.SetTransform Verif.WindMap Verif.Isotropy
open Verif.Properties.Cut Verif.Properties.ArbForm Verif.Properties.RoundTrip
open Verif.ArbForm (Poly)

/-! ### Polygons -/

theorem det_cases (a : Nat) : axisDet a = 1 ∨ axisDet a = -1 := by
  unfold axisDet
  split <;> simp

/-- C92: the winding number of a moved outline around a moved point is that of the outline around the point, with the sign of the
transformation. -/
theorem C92_winding (t : Transformation) (ht : t.atr < 8) (P : List (Int × Int)) (q : ℚ × ℚ) (h : OffEdges P q) :
    windAt (transformPts t P) (transMap t.atr t.p q) = axisDet t.atr * windAt P q := (wind_trans h t ht).1

example : windAt (transformPts ⟨5, (3, 1)⟩ [(0, 0), (6, 0), (2, 5)]) (transMap 5 (3, 1) (2, 1)) = 1 ∧
    windAt (transformPts ⟨4, (3, 1)⟩ [(0, 0), (6, 0), (2, 5)]) (transMap 4 (3, 1) (2, 1)) = -1 ∧ windAt [(0, 0), (6, 0), (2, 5)] (2, 1) = 1 := by decide +kernel

/-- C92: moving back gives the polygon. -/
theorem C92_invert (t : Transformation) (ht : t.atr < 8) (P : Poly) :
    transformPoly t.invert (transformPoly t P) = P ∧ transformPoly t (transformPoly t.invert P) = P := by
  have h1 : ∀ l, transformPts t.invert (transformPts t l) = l := by
    intro l
    unfold transformPts
    rw [List.map_map]
    conv_rhs => rw [← List.map_id l]
    exact List.map_congr_left (fun p _ => (Properties.Transform.C18_invert t ht p).1)
  have h2 : ∀ l, transformPts t (transformPts t.invert l) = l := by
    intro l
    unfold transformPts
    rw [List.map_map]
    conv_rhs => rw [← List.map_id l]
    exact List.map_congr_left (fun p _ => (Properties.Transform.C18_invert t ht p).2)
  unfold transformPoly
  obtain ⟨o, H⟩ := P
  refine ⟨?_, ?_⟩
  · simp only [List.map_map, h1, Poly.mk.injEq, true_and]
    conv_rhs => rw [← List.map_id H]
    exact List.map_congr_left (fun l _ => h1 l)
  · simp only [List.map_map, h2, Poly.mk.injEq, true_and]
    conv_rhs => rw [← List.map_id H]
    exact List.map_congr_left (fun l _ => h2 l)

example : transformPoly (Transformation.invert ⟨5, (3, 1)⟩) (transformPoly ⟨5, (3, 1)⟩ ⟨[(0, 0), (6, 0), (2, 5)], [[(1, 1), (2, 1), (2, 2)]]⟩) =
    ⟨[(0, 0), (6, 0), (2, 5)], [[(1, 1), (2, 1), (2, 2)]]⟩ := by decide +kernel

/-- C92: the area of an outline keeps its value and changes its sign with the orientation; that of a polygon with holes is unchanged; the direction
of an outline that has an area is reversed by reflections only. -/
theorem C92_area (t : Transformation) (ht : t.atr < 8) (P : List (Int × Int)) (H : List (List (Int × Int))) :
    areaQ (transformPts t P) = axisDet t.atr * areaQ P ∧ areaHolesQ (transformPts t P) (H.map (transformPts t)) = areaHolesQ P H ∧
    (areaQ P ≠ 0 → (windingQ (transformPts t P) = windingQ P ↔ axisDet t.atr = 1)) := by
  have key : ∀ l, areaQ (transformPts t l) = axisDet t.atr * areaQ l := by
    intro l
    have h1 := two_areaQ (transformPts t l)
    have h2 := two_areaQ l
    rw [show transformPts t l = l.map t.transform from rfl, shoelace_trans l t ht] at h1
    rw [show transformPts t l = l.map t.transform from rfl]
    rcases det_cases t.atr with e | e <;> rw [e] at h1 ⊢ <;> push_cast at h1 ⊢ <;> linarith
  have abs : ∀ l, (if areaQ (transformPts t l) < 0 then areaQ (transformPts t l) * -1 else areaQ (transformPts t l)) = if areaQ l < 0 then areaQ l * -1 else areaQ l := by
    intro l
    rw [key]
    rcases det_cases t.atr with e | e <;> rw [e] <;> push_cast
    · rw [one_mul]
    · rcases lt_trichotomy (areaQ l) 0 with c | c | c
      · rw [if_neg (by linarith), if_pos c]; ring
      · rw [c]; simp
      · rw [if_pos (by linarith), if_neg (by linarith)]; ring
  refine ⟨key P, ?_, fun hP => ?_⟩
  · unfold areaHolesQ
    dsimp only
    rw [abs, List.foldl_map]
    simp only [abs]
  · unfold windingQ
    rw [key]
    rcases det_cases t.atr with e | e <;> rw [e] <;> push_cast
    · simp
    · rcases lt_or_gt_of_ne hP with c | c
      · rw [if_neg (by linarith), if_pos c]; decide
      · rw [if_pos (by linarith), if_neg (by linarith)]; decide

example : windingQ (transformPts ⟨4, (3, 1)⟩ [(0, 0), (6, 0), (2, 5)]) = LOW ∧ windingQ [(0, 0), (6, 0), (2, 5)] = HIGH ∧
    areaHolesQ (transformPts ⟨4, (3, 1)⟩ [(0, 0), (6, 0), (2, 5)]) ([[(1, 1), (2, 1), (2, 2)]].map (transformPts ⟨4, (3, 1)⟩)) = 29 / 2 := by decide +kernel

theorem orient_trans {t : Transformation} (ht : t.atr < 8) {P : List (Int × Int)} (h : shoelace P ≠ 0) : orient (transformPts t P) = axisDet t.atr * orient P := by
  unfold orient transformPts
  rw [shoelace_trans P t ht]
  rcases det_cases t.atr with e | e <;> rw [e]
  · simp
  · rcases lt_or_gt_of_ne h with c | c
    · rw [if_pos (by omega), if_neg (by omega)]; rfl
    · rw [if_neg (by omega), if_pos c]; rfl

/-- C92: what a moved polygon with holes adds to the depth at a moved point is what the polygon adds at the point, if no outline has area zero. -/
theorem C92_polygon (t : Transformation) (ht : t.atr < 8) (P : List (Int × Int)) (H : List (List (Int × Int))) (hn : ∀ l ∈ P :: H, shoelace l ≠ 0)
    (q : ℚ × ℚ) (h : ∀ l ∈ P :: H, OffEdges l q) :
    objDepth (transformPts t P) (H.map (transformPts t)) (transMap t.atr t.p q) = objDepth P H q := by
  have key : ∀ l ∈ P :: H, orient (transformPts t l) * windAt (transformPts t l) (transMap t.atr t.p q) = orient l * windAt l q := by
    intro l hl
    rw [orient_trans ht (hn l hl), C92_winding t ht l q (h l hl)]
    rcases det_cases t.atr with e | e <;> rw [e] <;> ring
  unfold objDepth
  rw [key P List.mem_cons_self, List.map_map]
  congr 2
  exact List.map_congr_left (fun l hl => key l (List.mem_cons_of_mem _ hl))

example : objDepth (transformPts ⟨4, (3, 1)⟩ [(0, 0), (6, 0), (6, 6), (0, 6)]) ([[(1, 1), (3, 1), (3, 3)]].map (transformPts ⟨4, (3, 1)⟩)) (transMap 4 (3, 1) (5 / 2, 3 / 2)) = 0 ∧
    objDepth (transformPts ⟨4, (3, 1)⟩ [(0, 0), (6, 0), (6, 6), (0, 6)]) ([[(1, 1), (3, 1), (3, 3)]].map (transformPts ⟨4, (3, 1)⟩)) (transMap 4 (3, 1) (3 / 2, 5 / 2)) = 1 := by decide +kernel

/-- A figure of eight with two loops of the same area. -/
def eight : List (Int × Int) := [(0, 0), (4, 4), (4, 0), (0, 4)]

/-- C92: a figure of eight with two loops of the same area has no direction: inserted into a set it covers one loop, and its mirror image covers the image of
the other loop. -/
theorem C92_figure_of_eight_violated :
    let d := fun P q => depth (build [((P, []), false)]) q
    let m : Transformation := ⟨2, (0, 0)⟩
    d eight (1, 2) = -1 ∧ d eight (3, 2) = 1 ∧
    d (transformPts m eight) (transMap 2 (0, 0) (1, 2)) = 1 ∧ d (transformPts m eight) (transMap 2 (0, 0) (3, 2)) = -1 := by decide +kernel

/-- C92: a translated polygon: no exception for points on the boundary or for outlines without area. -/
theorem C92_move (o : Nat) (d : Int) (P : Poly) (q : ℚ × ℚ) :
    let v : Int × Int := if o = HORIZONTAL then (d, 0) else (0, d)
    objDepth (move o d P).outer (move o d P).holes (q.1 + v.1, q.2 + v.2) = objDepth P.outer P.holes q ∧
      areaQ (move o d P).outer = areaQ P.outer := by
  have key : ∀ (v : Int × Int), objDepth (convolvePoly v P).outer (convolvePoly v P).holes (q.1 + v.1, q.2 + v.2) = objDepth P.outer P.holes q ∧
      areaQ (convolvePoly v P).outer = areaQ P.outer := by
    intro v
    have ho : ∀ l, orient (convolvePts v l) = orient l := by
      intro l; unfold orient convolvePts; rw [shoelace_translate]
    have hw : ∀ l, windAt (convolvePts v l) (q.1 + v.1, q.2 + v.2) = windAt l q := fun l => wind_move l v q
    refine ⟨?_, ?_⟩
    · unfold objDepth convolvePoly
      dsimp only
      rw [ho, hw, List.map_map]
      congr 2
      exact List.map_congr_left (fun l _ => by simp only [Function.comp]; rw [ho, hw])
    · have h1 := two_areaQ (convolvePts v P.outer)
      have h2 := two_areaQ P.outer
      unfold convolvePts at h1
      rw [shoelace_translate] at h1
      unfold convolvePoly convolvePts
      linarith
  unfold move
  by_cases c : o = HORIZONTAL
  · simp only [if_pos c]; exact key _
  · simp only [if_neg c]; exact key _

example : objDepth (move HORIZONTAL 7 ⟨[(0, 0), (6, 0), (2, 5)], []⟩).outer (move HORIZONTAL 7 ⟨[(0, 0), (6, 0), (2, 5)], []⟩).holes (9, 1) = 1 ∧
    objDepth (move VERTICAL 7 ⟨[(0, 0), (6, 0), (2, 5)], []⟩).outer (move VERTICAL 7 ⟨[(0, 0), (6, 0), (2, 5)], []⟩).holes (2, 8) = 1 := by decide +kernel

/-- C92: a polygon scaled up, everywhere. -/
theorem C92_scale_up (k : Int) (hk : 0 < k) (P : Poly) (q : ℚ × ℚ) :
    objDepth (scaleUpPoly k P).outer (scaleUpPoly k P).holes (q.1 * k, q.2 * k) = objDepth P.outer P.holes q ∧
      areaQ (scaleUpPoly k P).outer = k * k * areaQ P.outer := by
  have hs : ∀ l, shoelace (scaleUpPts k l) = k * k * shoelace l := by
    intro l
    unfold shoelace scaleUpPts
    rw [Polygon.edges_map, List.map_map, ← List.sum_map_mul_left]
    congr 1
    apply List.map_congr_left
    intro e _
    simp only [Function.comp, Prod.map]
    ring
  have ho : ∀ l, orient (scaleUpPts k l) = orient l := by
    intro l
    unfold orient
    rw [hs]
    simp only [mul_pos_iff_of_pos_left (mul_pos hk hk)]
  have hw : ∀ l, windAt (scaleUpPts k l) (q.1 * k, q.2 * k) = windAt l q := fun l => wind_scale l hk q
  refine ⟨?_, ?_⟩
  · unfold objDepth scaleUpPoly
    dsimp only
    rw [ho, hw, List.map_map]
    congr 2
    exact List.map_congr_left (fun l _ => by simp only [Function.comp]; rw [ho, hw])
  · have h1 := two_areaQ (scaleUpPts k P.outer)
    have h2 := two_areaQ P.outer
    rw [hs] at h1
    push_cast at h1
    unfold scaleUpPoly
    dsimp only
    nlinarith

example : objDepth (scaleUpPoly 3 ⟨[(0, 0), (6, 0), (2, 5)], []⟩).outer (scaleUpPoly 3 ⟨[(0, 0), (6, 0), (2, 5)], []⟩).holes (6, 3) = 1 ∧
    areaQ (scaleUpPoly 3 ⟨[(0, 0), (6, 0), (2, 5)], []⟩).outer = -135 := by decide +kernel

/-! ### Sets at any angle -/

theorem ring_edges {l : List (Int × Int)} (hr : Ring l) {e : Edge} (he : e ∈ edges l) (hn : e.1 ≠ e.2) : e ∈ sides l := by
  have h0 : ∀ a ∈ l.zip l.tail, a.1 ≠ a.2 → a ∈ sides l := fun a ha c => List.mem_filter.2 ⟨ha, by simpa using c⟩
  obtain ⟨_, hl⟩ := hr
  cases l with
  | nil => simp [edges] at he
  | cons p r =>
    rw [edges_cons] at he
    rcases List.eq_nil_or_concat r with rfl | ⟨r', z, rfl⟩
    · simp only [List.singleton_append, pairs, List.mem_singleton] at he
      subst he; exact absurd rfl hn
    · rw [List.concat_eq_append] at *
      have hz : z = p := by
        rw [show p :: (r' ++ [z]) = (p :: r') ++ [z] from rfl, List.getLast?_concat] at hl
        simpa using hl.symm
      have e1 : p :: (r' ++ [z]) ++ [p] = (p :: r') ++ [z, p] := by simp
      rw [e1, pairs_concat] at he
      rcases List.mem_append.1 he with he | he
      · refine h0 e ?_ hn
        have := zip_pairs p r' z
        rw [List.tail_cons, show (p :: (r' ++ [z])) = (p :: r') ++ [z] from rfl]
        have e2 : ((p :: r') ++ [z]).zip (r' ++ [z]) = (p :: r').zip (r' ++ [z]) := by
          rw [← List.append_nil (r' ++ [z]), List.zip_append (by simp)]; simp
        rw [e2, this]; exact he
      · rw [List.mem_singleton] at he
        subst he; exact absurd hz hn

theorem total_moved {out : List Poly} (hp : ∀ P ∈ out, Proper P.outer P.holes) {t : Transformation} (ht : t.atr < 8) {q : ℚ × ℚ}
    (h : ∀ l ∈ rings out, OffEdges l q) : total (objects (out.map (transformPoly t))) (transMap t.atr t.p q) = ((rings out).map (fun l => windAt l q)).sum := by
  rw [← total_objects hp]
  unfold total objects
  rw [List.map_map, List.map_map, List.map_map]
  congr 1
  apply List.map_congr_left
  intro P hP
  simp only [Function.comp, Bool.false_eq_true, if_false, one_mul]
  obtain ⟨h1, h2⟩ := PolyArea.proper_sign (hp P hP)
  refine C92_polygon t ht P.outer P.holes (fun l hl => ?_) q (fun l hl => h l (List.mem_flatMap.2 ⟨P, hP, hl⟩))
  rcases List.mem_cons.1 hl with rfl | hl
  · omega
  · have := h2 l hl; omega

theorem transformSet_eq {fp : FP} {umin umax : Int} {t : Transformation} {S : Data} {out : List Poly} (h : ArbForm.getPolys fp umin umax S = some out) :
    transformSet fp umin umax t S = some (build (objects (out.map (transformPoly t)))) := by
  unfold transformSet
  rw [h]
  simp only [Option.bind_eq_bind, Option.bind_some]
  unfold build objects
  rw [List.map_map, List.foldl_map]
  rfl

/-- Neither coordinate is an integer. -/
def OffGrid (q : ℚ × ℚ) : Prop := (∀ n : Int, q.1 ≠ n) ∧ ∀ n : Int, q.2 ≠ n

theorem off_straight {e : Edge} {q : ℚ × ℚ} (hq : OffGrid q) (h : e.1.1 = e.2.1 ∨ e.1.2 = e.2.2) : ¬ OnEdge e q := by
  rintro ⟨s, -, -, h3, h4⟩
  rcases h with h | h
  · rw [h] at h3; exact hq.1 e.2.1 (by linarith)
  · rw [h] at h4; exact hq.2 e.2.2 (by linarith)

/-- C92: transforming a set of rectilinear edges moves the region: the moved set covers the image of a point once if the set covers the point, and not otherwise. -/
theorem C92_set_manhattan (fp : FP) (umin umax : Int) (D S : Data) (hS : S.Perm D) (hM : Manhattan (D.map Prod.fst))
    (hd : ∀ e ∈ D, Directed e.1) (hu : ∀ e ∈ D, umin ≤ min e.1.1.2 e.1.2.2) (hD : Closed D) (t : Transformation) (ht : t.atr < 8) :
    ∃ R, transformSet fp umin umax t S = some R ∧ ∀ q, OffGrid q → depth R (transMap t.atr t.p q) = if depth D q > 0 then 1 else 0 := by
  obtain ⟨out, h1, h2, h3, h4, h5⟩ := ArbForm.C81_get_manhattan fp umin umax D S hS hM hd hu hD
  refine ⟨_, transformSet_eq h1, fun q hq => ?_⟩
  rw [(build_spec _).1, total_moved h3 ht (fun l hl e he hn => off_straight hq (h4 l hl e (ring_edges (h2 l hl).1 he hn))), h5]

theorem onEdge_trans {a e : Edge} (h1 : OnEdge a (pt e.1)) (h2 : OnEdge a (pt e.2)) {q : ℚ × ℚ} (h : OnEdge e q) : OnEdge a q := by
  obtain ⟨s1, p1, p2, p3, p4⟩ := h1
  obtain ⟨s2, r1, r2, r3, r4⟩ := h2
  obtain ⟨s, t1, t2, t3, t4⟩ := h
  simp only [pt] at p3 p4 r3 r4
  refine ⟨s1 + s * (s2 - s1), by nlinarith, by nlinarith, ?_, ?_⟩
  · rw [t3, p3, r3]; ring
  · rw [t4, p4, r4]; ring

theorem onEdge_swap {e : Edge} {q : ℚ × ℚ} (h : OnEdge e q) : OnEdge e.swap q := by
  obtain ⟨s, t1, t2, t3, t4⟩ := h
  refine ⟨1 - s, by linarith, by linarith, ?_, ?_⟩
  · simp only [Prod.fst_swap, Prod.snd_swap]; rw [t3]; ring
  · simp only [Prod.fst_swap, Prod.snd_swap]; rw [t4]; ring

/-- C92: the same for edges at any angle that meet in lattice points, at every point that is on no edge of the set. -/
theorem C92_set_lattice (fp : FP) (hfp : fp.Accurate) (umin umax : Int) (D S : Data) (hS : S.Perm D) (hL : OnLattice (D.map Prod.fst))
    (hd : ∀ e ∈ D, Directed e.1) (hu : ∀ e ∈ D, umin ≤ min e.1.1.2 e.1.2.2) (hD : Closed D) (t : Transformation) (ht : t.atr < 8) :
    ∃ R, transformSet fp umin umax t S = some R ∧
      ∀ q, (∀ e ∈ D, ¬ OnEdge e.1 q) → depth R (transMap t.atr t.p q) = if depth D q > 0 then 1 else 0 := by
  obtain ⟨out, h1, h2, h3, h4, h5⟩ := ArbForm.C81_get_lattice fp hfp umin umax D S hS hL hd hu hD
  refine ⟨_, transformSet_eq h1, fun q hq => ?_⟩
  rw [(build_spec _).1, total_moved h3 ht (fun l hl e he hn => ?_), h5]
  intro k
  rcases h4 l hl e (ring_edges (h2 l hl).1 he hn) with g | g
  · obtain ⟨_, _, _, a, ha, g1, g2⟩ := g
    obtain ⟨b, hb, rfl⟩ := List.mem_map.1 ha
    exact hq b hb (onEdge_trans g1 g2 k)
  · obtain ⟨_, _, _, a, ha, g1, g2⟩ := g
    obtain ⟨b, hb, rfl⟩ := List.mem_map.1 ha
    exact hq b hb (onEdge_trans g1 g2 (onEdge_swap k))

/-- C92: any set, with exact arithmetic, at every point whose unit square no edge meets. -/
theorem C92_set (fp : FP) (hfp : fp.Floor) (umin umax : Int) (D S : Data) (hS : S.Perm D)
    (hd : ∀ e ∈ D, Directed e.1) (hu : ∀ e ∈ D, umin ≤ min e.1.1.2 e.1.2.2) (hD : Closed D) (t : Transformation) (ht : t.atr < 8) :
    ∃ R, transformSet fp umin umax t S = some R ∧
      ∀ q, Clear (D.map Prod.fst) q → depth R (transMap t.atr t.p q) = if depth D q > 0 then 1 else 0 := by
  obtain ⟨out, h1, h2, h3, h4, _, h6⟩ := ArbForm.C81_get fp hfp umin umax D S hS hd hu hD
  refine ⟨_, transformSet_eq h1, fun q hq => ?_⟩
  rw [(build_spec _).1, total_moved h3 ht (fun l hl e he hn => ?_), h6 q hq]
  intro k
  obtain ⟨a, ha, g⟩ := h4 l hl e (ring_edges (h2 l hl).1 he hn)
  obtain ⟨z, hz, g1⟩ := g q k
  exact hq a.1 (List.mem_map.2 ⟨a, ha, rfl⟩) z hz g1

example : ∃ R, transformSet exactFP (-100) 100 ⟨5, (3, 1)⟩ (build (Cut.frame ++ Cut.bar)) = some R ∧
    ∀ q, Clear ((build (Cut.frame ++ Cut.bar)).map Prod.fst) q → Arb.depth R (transMap 5 (3, 1) q) = if Arb.depth (build (Cut.frame ++ Cut.bar)) q > 0 then 1 else 0 :=
  C92_set exactFP exactFP_floor (-100) 100 _ _ (List.Perm.refl _) (build_spec _).2.2.1 (by decide +kernel) (build_spec _).2.1 ⟨5, (3, 1)⟩ (by decide)

example : ((transformSet exactFP (-100) 100 ⟨5, (3, 1)⟩ (build (Cut.frame ++ Cut.bar))).map
    (fun R => ([(1, 1), (4, 7/2), (4, 9/2), (11, 9/2), (11, 6)] : List (ℚ × ℚ)).map (fun q => Arb.depth R (transMap 5 (3, 1) q)))) = some [1, 0, 1, 1, 0] := by decide +kernel

/-! ### Sets at 45 degrees -/

open Verif.Spec.Deg45 Verif.Set45

theorem oct_trans {t : Transformation} (ht : t.atr < 8) {e : Edge} (h : Octant e) : Octant (Prod.map t.transform t.transform e) := by
  obtain ⟨a, p⟩ := t
  obtain ⟨⟨x, y⟩, z, w⟩ := e
  unfold Octant at *
  dsimp only at ht h
  interval_cases a <;> simp [Transformation.transform, axisTransform, bit0, bit1, bit2, predicatedSwap] at h ⊢ <;> omega

theorem poly45_trans {t : Transformation} (ht : t.atr < 8) {l : List (Int × Int)} (h : Poly45 l) : Poly45 (transformPts t l) := by
  intro e he
  unfold transformPts at he
  rw [Polygon.edges_map] at he
  obtain ⟨a, ha, rfl⟩ := List.mem_map.1 he
  exact oct_trans ht (h a ha)

/-- Not on a line of the grid, straight or diagonal. -/
def Off45 (q : ℚ × ℚ) : Prop := OffGrid q ∧ (∀ n : Int, q.1 + q.2 ≠ n) ∧ ∀ n : Int, q.1 - q.2 ≠ n

theorem off_octant {e : Edge} {q : ℚ × ℚ} (hq : Off45 q) (h : Octant e) : ¬ OnEdge e q := by
  rcases h with h | h | h | h
  · exact off_straight hq.1 (Or.inl h)
  · exact off_straight hq.1 (Or.inr h)
  · rintro ⟨s, -, -, h3, h4⟩
    have h' : (e.2.1 : ℚ) - e.1.1 = e.2.2 - e.1.2 := by exact_mod_cast h
    exact hq.2.2 (e.1.1 - e.1.2) (by push_cast; rw [h3, h4, h']; ring)
  · rintro ⟨s, -, -, h3, h4⟩
    have h' : (e.2.1 : ℚ) - e.1.1 = e.1.2 - e.2.2 := by exact_mod_cast h
    exact hq.2.1 (e.1.1 + e.1.2) (by push_cast; rw [h3, h4, h']; ring)

theorem rebuild_run (umin umax : Int) (out : List Poly) :
    (rebuild out).run umin umax = .ok (out.foldl (fun s P => s.insertHoles P.outer P.holes false) S45.new) := by
  have : ∀ (out : List Poly) (p : Prog) (s : S45), p.run umin umax = .ok s →
      (out.foldl (fun p P => Prog.poly p P.outer P.holes false) p).run umin umax = .ok (out.foldl (fun s P => s.insertHoles P.outer P.holes false) s) := by
    intro out
    induction out with
    | nil => intro p s h; exact h
    | cons P out ih =>
      intro p s h
      rw [List.foldl_cons, List.foldl_cons]
      exact ih _ _ (by simp only [Prog.run, h])
  exact this out .new _ rfl

theorem get_clean {umin umax : Int} (hu : umin ≤ umax) {s u : S45} (hs : Valid umin umax s) (h : s.clean umin umax = .ok u) :
    Form45.get umin umax u = Form45.get umin umax s := by
  have hu' : u.clean umin umax = .ok u := by
    rcases clean_spec hu hs with ⟨v, e, _, ⟨d1, d2⟩, _⟩ | ⟨e, _⟩
    · rw [h] at e; injection e with e; subst e
      have hsort : u.sort = u := by unfold S45.sort; rw [if_neg (by simp [d2])]
      unfold S45.clean
      rw [hsort, if_neg (by simp [d1])]
    · rw [h] at e; simp at e
  unfold Form45.get
  rw [hu', h]

/-- C92: transforming a 45-degree set built by any program. Either the set has no polygons, because an intersection is not on the grid, and the exception is that of
reading them, or the moved set covers the image of a point that is on no grid line exactly if the program's set covers the point. If the images of the vertices fit the coordinate
type, the moved set is a valid one, and the polygons read from it, if it has any, wind once around these images and not around others. -/
theorem C92_45 {umin umax : Int} (hu : umin ≤ umax) {p : Prog} (h : p.Ok umin umax) {s : S45} (e : p.run umin umax = .ok s) (t : Transformation) (ht : t.atr < 8) :
    (transform45 umin umax t s = .fail .precision ∧ ¬ p.Even) ∨
    ∃ out r, Form45.get umin umax s = .polys out ∧ transform45 umin umax t s = .ok r ∧
      ((∀ l ∈ rings out, ∀ v ∈ l, (umin ≤ (t.transform v).1 ∧ (t.transform v).1 ≤ umax) ∧ umin ≤ (t.transform v).2 ∧ (t.transform v).2 ≤ umax) →
        Valid umin umax r ∧ (∀ q, Off45 q → Deg45.depth r.data (transMap t.atr t.p q) = if 0 < p.depth q then 1 else 0) ∧
        ∀ o, Form45.get umin umax r = .polys o →
          ∀ q, Off45 q → ((rings o).map (fun l => windAt l (transMap t.atr t.p q))).sum = if 0 < p.depth q then 1 else 0) := by
  rcases run_spec hu h with ⟨v, e', g⟩ | ⟨e', -⟩
  swap
  · rw [e] at e'; simp at e'
  rw [e] at e'; injection e' with e'; subst e'
  rcases clean_spec hu g.valid with ⟨u, c, _⟩ | ⟨c, _, c2⟩
  swap
  · left
    unfold transform45
    rw [c]
    exact ⟨rfl, fun he => c2 (g.even he)⟩
  have hg := get_clean hu g.valid c
  rcases Form45.C89_polygons hu h e with ⟨out, h1, h2, h3, h4⟩ | ⟨h1, h2⟩
  swap
  · left
    unfold transform45
    rw [c]
    simp only [hg, h1]
    exact ⟨trivial, h2⟩
  right
  refine ⟨out, refill t out, h1, ?_, fun hr => ?_⟩
  · unfold transform45
    rw [c]
    simp only [hg, h1]
  · have hrings : rings (out.map (transformPoly t)) = (rings out).map (transformPts t) := by
      unfold rings
      rw [List.flatMap_map, List.map_flatMap]
      rfl
    have ok : (rebuild (out.map (transformPoly t))).Ok umin umax := by
      apply rebuild_ok
      rw [hrings]
      intro l hl
      obtain ⟨a, ha, rfl⟩ := List.mem_map.1 hl
      refine ⟨poly45_trans ht (ring_poly45 (h2 a ha).1 (h2 a ha).2.2), fun w hw => ?_⟩
      obtain ⟨b, hb, rfl⟩ := List.mem_map.1 hw
      exact hr a ha b hb
    have hrun := rebuild_run umin umax (out.map (transformPoly t))
    rcases run_spec hu ok with ⟨w, ew, gw⟩ | ⟨ew, -⟩
    swap
    · rw [hrun] at ew; simp at ew
    rw [hrun] at ew
    injection ew with ew
    have edata : (refill t out).data = w.data := by rw [← ew]; rfl
    have emanh : (refill t out).manh = w.manh := by rw [← ew]; rfl
    have val : Valid umin umax (refill t out) :=
      { sorted := fun k => by simp [refill] at k
        clean := fun k => by simp [refill] at k
        manh := fun k => by rw [edata]; exact gw.valid.manh (by rw [← emanh]; exact k)
        closed := by rw [edata]; exact gw.valid.closed
        range := by rw [edata]; exact gw.valid.range }
    have dep : ∀ q, Off45 q → Deg45.depth (refill t out).data (transMap t.atr t.p q) = if 0 < p.depth q then 1 else 0 := by
      intro q hq
      rw [edata, gw.depth, rebuild_depth, total_moved h3 ht (fun l hl a ha hn => off_octant hq ((h2 l hl).2.2 a (ring_edges (h2 l hl).1 ha hn))), h4]
    refine ⟨val, dep, fun o ho q hq => ?_⟩
    rcases N45.get_spec hu val (fun k => by simp [refill] at k) with ⟨o', k1, _, _, k4⟩ | ⟨k1, _⟩
    · rw [ho] at k1
      injection k1 with k1
      subst k1
      have := k4 (transMap t.atr t.p q)
      rw [dep q hq] at this
      rw [show rings o = N45.outlines o from rfl, this]
      split_ifs <;> simp_all
    · rw [ho] at k1; simp at k1

/-- C92: a 45-degree set scaled up, everywhere. -/
theorem C92_scale_up_45 (k : Int) (hk : 0 < k) (s : S45) (q : ℚ × ℚ) : Deg45.depth (scaleUp45 k s).data (q.1 * k, q.2 * k) = Deg45.depth s.data q := by
  have hk' : (0 : ℚ) < k := by exact_mod_cast hk
  unfold Deg45.depth scaleUp45
  rw [List.map_map]
  congr 1
  apply List.map_congr_left
  intro v _
  have : ∀ (r c : Int), ray (q.1 * k, q.2 * k) (v.1.1 * k, v.1.2 * k) r c = ray q v.1 r c := by
    intro r c
    unfold ray
    dsimp only
    push_cast
    have e1 : (v.1.2 : ℚ) * k + r * (q.1 * k - v.1.1 * k) = (v.1.2 + r * (q.1 - v.1.1)) * k := by ring
    rw [e1]
    simp only [mul_le_mul_iff_left₀ hk']
  simp only [Function.comp, this]

example : (match Form45.framed.run (-100) 100 with
    | .ok s => (match transform45 (-100) 100 ⟨4, (3, 1)⟩ s with
      | .ok r => ([(1/3, 1), (6, 3), (6, 6), (13, 1)] : List (ℚ × ℚ)).map (fun q => Deg45.depth r.data (transMap 4 (3, 1) q)) ++
          [Deg45.depth (scaleUp45 3 s).data (3, 3)]
      | _ => [])
    | _ => []) = [1, 0, 1, 0, 1] := by decide +kernel

end Verif.Properties.SetTransform
