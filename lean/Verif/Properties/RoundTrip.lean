import Verif.Proofs.PolyArea
import Verif.Model.SetArea
import Verif.Properties.Form45
/-!
# C90: polygons read from a set are oriented, rebuild the set, and carry its area
-/
namespace Verif.Properties.RoundTrip
open Verif Verif.Cut Verif.PolySet Verif.Polygon Verif.PolyArea Verif.Spec Verif.Spec.Arb Verif.SetArea Verif.Isotropy
open Verif.Properties.ArbForm (rings rings_sum)
open Verif.Properties.Cut (Obj build total outlines build_spec)

/-- C90: the outer outline of a proper polygon is counterclockwise and its holes are clockwise, as `winding` tells it; so are those of all polygons read
from sets, by `C81_get` and `C89_polygons`. -/
theorem C90_winding {outer : List (Int × Int)} {holes : List (List (Int × Int))} (h : Proper outer holes) :
    windingQ outer = HIGH ∧ (∀ l ∈ holes, windingQ l = LOW) ∧ 0 < shoelace outer ∧ ∀ l ∈ holes, shoelace l < 0 := by
  obtain ⟨h1, h2⟩ := proper_sign h
  refine ⟨?_, fun l hl => ?_, h1, h2⟩
  · unfold windingQ
    have := two_areaQ outer
    have h1' : (0 : ℚ) < shoelace outer := by exact_mod_cast h1
    rw [if_pos (by linarith)]
  · unfold windingQ
    have := two_areaQ l
    have h2' : (shoelace l : ℚ) < 0 := by exact_mod_cast h2 l hl
    rw [if_neg (by linarith)]

/-- The polygons as objects to insert. -/
def objects (out : List ArbForm.Poly) : List Obj := out.map (fun P => ((P.outer, P.holes), false))

theorem outlines_objects (out : List ArbForm.Poly) : outlines (objects out) = rings out := by
  unfold outlines objects rings
  rw [List.flatMap_map]

theorem total_objects {out : List ArbForm.Poly} (h : ∀ P ∈ out, Proper P.outer P.holes) (q : ℚ × ℚ) :
    total (objects out) q = ((rings out).map (fun l => windAt l q)).sum := by
  rw [rings_sum]
  unfold total objects
  rw [List.map_map]
  congr 1
  apply List.map_congr_left
  intro P hP
  simp only [Function.comp, Bool.false_eq_true, if_false, one_mul]
  exact proper_depth (h P hP) q

/-- C90: polygons read from a set of rectilinear edges, inserted into an empty set, make a set that covers the same points, each once. -/
theorem C90_round_trip_manhattan (fp : FP) (umin umax : Int) (D S : Data) (hS : S.Perm D) (hM : Manhattan (D.map Prod.fst))
    (hd : ∀ e ∈ D, Directed e.1) (hu : ∀ e ∈ D, umin ≤ min e.1.1.2 e.1.2.2) (hD : Closed D) :
    ∃ out, ArbForm.getPolys fp umin umax S = some out ∧ ∀ q, depth (build (objects out)) q = if depth D q > 0 then 1 else 0 := by
  obtain ⟨out, h1, _, h3, _, h5⟩ := ArbForm.C81_get_manhattan fp umin umax D S hS hM hd hu hD
  exact ⟨out, h1, fun q => by rw [(build_spec _).1, total_objects h3, h5]⟩

/-- C90: the same for edges at any angle that meet in lattice points. -/
theorem C90_round_trip_lattice (fp : FP) (hfp : fp.Accurate) (umin umax : Int) (D S : Data) (hS : S.Perm D) (hL : OnLattice (D.map Prod.fst))
    (hd : ∀ e ∈ D, Directed e.1) (hu : ∀ e ∈ D, umin ≤ min e.1.1.2 e.1.2.2) (hD : Closed D) :
    ∃ out, ArbForm.getPolys fp umin umax S = some out ∧ ∀ q, depth (build (objects out)) q = if depth D q > 0 then 1 else 0 := by
  obtain ⟨out, h1, _, h3, _, h5⟩ := ArbForm.C81_get_lattice fp hfp umin umax D S hS hL hd hu hD
  exact ⟨out, h1, fun q => by rw [(build_spec _).1, total_objects h3, h5]⟩

/-- C90: any set, with exact arithmetic: the rebuilt set covers each point at most once, and away from the edges exactly the points the set covers. -/
theorem C90_round_trip (fp : FP) (hfp : fp.Floor) (umin umax : Int) (D S : Data) (hS : S.Perm D)
    (hd : ∀ e ∈ D, Directed e.1) (hu : ∀ e ∈ D, umin ≤ min e.1.1.2 e.1.2.2) (hD : Closed D) :
    ∃ out, ArbForm.getPolys fp umin umax S = some out ∧ (∀ q, depth (build (objects out)) q = 0 ∨ depth (build (objects out)) q = 1) ∧
      ∀ q, Clear (D.map Prod.fst) q → depth (build (objects out)) q = if depth D q > 0 then 1 else 0 := by
  obtain ⟨out, h1, _, h3, _, h5, h6⟩ := ArbForm.C81_get fp hfp umin umax D S hS hd hu hD
  exact ⟨out, h1, fun q => by rw [(build_spec _).1, total_objects h3]; exact h5 q, fun q hq => by rw [(build_spec _).1, total_objects h3, h6 q hq]⟩

example : ((ArbForm.getPolys exactFP (-100) 100 (build (Cut.frame ++ Cut.bar))).map
    (fun out => [(1, 1), (4, 7/2), (4, 9/2), (11, 9/2), (11, 6)].map (fun q => depth (build (objects out)) q))) = some [1, 0, 1, 1, 0] := by decide +kernel

/-! ### 45 degrees -/

open Verif.Spec.Deg45 Verif.Set45 in
/-- The program that inserts the polygons into a new 45-degree set. -/
def rebuild (out : List ArbForm.Poly) : Prog := out.foldl (fun p P => .poly p P.outer P.holes false) .new

theorem rebuild_depth (out : List ArbForm.Poly) (q : ℚ × ℚ) : (rebuild out).depth q = total (objects out) q := by
  have : ∀ (out : List ArbForm.Poly) (p : Deg45.Prog),
      (out.foldl (fun p P => Deg45.Prog.poly p P.outer P.holes false) p).depth q = p.depth q + total (objects out) q := by
    intro out
    induction out with
    | nil => intro p; simp [objects, total]
    | cons P out ih =>
      intro p
      rw [List.foldl_cons, ih]
      have : total (objects (P :: out)) q = objDepth P.outer P.holes q + total (objects out) q := by
        unfold total objects
        simp
      rw [this]
      simp only [Deg45.Prog.depth, Deg45.sign, Bool.false_eq_true, if_false, one_mul]
      ring
  unfold rebuild
  rw [this]
  simp [Deg45.Prog.depth]

theorem rebuild_ok {umin umax : Int} (out : List ArbForm.Poly)
    (h : ∀ l ∈ rings out, Deg45.Poly45 l ∧ ∀ p ∈ l, (umin ≤ p.1 ∧ p.1 ≤ umax) ∧ umin ≤ p.2 ∧ p.2 ≤ umax) : (rebuild out).Ok umin umax := by
  have : ∀ (out : List ArbForm.Poly) (p : Deg45.Prog), p.Ok umin umax →
      (∀ l ∈ rings out, Deg45.Poly45 l ∧ ∀ p ∈ l, (umin ≤ p.1 ∧ p.1 ≤ umax) ∧ umin ≤ p.2 ∧ p.2 ≤ umax) →
      (out.foldl (fun p P => Deg45.Prog.poly p P.outer P.holes false) p).Ok umin umax := by
    intro out
    induction out with
    | nil => intro p h _; exact h
    | cons P out ih =>
      intro p hp h
      refine ih _ ⟨hp, fun r hr => h r ?_⟩ (fun l hl => h l ?_)
      · unfold rings; rw [List.flatMap_cons]; exact List.mem_append_left _ hr
      · unfold rings at *; rw [List.flatMap_cons]; exact List.mem_append_right _ hl
  exact this out .new trivial h

theorem ring_poly45 {l : List (Int × Int)} (hr : Ring l) (h : ∀ a ∈ sides l, Deg45.Octant a) : Deg45.Poly45 l := by
  intro e he
  have h0 : ∀ a ∈ l.zip l.tail, Deg45.Octant a := by
    intro a ha
    by_cases c : a.1 = a.2
    · left; rw [c]
    · exact h a (List.mem_filter.2 ⟨ha, by simpa using c⟩)
  obtain ⟨_, hl⟩ := hr
  cases l with
  | nil => simp [edges] at he
  | cons p r =>
    rw [edges_cons] at he
    rcases List.eq_nil_or_concat r with rfl | ⟨r', z, rfl⟩
    · simp only [List.singleton_append, pairs, List.mem_singleton] at he
      subst he; left; rfl
    · rw [List.concat_eq_append] at *
      have hz : z = p := by
        rw [show p :: (r' ++ [z]) = (p :: r') ++ [z] from rfl, List.getLast?_concat] at hl
        simpa using hl.symm
      have e1 : p :: (r' ++ [z]) ++ [p] = (p :: r') ++ [z, p] := by simp
      rw [e1, pairs_concat] at he
      rcases List.mem_append.1 he with he | he
      · apply h0
        have := zip_pairs p r' z
        rw [List.tail_cons, show (p :: (r' ++ [z])) = (p :: r') ++ [z] from rfl]
        have e2 : ((p :: r') ++ [z]).zip (r' ++ [z]) = (p :: r').zip (r' ++ [z]) := by
          rw [← List.append_nil (r' ++ [z]), List.zip_append (by simp)]; simp
        rw [e2, this]; exact he
      · rw [List.mem_singleton] at he
        subst he; left; rw [hz]

/-- C90: the polygons of a 45-degree set built by any program, inserted into a new set, make a set that covers the same points, each once. The polygons
are proper input again if their vertices fit the coordinate type. -/
theorem C90_round_trip_45 {umin umax : Int} (hu : umin ≤ umax) {p : Deg45.Prog} (h : p.Ok umin umax) {s : Set45.S45} (e : p.run umin umax = .ok s)
    {out : List ArbForm.Poly} (g : Form45.get umin umax s = .polys out) :
    (∀ q, (rebuild out).depth q = if 0 < p.depth q then 1 else 0) ∧
    ((∀ l ∈ rings out, ∀ v ∈ l, (umin ≤ v.1 ∧ v.1 ≤ umax) ∧ umin ≤ v.2 ∧ v.2 ≤ umax) → (rebuild out).Ok umin umax) := by
  rcases Form45.C89_polygons hu h e with ⟨o, h1, h2, h3, h4⟩ | ⟨h1, _⟩
  · rw [g] at h1
    injection h1 with h1
    subst h1
    exact ⟨fun q => by rw [rebuild_depth, total_objects h3, h4],
      fun hb => rebuild_ok out (fun l hl => ⟨ring_poly45 (h2 l hl).1 (h2 l hl).2.2, hb l hl⟩)⟩
  · rw [g] at h1; simp at h1

example : (Form45.polysOf Form45.framed).map (fun out => ([(1, 1), (6, 3), (6, 6), (13, 1)] : List (ℚ × ℚ)).map (fun q => (rebuild out).depth q)) = some [1, 0, 1, 0] ∧
    (Form45.polysOf Form45.framed).map (fun out => decide ((rebuild out).Ok (-100) 100)) = some true := by decide +kernel

/-! ### Area -/

theorem abs_foldl (f : List (Int × Int) → ℚ) (H : List (List (Int × Int))) : ∀ r : ℚ, H.foldl (fun r h => r - f h) r = r - (H.map f).sum := by
  induction H with
  | nil => intro r; simp
  | cons h H ih => intro r; rw [List.foldl_cons, ih, List.map_cons, List.sum_cons]; ring

theorem areaHoles_proper {outer : List (Int × Int)} {holes : List (List (Int × Int))} (h : Proper outer holes) :
    2 * areaHolesQ outer holes = shoelace outer + (holes.map (fun l => (shoelace l : ℚ))).sum := by
  obtain ⟨h1, h2⟩ := proper_sign h
  have a1 := two_areaQ outer
  have h1' : (0 : ℚ) < shoelace outer := by exact_mod_cast h1
  unfold areaHolesQ
  dsimp only
  rw [abs_foldl (fun t => if areaQ t < 0 then areaQ t * -1 else areaQ t), if_pos (by linarith)]
  have : (holes.map (fun t => if areaQ t < 0 then areaQ t * -1 else areaQ t)).sum = -((holes.map (fun l => (shoelace l : ℚ))).sum) / 2 := by
    clear h
    induction holes with
    | nil => simp
    | cons l r ih =>
      rw [List.map_cons, List.sum_cons, ih (fun a ha => h2 a (List.mem_cons_of_mem _ ha)), List.map_cons, List.sum_cons]
      have b := two_areaQ l
      have h2' : (shoelace l : ℚ) < 0 := by exact_mod_cast h2 l List.mem_cons_self
      rw [if_neg (by linarith)]
      linarith
  rw [this]; linarith

theorem sumAreas_eq (out : List ArbForm.Poly) : sumAreas out = (out.map (fun P => areaHolesQ P.outer P.holes)).sum := by
  have : ∀ (out : List ArbForm.Poly) (r : ℚ), out.foldl (fun r P => r + areaHolesQ P.outer P.holes) r = r + (out.map (fun P => areaHolesQ P.outer P.holes)).sum := by
    intro out
    induction out with
    | nil => intro r; simp
    | cons P out ih => intro r; rw [List.foldl_cons, ih, List.map_cons, List.sum_cons]; ring
  unfold sumAreas
  rw [this]; simp

/-- All edges of the outlines. -/
def allEdges (R : List (List (Int × Int))) : List Edge := R.flatMap edges

theorem allEdges_shut (R : List (List (Int × Int))) : Shut (allEdges R) := by
  induction R with
  | nil => intro k; rfl
  | cons P R ih => unfold allEdges at *; rw [List.flatMap_cons]; exact shut_append (shut_edges P) ih

theorem allEdges_wind (R : List (List (Int × Int))) (q : ℚ × ℚ) : ((allEdges R).map (crossing q)).sum = (R.map (fun l => windAt l q)).sum := by
  induction R with
  | nil => rfl
  | cons P R ih => unfold allEdges at *; rw [List.flatMap_cons, List.map_append, List.sum_append, ih, List.map_cons, List.sum_cons]; rfl

theorem allEdges_twice (R : List (List (Int × Int))) : twice (allEdges R) = (R.map (fun l => (shoelace l : ℚ))).sum := by
  induction R with
  | nil => rfl
  | cons P R ih => unfold allEdges at *; rw [List.flatMap_cons, twice_append, ih, List.map_cons, List.sum_cons, twice_edges]

theorem sumAreas_rings {out : List ArbForm.Poly} (h : ∀ P ∈ out, Proper P.outer P.holes) : 2 * sumAreas out = twice (allEdges (rings out)) := by
  rw [allEdges_twice, sumAreas_eq]
  induction out with
  | nil => simp [rings]
  | cons P out ih =>
    have := ih (fun a ha => h a (List.mem_cons_of_mem _ ha))
    unfold rings at *
    rw [List.map_cons, List.sum_cons, List.flatMap_cons, List.map_append, List.sum_append, mul_add, this, areaHoles_proper (h P List.mem_cons_self)]
    simp

/-- The area of a polygon mesh: outlines in any arrangement, each counted with its sign. -/
def signedArea (R : List (List (Int × Int))) : ℚ := (R.map (fun l => (shoelace l : ℚ) / 2)).sum

theorem signedArea_eq (R : List (List (Int × Int))) : 2 * signedArea R = twice (allEdges R) := by
  rw [allEdges_twice]
  unfold signedArea
  induction R with
  | nil => simp
  | cons P R ih => rw [List.map_cons, List.sum_cons, mul_add, ih, List.map_cons, List.sum_cons]; ring

/-- C90: the area of proper polygons depends on nothing but the region they cover: any outlines that wind once around the points of the region, and not
around others, have it as the sum of their signed areas; outlines that wind less have less, and outlines that wind more have more. -/
theorem C90_area (out : List ArbForm.Poly) (h : ∀ P ∈ out, Proper P.outer P.holes) (R : List (List (Int × Int))) :
    ((∀ q, (R.map (fun l => windAt l q)).sum = ((rings out).map (fun l => windAt l q)).sum) → sumAreas out = signedArea R) ∧
    ((∀ q, (R.map (fun l => windAt l q)).sum ≤ ((rings out).map (fun l => windAt l q)).sum) → signedArea R ≤ sumAreas out) ∧
    ((∀ q, ((rings out).map (fun l => windAt l q)).sum ≤ (R.map (fun l => windAt l q)).sum) → sumAreas out ≤ signedArea R) := by
  have a := sumAreas_rings h
  have b := signedArea_eq R
  have le : (∀ q, (R.map (fun l => windAt l q)).sum ≤ ((rings out).map (fun l => windAt l q)).sum) → signedArea R ≤ sumAreas out := by
    intro hq
    have := twice_mono (allEdges_shut R) (allEdges_shut (rings out)) (fun q => by rw [allEdges_wind, allEdges_wind]; exact hq q)
    linarith
  have ge : (∀ q, ((rings out).map (fun l => windAt l q)).sum ≤ (R.map (fun l => windAt l q)).sum) → sumAreas out ≤ signedArea R := by
    intro hq
    have := twice_mono (allEdges_shut (rings out)) (allEdges_shut R) (fun q => by rw [allEdges_wind, allEdges_wind]; exact hq q)
    linarith
  exact ⟨fun hq => le_antisymm (ge (fun q => (hq q).ge)) (le (fun q => (hq q).le)), le, ge⟩

/-- C90: the area of a 45-degree set built by any program, if it can be read, is that of any outlines that wind once around the points the set covers
and not around others. -/
theorem C90_area_45 {umin umax : Int} (hu : umin ≤ umax) {p : Deg45.Prog} (h : p.Ok umin umax) (he : p.Even) :
    ∃ s a, p.run umin umax = .ok s ∧ area45 umin umax s = some a ∧
      ∀ R : List (List (Int × Int)), (∀ q, (R.map (fun l => windAt l q)).sum = if 0 < p.depth q then 1 else 0) → a = signedArea R := by
  obtain ⟨s, out, h1, h2, _, h4, h5⟩ := Form45.C89_polygons_even hu h he
  refine ⟨s, sumAreas out, h1, by unfold area45; rw [h2], fun R hR => (C90_area out h4 R).1 (fun q => by rw [hR, h5])⟩

/-- C90: the area of a set of rectilinear edges, likewise. -/
theorem C90_area_manhattan (fp : FP) (umin umax : Int) (D S : Data) (hS : S.Perm D) (hM : Manhattan (D.map Prod.fst))
    (hd : ∀ e ∈ D, Directed e.1) (hu : ∀ e ∈ D, umin ≤ min e.1.1.2 e.1.2.2) (hD : Closed D) :
    ∃ a, area fp umin umax S = some a ∧
      ∀ R : List (List (Int × Int)), (∀ q, (R.map (fun l => windAt l q)).sum = if depth D q > 0 then 1 else 0) → a = signedArea R := by
  obtain ⟨out, h1, _, h3, _, h5⟩ := ArbForm.C81_get_manhattan fp umin umax D S hS hM hd hu hD
  exact ⟨sumAreas out, by unfold area; rw [h1]; rfl, fun R hR => (C90_area out h3 R).1 (fun q => by rw [hR, h5])⟩

/-- C90: the area of a set of edges that meet in lattice points, likewise. -/
theorem C90_area_lattice (fp : FP) (hfp : fp.Accurate) (umin umax : Int) (D S : Data) (hS : S.Perm D) (hL : OnLattice (D.map Prod.fst))
    (hd : ∀ e ∈ D, Directed e.1) (hu : ∀ e ∈ D, umin ≤ min e.1.1.2 e.1.2.2) (hD : Closed D) :
    ∃ a, area fp umin umax S = some a ∧
      ∀ R : List (List (Int × Int)), (∀ q, (R.map (fun l => windAt l q)).sum = if depth D q > 0 then 1 else 0) → a = signedArea R := by
  obtain ⟨out, h1, _, h3, _, h5⟩ := ArbForm.C81_get_lattice fp hfp umin umax D S hS hL hd hu hD
  exact ⟨sumAreas out, by unfold area; rw [h1]; rfl, fun R hR => (C90_area out h3 R).1 (fun q => by rw [hR, h5])⟩

/-- A frame with a bar through it: 81 - 9 + 3 + 5 units. -/
example : area exactFP (-100) 100 (build (Cut.frame ++ Cut.bar)) = some 80 ∧
    (match Form45.framed.run (-100) 100 with | .ok s => area45 (-100) 100 s | _ => none) = some 120 := by decide +kernel

end Verif.Properties.RoundTrip
