import Verif.Model.ArbKeep
import Verif.Properties.Concept90
import Verif.Properties.RoundTrip
import Verif.Properties.SetTransform
/-!
# C101: `keep` retains the polygons of the given sizes, at any angle and with holes
-/
namespace Verif.Properties.ArbKeep
open Verif Verif.Cut Verif.PolySet Verif.Polygon Verif.PolyArea Verif.Spec Verif.Spec.Arb Verif.Isotropy Verif.Rectangle Verif.ArbKeep Verif.ArbForm
open Verif.Properties.ArbForm (rings rings_sum get_of clean_eq depth_or closed_perm partOf_perm solidLeft_ends)
open Verif.Properties.Cut (Obj build total outlines build_spec)
open Verif.Properties.RoundTrip (objects outlines_objects total_objects areaHoles_proper)
open Verif.Properties.SetTransform (ring_edges)
open Verif.Properties.Concept90 (hasSize_iff)

variable {fp : FP} {umin : Int} {Q : List Edge → Prop}

theorem kind_sub (K : Kind fp umin Q) {E F : List Edge} (hQ : Q E) (h : ∀ e ∈ F, e ∈ E) : Q F :=
  K.part E F hQ (fun e he => by
    have hd := K.dir E hQ e (h e he)
    exact ⟨hd, Or.inl ⟨e, h e he, Or.inl rfl⟩, Or.inl ⟨e, h e he, Or.inr rfl⟩, e, h e he, onEdge_fst e, onEdge_snd e⟩)

theorem clean_kind (K : Kind fp umin Q) (umax : Int) {S D : Data} (hS : S.Perm D) (hQ : Q (D.map Prod.fst)) (hD : Closed D) :
    ∃ C, clean fp umin umax S = some C ∧ (∀ q, depth C q = if depth D q > 0 then 1 else 0) ∧
      (∀ a ∈ C, PartOf (D.map Prod.fst) a.1 ∧ (a.2 = 1 ∨ a.2 = -1)) ∧ (C.map Prod.fst).Nodup ∧ Planar (C.map Prod.fst) ∧ Closed C := by
  have hm : ∀ e, e ∈ (S ++ []).map Prod.fst ↔ e ∈ D.map Prod.fst := fun e => by rw [List.append_nil]; exact (hS.map _).mem_iff
  have hQS : Q ((S ++ []).map Prod.fst) := kind_sub K hQ (fun e he => (hm e).1 he)
  obtain ⟨C, h1, h2, h3, h4, h5, h6, _⟩ := execute_exact umax 0 (K.exact _ hQS) (closed_perm hS hD) (fun v => rfl)
  exact ⟨C, h1, fun q => by rw [h2]; exact depth_or S D hS q, fun a ha => ⟨partOf_perm hm (h3 a ha).1, (h3 a ha).2⟩, h4, h5, h6⟩

theorem polysOf_kind (K : Kind fp umin Q) (umax : Int) {srt : Data → Data} (hs : ∀ D, (srt D).Perm D) {S : Data} (hQ : Q (S.map Prod.fst)) (hS : Closed S) :
    ∃ out, polysOf fp umin umax srt S = some out ∧ (∀ l ∈ rings out, Ring l ∧ 3 ≤ (sides l).length) ∧ (∀ P ∈ out, Proper P.outer P.holes) ∧
      (∃ E, Q E ∧ ∀ l ∈ rings out, ∀ e ∈ sides l, e ∈ E ∨ e.swap ∈ E) ∧
      ∀ q, ((rings out).map (fun l => windAt l q)).sum = if depth S q > 0 then 1 else 0 := by
  obtain ⟨C, c1, c2, c3, c4, c5, c6⟩ := clean_kind K umax (hs S) hQ hS
  have hdC : ∀ e ∈ C, Directed e.1 := fun e he => (c3 e he).1.1
  have hQC : Q (C.map Prod.fst) := K.part _ _ hQ (fun e he => by obtain ⟨a, ha, rfl⟩ := List.mem_map.1 he; exact (c3 a ha).1)
  obtain ⟨B, b1, b2, b3, b4, b5, b6⟩ := clean_kind K umax (hs C) hQC c6
  have hQB : Q (B.map Prod.fst) := K.part _ _ hQC (fun e he => by obtain ⟨a, ha, rfl⟩ := List.mem_map.1 he; exact (b3 a ha).1)
  obtain ⟨out, o1, o2, o3, o4, o5⟩ := get_of b1 (fun e he => (b3 e he).1.1) b5 b6 b4 (fun e he => (b3 e he).2) (fun q => by rw [b2]; split_ifs <;> simp)
  have hs' : ∀ l ∈ rings out, ∀ e ∈ sides l, e ∈ B.map Prod.fst ∨ e.swap ∈ B.map Prod.fst := by
    intro l hl e he
    obtain ⟨a, ha, rfl⟩ := List.mem_map.1 (o4.mem_iff.1 (List.mem_flatMap.2 ⟨l, hl, he⟩))
    have := List.mem_map_of_mem (f := Prod.fst) ha
    rcases solidLeft_ends a with g | g <;> rw [g]
    · exact Or.inl this
    · exact Or.inr (by simpa using this)
  refine ⟨out, ?_, o2, o3, ⟨_, hQB, hs'⟩, fun q => ?_⟩
  · unfold polysOf
    rw [c1]
    show getPolys fp umin umax (srt (PolySet.insertSet [] C false)) = _
    rw [insertSet_nil hdC, o1]
  · rw [o5, b2, c2]; split_ifs <;> simp_all

theorem assignPolys_kind (K : Kind fp umin Q) (umax : Int) {srt : Data → Data} (hs : ∀ D, (srt D).Perm D) {ps : List ArbForm.Poly}
    (hr : ∀ l ∈ rings ps, Ring l) {E : List Edge} (hE : Q E) (hp : ∀ l ∈ rings ps, ∀ e ∈ sides l, e ∈ E ∨ e.swap ∈ E) (hP : ∀ P ∈ ps, Proper P.outer P.holes) :
    ∃ R, assignPolys fp umin umax srt ps = some R ∧ Closed R ∧ Q (R.map Prod.fst) ∧ (R.map Prod.fst).Nodup ∧ Planar (R.map Prod.fst) ∧
      ∀ q, depth R q = if 0 < ((rings ps).map (fun l => windAt l q)).sum then 1 else 0 := by
  obtain ⟨x1, x2, x3, x4⟩ := build_spec (objects ps)
  have hb : ps.foldl (fun D P => insertHoles D P.outer P.holes false) [] = build (objects ps) := by
    unfold build objects; rw [List.foldl_map]
  have hQ : Q ((build (objects ps)).map Prod.fst) := by
    refine kind_sub K hE (fun e he => ?_)
    obtain ⟨a, ha, rfl⟩ := List.mem_map.1 he
    obtain ⟨l, hl, g⟩ := x4 a ha
    rw [outlines_objects] at hl
    have hda := x3 a ha
    have hne : a.1.1 ≠ a.1.2 := by intro h; unfold Arb.Directed at hda; rw [h] at hda; omega
    rcases g with g | g
    · rcases hp l hl _ (ring_edges (hr l hl) g hne) with h | h
      · exact h
      · have := K.dir E hE _ h
        exact absurd this (by unfold Arb.Directed at *; simp only [Prod.fst_swap, Prod.snd_swap] at *; omega)
    · rcases hp l hl _ (ring_edges (hr l hl) g (by simpa using hne.symm)) with h | h
      · have := K.dir E hE _ h
        exact absurd this (by unfold Arb.Directed at *; simp only [Prod.fst_swap, Prod.snd_swap] at *; omega)
      · simpa using h
  obtain ⟨C, c1, c2, c3, c4, c5, c6⟩ := clean_kind K umax (hs (build (objects ps))) hQ x2
  refine ⟨C, ?_, c6, K.part _ _ hQ (fun e he => by obtain ⟨a, ha, rfl⟩ := List.mem_map.1 he; exact (c3 a ha).1), c4, c5, fun q => ?_⟩
  · unfold assignPolys
    rw [hb, c1]
    show some (PolySet.insertSet [] C false) = _
    rw [insertSet_nil (fun e he => (c3 e he).1.1)]
  · rw [c2, x1, total_objects hP]

theorem sum_inside {out : List ArbForm.Poly} (h : ∀ P ∈ out, Proper P.outer P.holes) (q : ℚ × ℚ) :
    0 < ((rings out).map (fun l => windAt l q)).sum ↔ ∃ P ∈ out, Inside P.outer P.holes q := by
  rw [rings_sum]
  have key : 0 ≤ (out.map (fun P => windAt P.outer q + (P.holes.map (fun l => windAt l q)).sum)).sum ∧
      (0 < (out.map (fun P => windAt P.outer q + (P.holes.map (fun l => windAt l q)).sum)).sum ↔ ∃ P ∈ out, Inside P.outer P.holes q) := by
    induction out with
    | nil => simp
    | cons P r ih =>
      obtain ⟨i1, i2⟩ := ih (fun x hx => h x (List.mem_cons_of_mem _ hx))
      have hP := h P List.mem_cons_self
      have c := proper_cover hP q
      have o := hP.once q
      have : (∃ x ∈ P :: r, Inside x.outer x.holes q) ↔ Inside P.outer P.holes q ∨ ∃ x ∈ r, Inside x.outer x.holes q := by simp
      rw [List.map_cons, List.sum_cons, this, ← c, ← i2]
      omega
  exact key.2

theorem keepTest_iff {P : ArbForm.Poly} (hP : Proper P.outer P.holes) (a b : ℚ) (c d e f : Int) :
    keepTest a b c d e f P = true ↔ ∃ w h n, HasSize P.outer w h ∧ HasArea P.outer P.holes n ∧ (a ≤ n ∧ n ≤ b) ∧ (c < w ∧ w ≤ d) ∧ e < h ∧ h ≤ f := by
  have ha : ∀ n : ℚ, HasArea P.outer P.holes n ↔ n = areaHolesQ P.outer P.holes := fun n => by
    unfold HasArea
    rw [← areaHoles_proper hP]
    constructor <;> intro h <;> linarith
  cases hx : Extents.polyExtents P.outer with
  | none =>
    have := ((Verif.Properties.Extents.C93_polygon _).1.1 hx)
    obtain ⟨q, hq⟩ := hP.real P.outer List.mem_cons_self
    rw [this] at hq
    exact absurd rfl hq
  | some r =>
    simp only [hasSize_iff hx, ha]
    unfold keepTest
    rw [hx]
    have e1 : deltaRect r HORIZONTAL = r.h.hi - r.h.lo := rfl
    have e2 : deltaRect r VERTICAL = r.v.hi - r.v.lo := rfl
    simp only [Option.getD_some, e1, e2]
    constructor
    · intro h
      refine ⟨_, _, _, ⟨rfl, rfl⟩, rfl, ?_⟩
      split_ifs at h with h1 h2
      simp only [Bool.and_eq_true, decide_eq_true_eq] at h h1 h2
      exact ⟨⟨h.2, h.1⟩, h1, h2⟩
    · rintro ⟨w, k, n, ⟨rfl, rfl⟩, rfl, h1, h2, h3⟩
      rw [if_pos (by simp; omega), if_pos (by simp; omega)]
      simp [h1]

theorem keep_kind (K : Kind fp umin Q) (umax : Int) {srt : Data → Data} (hs : ∀ D, (srt D).Perm D) {S : Data} (hQ : Q (S.map Prod.fst)) (hS : Closed S)
    (minArea maxArea : ℚ) (minWidth maxWidth minHeight maxHeight : Int) :
    ∃ out R, polysOf fp umin umax srt S = some out ∧ keep fp umin umax srt minArea maxArea minWidth maxWidth minHeight maxHeight S = some R ∧
      (∀ P ∈ out, Proper P.outer P.holes) ∧ (∀ q, ((rings out).map (fun l => windAt l q)).sum = if depth S q > 0 then 1 else 0) ∧
      Closed R ∧ (∀ q, depth R q = 0 ∨ depth R q = 1) ∧ Q (R.map Prod.fst) ∧
      ∀ q, 0 < depth R q ↔ ∃ P ∈ out, Inside P.outer P.holes q ∧ ∃ w h a, HasSize P.outer w h ∧ HasArea P.outer P.holes a ∧
        (minArea ≤ a ∧ a ≤ maxArea) ∧ (minWidth < w ∧ w ≤ maxWidth) ∧ minHeight < h ∧ h ≤ maxHeight := by
  obtain ⟨out, o1, o2, o3, ⟨E, hE, o4⟩, o5⟩ := polysOf_kind K umax hs hQ hS
  have hsub : ∀ l ∈ rings (out.filter (keepTest minArea maxArea minWidth maxWidth minHeight maxHeight)), l ∈ rings out := by
    intro l hl
    obtain ⟨P, hP, h⟩ := List.mem_flatMap.1 hl
    exact List.mem_flatMap.2 ⟨P, (List.mem_filter.1 hP).1, h⟩
  have hp' : ∀ P ∈ out.filter (keepTest minArea maxArea minWidth maxWidth minHeight maxHeight), Proper P.outer P.holes := fun P hP => o3 P (List.mem_filter.1 hP).1
  obtain ⟨R, r1, r2, r3, _, _, r6⟩ := assignPolys_kind K umax hs (fun l hl => (o2 l (hsub l hl)).1) hE (fun l hl => o4 l (hsub l hl)) hp'
  refine ⟨out, R, o1, by simp only [keep, o1]; exact r1, o3, o5, r2, fun q => by rw [r6]; split_ifs <;> simp, r3, fun q => ?_⟩
  have : 0 < depth R q ↔ 0 < ((rings (out.filter (keepTest minArea maxArea minWidth maxWidth minHeight maxHeight))).map (fun l => windAt l q)).sum := by
    rw [r6]; split_ifs with h <;> simp [h]
  rw [this, sum_inside hp']
  constructor
  · rintro ⟨P, hP, hq⟩
    obtain ⟨m1, m2⟩ := List.mem_filter.1 hP
    exact ⟨P, m1, hq, (keepTest_iff (o3 P m1) _ _ _ _ _ _).1 m2⟩
  · rintro ⟨P, hP, hq, hk⟩
    exact ⟨P, List.mem_filter.2 ⟨hP, (keepTest_iff (o3 P hP) _ _ _ _ _ _).2 hk⟩, hq⟩

/-- C101: `keep` on a set of edges at any angle that meet in lattice points. The set is read as polygons with holes, each counterclockwise with
clockwise holes and together covering exactly the points of the set, each once; the result covers exactly those of them whose area (without the
holes), width and height lie within the limits, each point once. `srt` is any way of sorting.
Missing: polygons exactly as wide or as high as the lower limit, see `C101_lower_limit_violated`; edges that meet between lattice points. -/
theorem C101_keep_lattice_partial (fp : FP) (hfp : fp.Accurate) (umin umax : Int) (srt : Data → Data) (hs : ∀ D, (srt D).Perm D) (S : Data)
    (hL : OnLattice (S.map Prod.fst)) (hd : ∀ e ∈ S, Arb.Directed e.1) (hu : ∀ e ∈ S, umin ≤ min e.1.1.2 e.1.2.2) (hS : Closed S)
    (minArea maxArea : ℚ) (minWidth maxWidth minHeight maxHeight : Int) :
    ∃ out R, polysOf fp umin umax srt S = some out ∧ keep fp umin umax srt minArea maxArea minWidth maxWidth minHeight maxHeight S = some R ∧
      (∀ P ∈ out, Proper P.outer P.holes) ∧ (∀ q, ((rings out).map (fun l => windAt l q)).sum = if depth S q > 0 then 1 else 0) ∧
      Closed R ∧ (∀ q, depth R q = 0 ∨ depth R q = 1) ∧ OnLattice (R.map Prod.fst) ∧
      ∀ q, 0 < depth R q ↔ ∃ P ∈ out, Inside P.outer P.holes q ∧ ∃ w h a, HasSize P.outer w h ∧ HasArea P.outer P.holes a ∧
        (minArea ≤ a ∧ a ≤ maxArea) ∧ (minWidth < w ∧ w ≤ maxWidth) ∧ minHeight < h ∧ h ≤ maxHeight := by
  obtain ⟨out, R, h1, h2, h3, h4, h5, h6, h7, h8⟩ := keep_kind (kind_lattice hfp umin) umax hs (S := S)
    ⟨hL, fun a ha => by obtain ⟨e, he, rfl⟩ := List.mem_map.1 ha; exact hd e he, fun a ha => by obtain ⟨e, he, rfl⟩ := List.mem_map.1 ha; exact hu e he⟩
    hS minArea maxArea minWidth maxWidth minHeight maxHeight
  exact ⟨out, R, h1, h2, h3, h4, h5, h6, h7.1, h8⟩

/-- A diamond with a hole, of area 24, and a triangle of area 2. -/
def exK : List Obj := [(([(0, -4), (4, 0), (0, 4), (-4, 0)], [[(0, -2), (2, 0), (0, 2), (-2, 0)]]), false), (([(10, 0), (12, 0), (10, 2)], []), false)]

example : OnLattice ((build exK).map Prod.fst) ∧ (∀ e ∈ build exK, Arb.Directed e.1) ∧ (∀ e ∈ build exK, (-100 : Int) ≤ min e.1.1.2 e.1.2.2) ∧ Closed (build exK) ∧
    (∀ D : Data, (id D).Perm D) :=
  ⟨latticeTest_ok (J := [(-4, 0), (-3, -1), (-3, 1), (-2, 0), (-1, -3), (-1, 3), (0, -4), (0, -2), (0, 2), (0, 4), (1, -3), (1, 3), (2, 0), (3, -1), (3, 1), (4, 0), (4, 8), (5, 7), (7, 5), (8, 4), (10, -14), (10, -12), (10, -8), (10, -6), (10, 0), (10, 2), (10, 6), (10, 8), (10, 12), (10, 14), (12, 0)]) (by decide +kernel) (by decide +kernel), by decide +kernel, by decide +kernel, (build_spec exK).2.1, fun D => List.Perm.refl D⟩

/-- The diamond is kept by its area without the hole, the triangle by its width. -/
example : (keep exactFP (-100) 100 id 24 24 0 100 0 100 (build exK)).map List.length = some 8 ∧
    (keep exactFP (-100) 100 id 0 100 1 2 1 2 (build exK)).map (fun R => R.map Prod.fst) = some [((10, 0), (12, 0)), ((10, 0), (10, 2)), ((10, 2), (12, 0))] ∧
    (keep exactFP (-100) 100 id 25 100 0 100 0 100 (build exK)).map List.length = some 0 := by decide +kernel

/-- C101: the same for rectilinear edges, whatever the floating-point arithmetic does. -/
theorem C101_keep_manhattan_partial (fp : FP) (umin umax : Int) (srt : Data → Data) (hs : ∀ D, (srt D).Perm D) (S : Data)
    (hM : Manhattan (S.map Prod.fst)) (hd : ∀ e ∈ S, Arb.Directed e.1) (hu : ∀ e ∈ S, umin ≤ min e.1.1.2 e.1.2.2) (hS : Closed S)
    (minArea maxArea : ℚ) (minWidth maxWidth minHeight maxHeight : Int) :
    ∃ out R, polysOf fp umin umax srt S = some out ∧ keep fp umin umax srt minArea maxArea minWidth maxWidth minHeight maxHeight S = some R ∧
      (∀ P ∈ out, Proper P.outer P.holes) ∧ (∀ q, ((rings out).map (fun l => windAt l q)).sum = if depth S q > 0 then 1 else 0) ∧
      Closed R ∧ (∀ q, depth R q = 0 ∨ depth R q = 1) ∧ Manhattan (R.map Prod.fst) ∧
      ∀ q, 0 < depth R q ↔ ∃ P ∈ out, Inside P.outer P.holes q ∧ ∃ w h a, HasSize P.outer w h ∧ HasArea P.outer P.holes a ∧
        (minArea ≤ a ∧ a ≤ maxArea) ∧ (minWidth < w ∧ w ≤ maxWidth) ∧ minHeight < h ∧ h ≤ maxHeight := by
  obtain ⟨out, R, h1, h2, h3, h4, h5, h6, h7, h8⟩ := keep_kind (kind_manhattan fp umin) umax hs (S := S)
    ⟨hM, fun a ha => by obtain ⟨e, he, rfl⟩ := List.mem_map.1 ha; exact hd e he, fun a ha => by obtain ⟨e, he, rfl⟩ := List.mem_map.1 ha; exact hu e he⟩
    hS minArea maxArea minWidth maxWidth minHeight maxHeight
  exact ⟨out, R, h1, h2, h3, h4, h5, h6, h7.1, h8⟩

example : Manhattan ((build (Cut.frame ++ Cut.bar)).map Prod.fst) ∧ (∀ e ∈ build (Cut.frame ++ Cut.bar), Arb.Directed e.1) ∧
    (∀ e ∈ build (Cut.frame ++ Cut.bar), (-100 : Int) ≤ min e.1.1.2 e.1.2.2) ∧ Closed (build (Cut.frame ++ Cut.bar)) ∧
    (keep exactFP (-100) 100 id 80 80 13 14 8 9 (build (Cut.frame ++ Cut.bar))).map List.length = some 20 :=
  ⟨by decide +kernel, by decide +kernel, by decide +kernel, (build_spec _).2.1, by decide +kernel⟩

/-- C101 fails at the lower limits of width and height: a square of side six is dropped when the least width allowed is six, although one of area 36
is kept when the least area allowed is 36. -/
theorem C101_lower_limit_violated : ∃ out, polysOf exactFP (-100) 100 id Cut.square = some out ∧ out ≠ [] ∧
    (∀ P ∈ out, ∃ w h a, HasSize P.outer w h ∧ HasArea P.outer P.holes a ∧ (36 ≤ a ∧ a ≤ 36) ∧ (6 ≤ w ∧ w ≤ 6) ∧ 6 ≤ h ∧ h ≤ 6) ∧
    keep exactFP (-100) 100 id 36 36 6 6 6 6 Cut.square = some [] := by
  have hk : keep exactFP (-100) 100 id 36 36 6 6 6 6 Cut.square = some [] := by decide +kernel
  have hC : Closed Cut.square := (closed_perm (S := Cut.square) (D := build [(([(-3, -3), (3, -3), (3, 3), (-3, 3)], []), false)]) (by decide +kernel) (build_spec _).2.1)
  obtain ⟨out, o1, _, o3, _, _⟩ := polysOf_kind (fp := exactFP) (kind_manhattan exactFP (-100)) 100 (srt := id) (fun D => List.Perm.refl D) (S := Cut.square)
    ⟨by decide +kernel, by decide +kernel, by decide +kernel⟩ hC
  have ht : (polysOf exactFP (-100) 100 id Cut.square).map (fun out => out.all (keepTest 36 36 5 6 5 6) && !out.isEmpty) = some true := by decide +kernel
  rw [o1] at ht
  simp only [Option.map_some, Option.some.injEq, Bool.and_eq_true, List.all_eq_true] at ht
  refine ⟨out, o1, fun h => by rw [h] at ht; simp at ht, fun P hP => ?_, hk⟩
  obtain ⟨w, h, a, k1, k2, k3, k4, k5⟩ := (keepTest_iff (o3 P hP) _ _ _ _ _ _).1 (ht.1 P hP)
  exact ⟨w, h, a, k1, k2, k3, by omega, by omega⟩

end Verif.Properties.ArbKeep
