import Verif.Proofs.FormProper
import Verif.Model.ArbGet
import Verif.Properties.Cut
/-!
# The polygons with holes of a set at any angle
-/
namespace Verif.Properties.ArbForm
open Verif Verif.Arb Verif.Cut Verif.PolySet Verif.ArbForm Verif.Spec Verif.Spec.Arb Verif.Properties.Cut

/-- All outlines of the polygons, outer ones and holes. -/
def rings (out : List Poly) : List (List (Int × Int)) := out.flatMap (fun P => P.outer :: P.holes)

theorem clean_of {D : Data} (hd : ∀ e ∈ D, Directed e.1) (hP : Planar (D.map Prod.fst)) (hC : Closed D) (hn : (D.map Prod.fst).Nodup)
    (hu : ∀ e ∈ D, e.2 = 1 ∨ e.2 = -1) (h01 : ∀ q, depth D q = 0 ∨ depth D q = 1) : Clean D := by
  refine ⟨hn, hu, ⟨?_, ?_, ?_⟩, h01⟩
  · intro ev he
    obtain ⟨e, h, rfl⟩ := List.mem_map.1 he
    exact hd e h
  · have : (evs D).map Prod.fst = D.map Prod.fst := by unfold evs; rw [List.map_map]; rfl
    rw [this]; exact hP
  · intro k
    by_cases h : k = 0
    · rw [h, layer_evs]; exact hC
    · have : layer (evs D) k = [] := by
        unfold layer evs
        rw [List.filter_eq_nil_iff.2]
        · rfl
        · intro a ha
          obtain ⟨e, _, rfl⟩ := List.mem_map.1 ha
          simpa using Ne.symm h
      rw [this]; intro v; rfl

theorem rings_spec {out : List Poly} : out.flatMap Poly.sides = (rings out).flatMap sides := by
  unfold rings
  rw [List.flatMap_assoc]
  congr 1

theorem rings_sum {out : List Poly} (f : List (Int × Int) → Int) : ((rings out).map f).sum = (out.map (fun P => f P.outer + (P.holes.map f).sum)).sum := by
  unfold rings
  rw [sum_flatMap]
  rfl

open Classical in
/-- For proper polygons the windings of all outlines around a point add up to the number of polygons that contain it: those with the point inside
the outer outline and in none of the holes. -/
theorem C81_inside (out : List Poly) (h : ∀ P ∈ out, Proper P.outer P.holes) (q : ℚ × ℚ) :
    ((rings out).map (fun l => windAt l q)).sum = ((out.filter (fun P => decide (Inside P.outer P.holes q))).length : Int) := by
  rw [rings_sum]
  exact inside_count h q

/-- From the edges of a region, which meet only in end points, polygons with holes are formed. All outlines are
closed and have at least three sides. Each edge is a side of exactly one outline, with the region on its left, and there
are no other sides. Each polygon is proper: its outer outline winds once around the points it encloses, its holes lie inside the outer outline and apart
from each other. The windings of all outlines around a point add up to one inside the region and to zero outside; so by `C81_inside` each
point of the region is inside exactly one polygon, and no other point is inside one. -/
theorem C81_form (D : Data) (hd : ∀ e ∈ D, Directed e.1) (hP : Planar (D.map Prod.fst)) (hC : Closed D) (hn : (D.map Prod.fst).Nodup)
    (hu : ∀ e ∈ D, e.2 = 1 ∨ e.2 = -1) (h01 : ∀ q, depth D q = 0 ∨ depth D q = 1) :
    ∃ out, form D = some out ∧ (∀ l ∈ rings out, Ring l ∧ 3 ≤ (sides l).length) ∧ (∀ P ∈ out, Proper P.outer P.holes) ∧
      ((rings out).flatMap sides).Perm (D.map solidLeft) ∧ ∀ q, ((rings out).map (fun l => windAt l q)).sum = depth D q := by
  obtain ⟨out, h1, h2, h3⟩ := form_spec (clean_of hd hP hC hn hu h01)
  refine ⟨out, h1, ?_, form_proper (clean_of hd hP hC hn hu h01) hd hP h1, by rw [← rings_spec]; exact h2, fun q => ?_⟩
  · intro l hl
    have hr : Ring l := by
      obtain ⟨P, hP, hl⟩ := List.mem_flatMap.1 hl
      rcases List.mem_cons.1 hl with rfl | hl
      · exact (h3 P hP).1
      · exact (h3 P hP).2 l hl
    refine ⟨hr, ring_three hd hn hr fun e he => ?_⟩
    rw [← h2.mem_iff, rings_spec]
    exact List.mem_flatMap.2 ⟨l, hl, he⟩
  · rw [rings_sum]
    exact form_wind hd hu h2 h3 q

/-- A square with a triangular hole that touches the outline in a corner, next to a triangle. -/
def touching : Data := [(((0, 0), (9, 0)), 1), (((0, 0), (0, 9)), 1), (((0, 9), (9, 9)), -1), (((9, 0), (9, 9)), -1),
  (((0, 0), (4, 2)), -1), (((0, 0), (3, 5)), 1), (((3, 5), (4, 2)), 1), (((9, 9), (12, 8)), 1), (((9, 9), (14, 11)), -1), (((12, 8), (14, 11)), 1)]


example : form touching = some [⟨[(9, 9), (0, 9), (0, 0), (3, 5), (4, 2), (0, 0), (9, 0), (9, 9)], []⟩, ⟨[(14, 11), (9, 9), (12, 8), (14, 11)], []⟩] := by
  decide +kernel

/-- The hypotheses hold of the edges of a triangle with a hole. -/
example : ∃ out, clean exactFP (-100) 100 (build [(([(0, 0), (20, 3), (5, 17)], [[(5, 4), (9, 5), (6, 9)]]), false)]) = some out ∧ out.length = 6 ∧
    (form out).map (fun o => o.map (fun P => (P.outer.length, P.holes.map List.length))) = some [(4, [4])] := by
  exact ⟨_, rfl, by decide +kernel, by decide +kernel⟩

/-- What cleaning gives is turned into polygons. -/
theorem get_of {fp : FP} {umin umax : Int} {S D : Data} (h0 : clean fp umin umax S = some D) (hd : ∀ e ∈ D, Directed e.1) (hP : Planar (D.map Prod.fst))
    (hC : Closed D) (hn : (D.map Prod.fst).Nodup) (hu : ∀ e ∈ D, e.2 = 1 ∨ e.2 = -1) (h01 : ∀ q, depth D q = 0 ∨ depth D q = 1) :
    ∃ out, getPolys fp umin umax S = some out ∧ (∀ l ∈ rings out, Ring l ∧ 3 ≤ (sides l).length) ∧ (∀ P ∈ out, Proper P.outer P.holes) ∧
      ((rings out).flatMap sides).Perm (D.map solidLeft) ∧ ∀ q, ((rings out).map (fun l => windAt l q)).sum = depth D q := by
  obtain ⟨out, h1, h2⟩ := C81_form D hd hP hC hn hu h01
  refine ⟨out, ?_, h2⟩
  unfold getPolys
  rw [h0]
  exact h1

theorem solidLeft_ends (e : Edge × Int) : solidLeft e = e.1 ∨ solidLeft e = e.1.swap := by
  unfold solidLeft
  split_ifs
  exacts [Or.inr rfl, Or.inl rfl, Or.inl rfl, Or.inr rfl]

/-- Polygons obtained from a set of horizontal and vertical edges cover exactly the points of positive depth, once,
whatever the floating point unit computes; their sides are horizontal and vertical. -/
theorem C81_get_manhattan (fp : FP) (umin umax : Int) (D S : Data) (hS : S.Perm D) (hM : Manhattan (D.map Prod.fst))
    (hd : ∀ e ∈ D, Directed e.1) (hu : ∀ e ∈ D, umin ≤ min e.1.1.2 e.1.2.2) (hD : Closed D) :
    ∃ out, getPolys fp umin umax S = some out ∧ (∀ l ∈ rings out, Ring l ∧ 3 ≤ (sides l).length) ∧ (∀ P ∈ out, Proper P.outer P.holes) ∧
      (∀ l ∈ rings out, ∀ e ∈ sides l, e.1.1 = e.2.1 ∨ e.1.2 = e.2.2) ∧
      ∀ q, ((rings out).map (fun l => windAt l q)).sum = if depth D q > 0 then 1 else 0 := by
  obtain ⟨C, h1, h2, h4, h5, h6, h7, h8⟩ := C74_clean fp umin umax D S hS hM hd hu hD
  obtain ⟨out, o1, o2, oP, o3, o4⟩ := get_of h1 (fun e he => (h4 e he).1) h6 h7 h5 (fun e he => (h4 e he).2) (fun q => by rw [h2]; split_ifs <;> simp)
  refine ⟨out, o1, o2, oP, fun l hl e he => ?_, fun q => by rw [o4, h2]⟩
  obtain ⟨a, ha, rfl⟩ := List.mem_map.1 (o3.mem_iff.1 (List.mem_flatMap.2 ⟨l, hl, he⟩))
  have := h8 a.1 (List.mem_map.2 ⟨a, ha, rfl⟩)
  rcases solidLeft_ends a with g | g <;> rw [g]
  · exact this
  · simp only [Prod.fst_swap, Prod.snd_swap]; omega

example : getPolys exactFP (-100) 100 (build (frame ++ bar)) =
    some [⟨[(12, 5), (9, 5), (9, 9), (0, 9), (0, 5), (-2, 5), (-2, 4), (0, 4), (0, 0), (9, 0), (9, 4), (12, 4), (12, 5)],
      [[(6, 6), (6, 5), (3, 5), (3, 6), (6, 6)], [(6, 4), (6, 3), (3, 3), (3, 4), (6, 4)]]⟩] := by decide +kernel

/-- The clean set is the union of the set with nothing. -/
theorem clean_eq {fp : FP} {umin umax : Int} {S : Data} (hd : ∀ e ∈ S, Directed e.1) : boolOp fp 0 umin umax S [] = clean fp umin umax S := by
  unfold boolOp
  rw [insertSet_nil hd, insertSet_nil (by simp)]
  rfl

theorem depth_or (S D : Data) (hS : S.Perm D) (q : ℚ × ℚ) :
    (if inResult 0 (depth S q > 0) (depth [] q > 0) then 1 else 0) = if depth D q > 0 then (1 : Int) else 0 := by
  have e1 : depth S q = depth D q := (hS.map _).sum_eq
  have e2 : ¬ depth [] q > 0 := by unfold Spec.Arb.depth; simp
  rw [e1]
  by_cases c : depth D q > 0
  · rw [if_pos c, if_pos (show inResult 0 _ _ from Or.inl c)]
  · rw [if_neg c, if_neg]
    rintro (g | g)
    exacts [c g, e2 g]

theorem closed_perm {S D : Data} (hS : S.Perm D) (hD : Closed D) : Closed S := fun v => by rw [(hS.map _).sum_eq]; exact hD v

theorem partOf_perm {E F : List Edge} (h : ∀ e, e ∈ E ↔ e ∈ F) {e : Edge} (hp : PartOf E e) : PartOf F e := by
  have hj : ∀ p, Junction E p → Junction F p := by
    intro p hj
    unfold Junction at hj ⊢
    simpa only [h] using hj
  obtain ⟨h1, h2, h3, a, ha, h4⟩ := hp
  exact ⟨h1, hj _ h2, hj _ h3, a, (h a).1 ha, h4⟩

theorem onLattice_perm {E F : List Edge} (h : ∀ e, e ∈ E ↔ e ∈ F) (hp : OnLattice E) : OnLattice F := by
  have hj : ∀ p, Junction F p → Junction E p := by
    intro p hj
    unfold Junction at hj ⊢
    simpa only [h] using hj
  exact ⟨fun a ha b hb => hp.1 a ((h a).2 ha) b ((h b).2 hb), fun p hp' a ha => hp.2 p (hj p hp') a ((h a).2 ha)⟩

/-- Polygons obtained from a set whose edges meet in lattice points cover exactly the points of positive depth, once;
their sides are parts of edges of the set. -/
theorem C81_get_lattice (fp : FP) (hfp : fp.Accurate) (umin umax : Int) (D S : Data) (hS : S.Perm D) (hL : OnLattice (D.map Prod.fst))
    (hd : ∀ e ∈ D, Directed e.1) (hu : ∀ e ∈ D, umin ≤ min e.1.1.2 e.1.2.2) (hD : Closed D) :
    ∃ out, getPolys fp umin umax S = some out ∧ (∀ l ∈ rings out, Ring l ∧ 3 ≤ (sides l).length) ∧ (∀ P ∈ out, Proper P.outer P.holes) ∧
      (∀ l ∈ rings out, ∀ e ∈ sides l, PartOf (D.map Prod.fst) e ∨ PartOf (D.map Prod.fst) e.swap) ∧
      ∀ q, ((rings out).map (fun l => windAt l q)).sum = if depth D q > 0 then 1 else 0 := by
  have hm : ∀ e, e ∈ D.map Prod.fst ↔ e ∈ (S ++ []).map Prod.fst := fun e => by rw [List.append_nil]; exact ((hS.map _).mem_iff).symm
  obtain ⟨C, h1, h2, h3, h4, h5, h6, _⟩ := C75_boolean fp hfp 0 umin umax S [] (onLattice_perm hm hL)
    (by rw [List.append_nil]; intro e he; exact hd e (hS.mem_iff.1 he)) (by rw [List.append_nil]; intro e he; exact hu e (hS.mem_iff.1 he))
    (closed_perm hS hD) (fun v => rfl)
  rw [clean_eq (fun e he => hd e (hS.mem_iff.1 he))] at h1
  obtain ⟨out, o1, o2, oP, o3, o4⟩ := get_of h1 (fun e he => (h3 e he).1.1) h5 h6 h4 (fun e he => (h3 e he).2) (fun q => by rw [h2]; split_ifs <;> simp)
  refine ⟨out, o1, o2, oP, fun l hl e he => ?_, fun q => by rw [o4, h2]; exact depth_or S D hS q⟩
  obtain ⟨a, ha, rfl⟩ := List.mem_map.1 (o3.mem_iff.1 (List.mem_flatMap.2 ⟨l, hl, he⟩))
  have := partOf_perm (fun e => (hm e).symm) (h3 a ha).1
  rcases solidLeft_ends a with g | g <;> rw [g]
  · exact Or.inl this
  · exact Or.inr this

example : getPolys exactFP (-100) 100 diamond = some [⟨[(4, 0), (0, 4), (-4, 0), (0, -4), (4, 0)], []⟩] ∧
    (getPolys exactFP (-100) 100 (diamond ++ square)).map (fun o => (rings o).map List.length) = some [17] := by decide +kernel

/-- Polygons obtained from any set, with exact arithmetic: at every point whose unit square no edge meets, the windings
of all outlines add up to one if its depth is positive and to zero otherwise; at all other points to one or
zero. Every side stays within one unit of an edge of the set. -/
theorem C81_get (fp : FP) (hfp : fp.Floor) (umin umax : Int) (D S : Data) (hS : S.Perm D)
    (hd : ∀ e ∈ D, Directed e.1) (hu : ∀ e ∈ D, umin ≤ min e.1.1.2 e.1.2.2) (hD : Closed D) :
    ∃ out, getPolys fp umin umax S = some out ∧ (∀ l ∈ rings out, Ring l ∧ 3 ≤ (sides l).length) ∧ (∀ P ∈ out, Proper P.outer P.holes) ∧
      (∀ l ∈ rings out, ∀ e ∈ sides l, ∃ a ∈ D, Near e a.1) ∧
      (∀ q, ((rings out).map (fun l => windAt l q)).sum = 0 ∨ ((rings out).map (fun l => windAt l q)).sum = 1) ∧
      ∀ q, Clear (D.map Prod.fst) q → ((rings out).map (fun l => windAt l q)).sum = if depth D q > 0 then 1 else 0 := by
  obtain ⟨C, h1, h2, h3, h4, h5, h6, h7⟩ := C76_boolean fp hfp 0 umin umax S []
    (by rw [List.append_nil]; intro e he; exact hd e (hS.mem_iff.1 he)) (by rw [List.append_nil]; intro e he; exact hu e (hS.mem_iff.1 he))
    (closed_perm hS hD) (fun v => rfl)
  rw [clean_eq (fun e he => hd e (hS.mem_iff.1 he))] at h1
  obtain ⟨out, o1, o2, oP, o3, o4⟩ := get_of h1 (fun e he => (h3 e he).1) h5 h6 h4 (fun e he => (h3 e he).2.2.2.2) h7
  refine ⟨out, o1, o2, oP, fun l hl e he => ?_, fun q => by rw [o4]; exact h7 q, fun q hq => ?_⟩
  · obtain ⟨a, ha, rfl⟩ := List.mem_map.1 (o3.mem_iff.1 (List.mem_flatMap.2 ⟨l, hl, he⟩))
    obtain ⟨x, hx, hn⟩ := (h3 a ha).2.2.2.1
    rw [List.append_nil] at hx
    refine ⟨x, hS.mem_iff.1 hx, ?_⟩
    rcases solidLeft_ends a with g | g <;> rw [g]
    · exact hn
    · exact fun q hq => hn q (by simpa using onEdge_swap hq)
  · rw [o4, h2 q, depth_or S D hS q]
    intro e he
    rw [List.append_nil] at he
    exact hq e ((hS.map _).mem_iff.1 he)

/-- From polygons to polygons: for any history of insertions of polygons with holes at any angle, at every point whose
unit square no outline meets. -/
theorem C81_get_polygons (fp : FP) (hfp : fp.Floor) (umin umax : Int) (X : List Obj) (S : Data) (hS : S.Perm (build X))
    (hu : ∀ P ∈ outlines X, ∀ p ∈ P, umin ≤ p.2) :
    ∃ out, getPolys fp umin umax S = some out ∧ (∀ l ∈ rings out, Ring l ∧ 3 ≤ (sides l).length) ∧ (∀ P ∈ out, Proper P.outer P.holes) ∧
      ∀ q, (∀ P ∈ outlines X, Clear (edges P) q) → ((rings out).map (fun l => windAt l q)).sum = if total X q > 0 then 1 else 0 := by
  obtain ⟨x1, x2, x3, x4⟩ := build_spec X
  obtain ⟨out, h1, h2, hp, _, _, h5⟩ := C81_get fp hfp umin umax (build X) S hS x3 (build_low hu) x2
  refine ⟨out, h1, h2, hp, fun q hq => ?_⟩
  rw [h5 q, x1]
  intro e he z hz
  obtain ⟨a, ha, rfl⟩ := List.mem_map.1 he
  obtain ⟨P, hP, g | g⟩ := x4 a ha
  · exact hq P hP _ g z hz
  · exact hq P hP _ g z (onEdge_swap hz)

example : getPolys exactFP (-100) 100 (build (tri1 ++ tri2)) =
    some [⟨[(20, 3), (14, 8), (18, 16), (9, 13), (5, 17), (3, 11), (-3, 9), (1, 4), (0, 0), (4, 0), (9, -4), (11, 1), (20, 3)], []⟩] := by
  decide +kernel

/-- Proper polygons with two holes, and a point inside. -/
example : ∃ P, getPolys exactFP (-100) 100 (build (frame ++ bar)) = some [P] ∧ P.holes.length = 2 ∧ Proper P.outer P.holes ∧ Inside P.outer P.holes (1, 1) := by
  obtain ⟨out, h1, _, h3, _⟩ := C81_get_polygons exactFP exactFP_floor (-100) 100 (frame ++ bar) _ (List.Perm.refl _) (by decide +kernel)
  have e := h1.symm.trans (show _ = some [_] by decide +kernel : getPolys exactFP (-100) 100 (build (frame ++ bar)) =
    some [⟨[(12, 5), (9, 5), (9, 9), (0, 9), (0, 5), (-2, 5), (-2, 4), (0, 4), (0, 0), (9, 0), (9, 4), (12, 4), (12, 5)],
      [[(6, 6), (6, 5), (3, 5), (3, 6), (6, 6)], [(6, 4), (6, 3), (3, 3), (3, 4), (6, 4)]]⟩])
  rw [Option.some_inj.1 e] at h1 h3
  exact ⟨_, h1, rfl, h3 _ (by simp), by unfold Inside; decide +kernel⟩

end Verif.Properties.ArbForm
