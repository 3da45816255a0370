import Verif.Proofs.ArbMerge
/-!
# `property_merge` for polygons at any angle

Objects are inserted with a property; `merge` gives a map from sets of properties to polygon sets. The specification
is the total winding number of the objects that have a property (`Spec/PolySet.lean`).
-/
namespace Verif.Properties.ArbMerge
open Verif Verif.Arb Verif.Cut Verif.PolySet Verif.ArbMerge Verif.Spec Verif.Spec.Arb
open Verif.Properties.Cut (Obj build total outlines)

/-- The point is covered by the objects with the listed properties and by no others. -/
def CoveredBy (ops : List (Int × Obj)) (s : List Int) (q : ℚ × ℚ) : Prop := ∀ k, k ∈ s ↔ total (having ops k) q > 0

open Classical in
/-- From a scan of exactly cut events to the objects. -/
theorem of_exact {fp : FP} {ops : List (Int × Obj)} {umin : Int} (umax : Int) (hex : Exact fp umin (((pm ops).map nrmEv).map Prod.fst)) :
    ∃ out, merge fp umin umax (pm ops) = some out ∧
      (∀ s : List Int, s ≠ [] → s.Pairwise (· < ·) →
        (∀ q, depth (entry out s) q = if CoveredBy ops s q then 1 else 0) ∧ (entry out s = [] ↔ ∀ q, ¬ CoveredBy ops s q) ∧
        (∀ a ∈ entry out s, PartOf ((build (ops.map Prod.snd)).map Prod.fst) a.1 ∧ (a.2 = 1 ∨ a.2 = -1)) ∧
        ((entry out s).map Prod.fst).Nodup ∧ Planar ((entry out s).map Prod.fst) ∧ Closed (entry out s)) ∧
      ∀ a ∈ out, a.1 ≠ [] ∧ a.1.Pairwise (· < ·) := by
  obtain ⟨p1, p2, p3⟩ := pm_spec ops
  obtain ⟨hG, hd⟩ := cut_exact hex p2
  obtain ⟨out, h1, h2, h3⟩ := scan_merge hG umin umax
  rw [merge_eq]
  refine ⟨out, h1, fun s hs hsrt => ?_, h3⟩
  obtain ⟨a1, a2, a3, a4, a5, a6⟩ := h2 s hs hsrt
  simp only [hd, p1] at a1 a6
  refine ⟨a1, a6, fun a ha => ⟨?_, (a2 a ha).2⟩, a3, a4, a5⟩
  obtain ⟨e, he, h⟩ := List.mem_map.1 (a2 a ha).1
  have := (cut_part hex he).1
  rw [h] at this
  obtain ⟨b1, b2, b3, c, hc, b4⟩ := this
  have hj : ∀ p, Junction (((pm ops).map nrmEv).map Prod.fst) p → Junction ((build (ops.map Prod.snd)).map Prod.fst) p := by
    intro p hp
    unfold Junction at hp ⊢
    simpa only [p3] using hp
  exact ⟨b1, hj _ b2, hj _ b3, c, (p3 c).1 hc, b4⟩

open Classical in
/-- Rectilinear objects, for every arithmetic: the result maps every set of properties to exactly the points covered
by the objects with those properties and no others. It has no entry for sets that cover nothing. -/
theorem C79_rectilinear (fp : FP) (umin umax : Int) (ops : List (Int × Obj))
    (hM : ∀ P ∈ outlines (ops.map Prod.snd), ∀ e ∈ edges P, e.1.1 = e.2.1 ∨ e.1.2 = e.2.2)
    (hu : ∀ P ∈ outlines (ops.map Prod.snd), ∀ p ∈ P, umin ≤ p.2) :
    ∃ out, merge fp umin umax (pm ops) = some out ∧
      (∀ s : List Int, s ≠ [] → s.Pairwise (· < ·) →
        (∀ q, depth (entry out s) q = if CoveredBy ops s q then 1 else 0) ∧ (entry out s = [] ↔ ∀ q, ¬ CoveredBy ops s q) ∧
        (∀ a ∈ entry out s, PartOf ((build (ops.map Prod.snd)).map Prod.fst) a.1 ∧ (a.2 = 1 ∨ a.2 = -1)) ∧
        ((entry out s).map Prod.fst).Nodup ∧ Planar ((entry out s).map Prod.fst) ∧ Closed (entry out s)) ∧
      ∀ a ∈ out, a.1 ≠ [] ∧ a.1.Pairwise (· < ·) := by
  refine of_exact umax (manhattan_exact fp (fun a ha => ?_) (fun a ha => (pm_mem ops ha).1) (fun a ha => pm_low ops hu ha))
  obtain ⟨_, P, hP, g | g⟩ := pm_mem ops ha
  · exact hM P hP _ g
  · have := hM P hP _ g
    simp only [Prod.fst_swap, Prod.snd_swap] at this
    omega

open Classical in
/-- Objects at any angle whose edges meet in lattice points: the same, if the arithmetic is exact for lattice
points. -/
theorem C79_lattice (fp : FP) (hfp : fp.Accurate) (umin umax : Int) (ops : List (Int × Obj))
    (hL : OnLattice ((build (ops.map Prod.snd)).map Prod.fst)) (hu : ∀ P ∈ outlines (ops.map Prod.snd), ∀ p ∈ P, umin ≤ p.2) :
    ∃ out, merge fp umin umax (pm ops) = some out ∧
      (∀ s : List Int, s ≠ [] → s.Pairwise (· < ·) →
        (∀ q, depth (entry out s) q = if CoveredBy ops s q then 1 else 0) ∧ (entry out s = [] ↔ ∀ q, ¬ CoveredBy ops s q) ∧
        (∀ a ∈ entry out s, PartOf ((build (ops.map Prod.snd)).map Prod.fst) a.1 ∧ (a.2 = 1 ∨ a.2 = -1)) ∧
        ((entry out s).map Prod.fst).Nodup ∧ Planar ((entry out s).map Prod.fst) ∧ Closed (entry out s)) ∧
      ∀ a ∈ out, a.1 ≠ [] ∧ a.1.Pairwise (· < ·) := by
  refine of_exact umax (lattice_exact hfp ?_ (fun a ha => (pm_mem ops ha).1) (fun a ha => pm_low ops hu ha))
  obtain ⟨_, _, p3⟩ := pm_spec ops
  unfold OnLattice Junction at hL ⊢
  simpa only [p3] using hL

open Classical in
/-- Objects at any angle with exact arithmetic: the map is right at every point whose unit square no outline meets. -/
theorem C79_snapped (fp : FP) (hfp : fp.Floor) (umin umax : Int) (ops : List (Int × Obj))
    (hu : ∀ P ∈ outlines (ops.map Prod.snd), ∀ p ∈ P, umin ≤ p.2) :
    ∃ out, merge fp umin umax (pm ops) = some out ∧
      (∀ s : List Int, s ≠ [] → s.Pairwise (· < ·) →
        (∀ q, (∀ P ∈ outlines (ops.map Prod.snd), Clear (edges P) q) → depth (entry out s) q = if CoveredBy ops s q then 1 else 0) ∧
        (∀ a ∈ entry out s, Directed a.1 ∧ (a.2 = 1 ∨ a.2 = -1)) ∧
        ((entry out s).map Prod.fst).Nodup ∧ Planar ((entry out s).map Prod.fst) ∧ Closed (entry out s)) ∧
      ∀ a ∈ out, a.1 ≠ [] ∧ a.1.Pairwise (· < ·) := by
  obtain ⟨p1, p2, p3⟩ := pm_spec ops
  obtain ⟨hG, hd⟩ := cut_near hfp (umin := umin) (fun e he => (pm_mem ops (List.mem_map.2 ⟨e, he, rfl⟩)).1)
    (fun e he => pm_low ops hu (List.mem_map.2 ⟨e, he, rfl⟩)) p2
  obtain ⟨out, h1, h2, h3⟩ := scan_merge hG umin umax
  rw [merge_eq]
  refine ⟨out, h1, fun s hs hsrt => ?_, h3⟩
  obtain ⟨a1, a2, a3, a4, a5, _⟩ := h2 s hs hsrt
  refine ⟨fun q hq => ?_, fun a ha => ⟨?_, (a2 a ha).2⟩, a3, a4, a5⟩
  · have hc : ∀ k, Clear ((layer ((pm ops).map nrmEv) k).map Prod.fst) q := by
      intro k a ha z hz
      obtain ⟨ev, hev, _, rfl⟩ := layer_fst_mem ha
      have ha : ev.1 ∈ ((pm ops).map nrmEv).map Prod.fst := List.mem_map.2 ⟨ev, hev, rfl⟩
      obtain ⟨_, P, hP, g | g⟩ := pm_mem ops ha
      · exact hq P hP _ g z hz
      · exact hq P hP _ g z (onEdge_swap hz)
    rw [a1 q]
    simp only [hd q _ (hc _), p1]
    rfl
  · obtain ⟨e, he, h⟩ := List.mem_map.1 (a2 a ha).1
    rw [← h]; exact hG.dir e he

/-- A triangle with a hole, a bar across it under another property, and a bar taken away from it again. -/
def sample : List (Int × Obj) :=
  [(7, (([(0, 0), (12, 0), (12, 12)], [[(9, 3), (10, 3), (10, 6)]]), false)), (2, (([(-2, 4), (14, 4), (14, 5), (-2, 5)], []), false)),
   (2, (([(13, 4), (14, 4), (14, 5), (13, 5)], []), true))]

/-- The rectilinear objects of it, and another. -/
def sample90 : List (Int × Obj) := sample.drop 1 ++ [(5, (([(0, 0), (0, 9), (9, 9), (9, 0)], [[(3, 3), (6, 3), (6, 6), (3, 6)]]), false))]

example : (∀ P ∈ outlines (sample90.map Prod.snd), ∀ e ∈ edges P, e.1.1 = e.2.1 ∨ e.1.2 = e.2.2) ∧
    (∀ P ∈ outlines (sample90.map Prod.snd), ∀ p ∈ P, (-100 : Int) ≤ p.2) ∧ (∀ P ∈ outlines (sample.map Prod.snd), ∀ p ∈ P, (-100 : Int) ≤ p.2) := by
  decide +kernel

example : (merge exactFP (-100) 100 (pm sample90)).map (fun o => ((entry o [2]).length, (entry o [5]).length, (entry o [2, 5]).length, (entry o [2, 5, 7]).length)) =
    some (12, 16, 8, 0) := by decide +kernel

example : (merge exactFP (-100) 100 (pm sample)).map (fun o => (Spec.Arb.depth (entry o [2]) (1, 9/2), Spec.Arb.depth (entry o [7]) (8, 1), Spec.Arb.depth (entry o [2, 7]) (8, 9/2))) =
    some (1, 1, 1) := by decide +kernel

/-- A diamond and a square whose corners stick out of it. -/
def sampleL : List (Int × Obj) := [(7, (([(0, -4), (4, 0), (0, 4), (-4, 0)], []), false)), (2, (([(-3, -3), (3, -3), (3, 3), (-3, 3)], []), false))]

example : OnLattice ((build (sampleL.map Prod.snd)).map Prod.fst) ∧ ∀ P ∈ outlines (sampleL.map Prod.snd), ∀ p ∈ P, (-100 : Int) ≤ p.2 := by
  refine ⟨?_, by decide +kernel⟩
  have h : (build (sampleL.map Prod.snd)).map Prod.fst = (Properties.Cut.diamond ++ Properties.Cut.square).map Prod.fst := by decide +kernel
  rw [h]
  exact Properties.Cut.diamond_square.1

example : (merge exactFP (-100) 100 (pm sampleL)).map (fun o => ((entry o [2]).length, (entry o [7]).length, (entry o [2, 7]).length)) =
    some (12, 12, 8) := by decide +kernel

end Verif.Properties.ArbMerge
