import Verif.Properties.Resize90
import Verif.Properties.Interact
/-!
# C99: `grow_and`
-/
namespace Verif.Properties.GrowAnd
open Verif.Spec hiding Near
open Verif.PolyForm Verif.Proofs.PolyGet Verif.Proofs.PolyData Verif.Polygon Verif.Set90 Verif.Isotropy Verif.Concept90 Verif.Resize90
open Verif.Properties.Resize (Near)
open Verif.Properties.Resize90
open Verif.Properties.Concept90 (copy_spec depth_clear depth_mk0 polysOf_spec)

variable {umin umax : Int}

/-- The `k`-th polygon of the list reaches the point once it has grown by the four amounts. -/
def Reached (polys : List (List (Int × Int) × List (List (Int × Int)))) (w e s n : Int) (k : Nat) (q : ℚ × ℚ) : Prop :=
  ∃ P, polys[k]? = some P ∧ ∃ q', wind P.1 q' ≠ 0 ∧ Near w e s n q' q

/-- The polygon reaches the point once it has grown. -/
def Grown (w e s n : Int) (q : ℚ × ℚ) (p : Poly) : Prop := ∃ q', wind (expand p.outer) q' ≠ 0 ∧ Near w e s n q' q

open Classical in
theorem two_le {α : Type} (G : α → Prop) : ∀ l : List α,
    (1 ≤ (l.map (fun p => if G p then (1 : Int) else 0)).sum ↔ ∃ (i : Nat) (x : α), l[i]? = some x ∧ G x) ∧
    (2 ≤ (l.map (fun p => if G p then (1 : Int) else 0)).sum ↔ ∃ (i j : Nat) (x y : α), i < j ∧ l[i]? = some x ∧ l[j]? = some y ∧ G x ∧ G y)
  | [] => by simp
  | p :: r => by
    obtain ⟨h1, h2⟩ := two_le G r
    have h0 : 0 ≤ (r.map (fun p => if G p then (1 : Int) else 0)).sum := by
      apply List.sum_nonneg; intro x hx; obtain ⟨p, _, rfl⟩ := List.mem_map.1 hx; split_ifs <;> omega
    rw [List.map_cons, List.sum_cons]
    constructor
    · constructor
      · intro h
        by_cases hp : G p
        · exact ⟨0, p, rfl, hp⟩
        · rw [if_neg hp, zero_add, h1] at h
          obtain ⟨i, x, a, b⟩ := h
          exact ⟨i + 1, x, a, b⟩
      · rintro ⟨i, x, a, b⟩
        cases i with
        | zero =>
          obtain rfl : p = x := by simpa using a
          rw [if_pos b]; omega
        | succ i =>
          have := h1.2 ⟨i, x, a, b⟩
          split_ifs <;> omega
    · constructor
      · intro h
        by_cases hp : G p
        · rw [if_pos hp] at h
          obtain ⟨j, y, a, b⟩ := h1.1 (by omega)
          exact ⟨0, j + 1, p, y, by omega, rfl, a, hp, b⟩
        · rw [if_neg hp, zero_add, h2] at h
          obtain ⟨i, j, x, y, a, b, c, d⟩ := h
          exact ⟨i + 1, j + 1, x, y, by omega, b, c, d⟩
      · rintro ⟨i, j, x, y, a, b, c, d, e⟩
        cases j with
        | zero => omega
        | succ j =>
          cases i with
          | zero =>
            obtain rfl : p = x := by simpa using b
            have := h1.2 ⟨j, y, c, e⟩
            rw [if_pos d]; omega
          | succ i =>
            have := h2.2 ⟨i, j, x, y, by omega, b, c, d, e⟩
            split_ifs <;> omega

theorem insert_orient (s t : PSet) : (s.insertSet t).orient = s.orient := by
  unfold PSet.insertSet
  by_cases h : t.data = []
  · rw [PSet.insertRange, if_pos h]
  · rw [insertRange_eq _ _ _ h]

open Classical in
theorem growLoop_spec {w e so n m : Int} (hw : Amount m w) (he : Amount m e) (hso : Amount m so) (hn : Amount m n) (hax : OneAxis w e so n)
    {o o' : Nat} (ho : o = HORIZONTAL ∨ o = VERTICAL) : ∀ (polys : List Poly) (ps : PSet), Valid umin umax ps →
    (∀ p ∈ polys, POk true o' p ∧ PtsIn umin umax (expand p.outer) ∧
      ∀ x y : Int, wind (expand p.outer) ((x : ℚ), (y : ℚ)) ≠ 0 → umin + m ≤ x ∧ x < umax - m ∧ umin + m ≤ y ∧ y < umax - m) →
    ∃ t, growLoop umax w e so n o polys ps = some t ∧ Valid umin umax t ∧ t.orient = ps.orient ∧
      ∀ q, depth t q = depth ps q + (polys.map (fun p => if Grown w e so n q p then (1 : Int) else 0)).sum
  | [], ps, h, _ => ⟨ps, rfl, h, rfl, fun q => by simp⟩
  | p :: r, ps, h, hp => by
    obtain ⟨p1, p2, p3⟩ := hp p (by simp)
    have hpr := proper p1.lo
    have hv := Verif.Polygon.insertPoly_valid (mk0_valid (umin := umin) (umax := umax) o ho) (expand p.outer) false hpr.four hpr.alternating (stutter hpr) p2
    have hc : ∀ q, Covers ((PSet.mk0 o).insertPoly (expand p.outer) false) q ↔ wind (expand p.outer) q ≠ 0 := fun q => Verif.Properties.Interact.single_covers ho p1 q
    obtain ⟨a, a1, a2, a3, a4⟩ := bloatFree_held hv hw he hso hn hax (fun x y hxy => p3 x y ((hc _).1 hxy))
    obtain ⟨b, b1, b2, -, -, -, b5, b6⟩ := clean_spec a2
    obtain ⟨t, c1, c2, c3, c4⟩ := growLoop_spec hw he hso hn hax ho r (ps.insertSet b) (insertSet_valid h b5) (fun x hx => hp x (List.mem_cons_of_mem _ hx))
    refine ⟨t, ?_, c2, ?_, fun q => ?_⟩
    · simp only [growLoop, a1, b1, Option.bind_eq_bind, Option.bind_some]; exact c1
    · rw [c3, insert_orient]
    · rw [c4, insertSet_depth h.orient b5.orient, clean_depth b2 b6, List.map_cons, List.sum_cons]
      have : (0 < depth a q) ↔ Grown w e so n q p := by
        rw [show (0 < depth a q) ↔ Covers a q from Iff.rfl, a4]
        exact exists_congr fun q' => and_congr_left fun _ => hc q'
      have hi : BooleanOp.ind (decide (0 < depth a q)) = if Grown w e so n q p then (1 : Int) else 0 := by
        unfold BooleanOp.ind; by_cases g : Grown w e so n q p <;> simp [this, g]
      rw [hi]; ring

theorem selfIntersectFree_spec {s : PSet} (h : Valid umin umax s) (hu : umin ≤ umax) :
    ∃ t, selfIntersectFree umin umax s = some t ∧ Valid umin umax t ∧ t.orient = s.orient ∧ ∀ q, Covers t q ↔ 2 ≤ depth s q := by
  obtain ⟨h1, h2, h3⟩ := copy_spec h (o := HORIZONTAL) (Or.inl rfl)
  have hd : ∀ q, depth (assignSet (PSet.mk0 HORIZONTAL) s) q = depth s q := h3
  by_cases he : s.data = []
  · have e1 : assignSet (PSet.mk0 HORIZONTAL) s = PSet.mk0 HORIZONTAL := by
      unfold assignSet PSet.insertSet PSet.insertRange; rw [if_pos he]; rfl
    have e2 : (PSet.mk0 HORIZONTAL).selfIntersect umin umax = some (PSet.mk0 HORIZONTAL) := rfl
    obtain ⟨d1, d2, d3⟩ := copy_out h.orient (mk0_valid (umin := umin) (umax := umax) HORIZONTAL (Or.inl rfl))
    refine ⟨_, by unfold selfIntersectFree; rw [e1, e2]; rfl, d1, d2, fun q => ?_⟩
    rw [d3, ← hd, e1, depth_mk0]
    unfold Covers
    rw [depth_mk0]; omega
  · have hdirty : (assignSet (PSet.mk0 HORIZONTAL) s).dirty = true := by
      unfold assignSet PSet.insertSet; rw [insertRange_eq _ _ _ he]
    obtain ⟨t, e, hv, -⟩ := selfIntersect_spec (show Valid umin umax (assignSet (PSet.mk0 HORIZONTAL) s) from h1) hu hdirty
    obtain ⟨t', e', -, hc⟩ := Verif.Properties.Set90.C06_self_intersect (show Valid umin umax (assignSet (PSet.mk0 HORIZONTAL) s) from h1) hu hdirty
    obtain rfl : t = t' := by rw [e] at e'; simpa using e'
    obtain ⟨d1, d2, d3⟩ := copy_out h.orient hv
    refine ⟨_, by unfold selfIntersectFree; rw [e]; rfl, d1, d2, fun q => ?_⟩
    rw [d3, hc, hd]

/-- C99: the free `self_intersect` leaves exactly the points covered at least twice and keeps the orientation, also when nothing is stored. -/
theorem C99_self_intersect {s : PSet} (h : Valid umin umax s) (hu : umin ≤ umax) :
    ∃ t, selfIntersectFree umin umax s = some t ∧ t.orient = s.orient ∧ ∀ q, Covers t q ↔ 2 ≤ depth s q := by
  obtain ⟨t, a, -, b, c⟩ := selfIntersectFree_spec h hu
  exact ⟨t, a, b, c⟩

/-- C99: `grow_and` succeeds, keeps the orientation, and the result covers exactly the points that two different polygons, of those `get` reads
from the set, both reach after growing by the given amounts; a polygon that meets only itself leaves nothing.
Missing: amounts along both axes at once. -/
theorem C99_grow_and_partial {s : PSet} (hs : Valid umin umax s) {w e so n m : Int} (hw : Amount m w) (he : Amount m e) (hso : Amount m so) (hn : Amount m n)
    (hax : OneAxis w e so n) (hr : InRange (umin + m) (umax - m) s.data) (hu : umin ≤ umax) :
    ∃ ps s' r, s.getPolys true umax = some (ps, s') ∧ growAnd umin umax w e so n s = some r ∧ r.orient = s.orient ∧ Valid umin umax r ∧
      ∀ q, Covers r q ↔ ∃ i j, i < j ∧ Reached (ps.map pts) w e so n i q ∧ Reached (ps.map pts) w e so n j q := by
  classical
  obtain ⟨ps, s', e1, e2, h3, h4, h5, _⟩ := get_spec true hs
  have hk : polysOf umax s = some ps := by rw [polysOf_spec hs, e1]; rfl
  have hcov : ∀ p ∈ ps, ∀ q, wind (expand p.outer) q ≠ 0 → Covers s q := by
    intro p hp q hq
    by_contra hc
    have h6 := h4 q
    rw [if_neg (show ¬ 0 < depth s q from hc)] at h6
    have hnn : ∀ x ∈ ps.map (fun p => sg true * pw p q), 0 ≤ x := by
      intro x hx
      obtain ⟨p', hp', rfl⟩ := List.mem_map.1 hx
      rw [← pw_pvl (h3 p' hp')]
      exact (h3 p' hp').nn _ _
    have := List.all_zero_of_le_zero_le_of_sum_eq_zero hnn h6 (List.mem_map_of_mem hp)
    have hh := (h3 p hp).nh rfl
    simp only [pw, sg, hh] at this
    simp at this
    exact hq this
  obtain ⟨t, a1, a2, a3, a4⟩ := growLoop_spec (umin := umin) (umax := umax) (o := s.orient) (o' := s.orient) hw he hso hn hax hs.orient ps (PSet.mk0 s.orient)
    (mk0_valid _ hs.orient) (fun p hp => ⟨h3 p hp, expand_range (h5 p hp).1, fun x y hxy => held hs hr x y (hcov p hp _ hxy)⟩)
  obtain ⟨r, b1, b2, b3, b4⟩ := selfIntersectFree_spec a2 hu
  obtain ⟨d1, d2, d3⟩ := copy_out (s := s.clear) hs.orient b2
  refine ⟨ps, s', assignSet s.clear r, e1, ?_, d2, d1, fun q => ?_⟩
  · simp only [growAnd, hk, Option.bind_eq_bind, Option.bind_some]
    rw [show s.clear.orient = s.orient from rfl, a1]
    simp only [Option.bind_some, b1]
    rfl
  · rw [d3, b4, a4, depth_mk0, zero_add, (two_le _ ps).2]
    unfold Reached
    simp only [List.getElem?_map, Option.map_eq_some_iff]
    constructor
    · rintro ⟨i, j, x, y, a, b, c, d, f⟩
      exact ⟨i, j, a, ⟨_, ⟨x, b, rfl⟩, d⟩, ⟨_, ⟨y, c, rfl⟩, f⟩⟩
    · rintro ⟨i, j, a, ⟨_, ⟨x, b, rfl⟩, d⟩, ⟨_, ⟨y, c, rfl⟩, f⟩⟩
      exact ⟨i, j, x, y, a, b, c, d, f⟩

/-- The island inside the large square meets the square, and so does the rectangle to its right. -/
example : ((growAnd (-100) 100 12 12 0 0 (Verif.Properties.Concept90.exK HORIZONTAL)).bind (fun t => t.clean 100)).map PSet.data =
    some [⟨0, 8, 1⟩, ⟨0, 22, -1⟩, ⟨2, -10, 1⟩, ⟨2, 8, -1⟩, ⟨4, -10, -1⟩, ⟨4, 8, 1⟩, ⟨6, 8, -1⟩, ⟨6, 22, 1⟩] := by decide +kernel

example : Valid (-100) 100 (Verif.Properties.Concept90.exK HORIZONTAL) ∧ Amount 12 12 ∧ OneAxis 12 12 0 0 ∧
    InRange (-100 + 12) (100 - 12) (Verif.Properties.Concept90.exK HORIZONTAL).data :=
  ⟨Verif.Properties.Concept90.exK_valid _ (Or.inl rfl), ⟨by decide, by decide⟩, Or.inl ⟨rfl, rfl⟩, fun v hv => by have := exK_range _ (Or.inl rfl) v hv; omega⟩

end Verif.Properties.GrowAnd
