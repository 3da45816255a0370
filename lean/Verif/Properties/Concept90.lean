import Verif.Model.Concept90
import Verif.Spec.Keep
import Verif.Properties.Extents
import Verif.Properties.Interact
import Verif.Properties.Polygon
/-!
# C97: `keep` retains the polygons of the given sizes
-/
namespace Verif.Properties.Concept90
open Verif.PolyForm Verif.Spec Verif.Polygon Verif.Set90 Verif.Isotropy Verif.Concept90 Verif.Rectangle
open Verif.Proofs.PolyGet Verif.Proofs.PolyData
open Verif.Properties.Set90 (canonical_form)
open Verif.Properties.Touch (rectSet covers_cell)

variable {umin umax : Int}

theorem depth_mk0 (o : Nat) (q : ℚ × ℚ) : depth (PSet.mk0 o) q = 0 := by unfold depth PSet.mk0; split_ifs <;> simp [cover]

theorem depth_clear (s : PSet) (q : ℚ × ℚ) : depth s.clear q = 0 := by unfold depth PSet.clear; split_ifs <;> simp [cover]

theorem copy_spec {s : PSet} (hs : Valid umin umax s) {o : Nat} (ho : o = HORIZONTAL ∨ o = VERTICAL) :
    Valid umin umax ((PSet.mk0 o).insertSet s) ∧ ((PSet.mk0 o).insertSet s).orient = o ∧ ∀ q, depth ((PSet.mk0 o).insertSet s) q = depth s q := by
  refine ⟨insertSet_valid (mk0_valid o ho) hs, ?_, fun q => ?_⟩
  · unfold PSet.insertSet
    by_cases he : s.data = []
    · rw [PSet.insertRange, if_pos he]; rfl
    · rw [insertRange_eq _ _ _ he]; rfl
  · rw [insertSet_depth ho hs.orient, depth_mk0, zero_add]

/-- Two sets of the same orientation that cover the same points become the same object. -/
theorem clean_same {s t : PSet} (hs : Valid umin umax s) (ht : Valid umin umax t) (ho : s.orient = t.orient)
    (h : ∀ q, Covers s q ↔ Covers t q) : s.clean umax = t.clean umax := by
  obtain ⟨s', e1, a1, a2, a3, _, a5, a6⟩ := Verif.Set90.clean_spec hs
  obtain ⟨t', e2, b1, b2, b3, _, b5, b6⟩ := Verif.Set90.clean_spec ht
  have c1 : ∀ q, Covers s' q ↔ Covers s q := by
    intro q; unfold Covers; rw [clean_depth a1 a6]; unfold BooleanOp.ind; split_ifs <;> simp_all
  have c2 : ∀ q, Covers t' q ↔ Covers t q := by
    intro q; unfold Covers; rw [clean_depth b1 b6]; unfold BooleanOp.ind; split_ifs <;> simp_all
  rw [e1, e2, canonical_form a5 b5 a2 a3 b2 b3 (by rw [a1, b1, ho]) (fun q => by rw [c1, c2, h])]

theorem polysOf_spec {s : PSet} (hs : Valid umin umax s) : polysOf umax s = (s.getPolys true umax).map Prod.fst := by
  obtain ⟨h1, h2, h3⟩ := copy_spec hs hs.orient
  have := clean_same h1 hs h2 (fun q => by unfold Covers; rw [h3])
  unfold polysOf PSet.getPolys
  rw [this]
  cases s.clean umax with
  | none => rfl
  | some t =>
    simp only [Option.bind_eq_bind, Option.bind_some]
    cases formPolys true t.orient umax t.data <;> rfl

theorem insertPolys {o : Nat} : ∀ (ps : List Poly) (s : PSet), Valid umin umax s → (∀ p ∈ ps, POk true o p ∧ PtsIn umin umax (expand p.outer)) →
    Valid umin umax (ps.foldl (fun s p => s.insertPoly (expand p.outer) false) s) ∧
    (ps.foldl (fun s p => s.insertPoly (expand p.outer) false) s).orient = s.orient ∧
    ∀ q, depth (ps.foldl (fun s p => s.insertPoly (expand p.outer) false) s) q = depth s q + (ps.map (fun p => |wind (expand p.outer) q|)).sum
  | [], s, hs, _ => ⟨hs, rfl, fun q => by simp⟩
  | p :: r, s, hs, hp => by
    obtain ⟨h1, h2⟩ := hp p (by simp)
    have hpr := proper h1.lo
    have hv := Verif.Polygon.insertPoly_valid hs (expand p.outer) false hpr.four hpr.alternating (stutter hpr) h2
    obtain ⟨i1, i2, i3⟩ := insertPolys r _ hv (fun x hx => hp x (List.mem_cons_of_mem _ hx))
    refine ⟨i1, ?_, fun q => ?_⟩
    · rw [List.foldl_cons, i2, Verif.Properties.Interact.poly_orient s h1]
    · rw [List.foldl_cons, i3, Verif.Properties.Interact.poly_depth hs.orient h1, List.map_cons, List.sum_cons]; ring

theorem assignPolys_spec {s : PSet} (hs : s.orient = HORIZONTAL ∨ s.orient = VERTICAL) {o : Nat} {ps : List Poly} (hp : ∀ p ∈ ps, POk true o p ∧ PtsIn umin umax (expand p.outer)) :
    Valid umin umax (assignPolys s ps) ∧ (assignPolys s ps).orient = s.orient ∧ ∀ q, Covers (assignPolys s ps) q ↔ ∃ p ∈ ps, wind (expand p.outer) q ≠ 0 := by
  have hv : Valid umin umax s.clear := mk0_valid s.orient hs
  obtain ⟨i1, i2, i3⟩ := insertPolys ps s.clear hv hp
  refine ⟨i1, i2, fun q => ?_⟩
  unfold Covers assignPolys
  rw [i3, depth_clear, zero_add]
  clear hp i1 i2 i3
  induction ps with
  | nil => simp
  | cons p r ih =>
    have hnn : 0 ≤ (r.map (fun p => |wind (expand p.outer) q|)).sum := by
      apply List.sum_nonneg; intro x hx; obtain ⟨p, _, rfl⟩ := List.mem_map.1 hx; exact abs_nonneg _
    have hab := abs_nonneg (wind (expand p.outer) q)
    rw [List.map_cons, List.sum_cons]
    have : (∃ x ∈ p :: r, wind (expand x.outer) q ≠ 0) ↔ wind (expand p.outer) q ≠ 0 ∨ ∃ x ∈ r, wind (expand x.outer) q ≠ 0 := by simp
    rw [this, ← ih, ← abs_pos]
    omega

/-! ### The size of a polygon -/

theorem hasSize_iff {P : List (Int × Int)} {r : Rect} (h : Extents.polyExtents P = some r) (w k : Int) :
    HasSize P w k ↔ w = r.h.hi - r.h.lo ∧ k = r.v.hi - r.v.lo := by
  have ht := ((Verif.Properties.Extents.C93_polygon P).2 r h).1
  constructor
  · rintro ⟨xl, yl, xh, yh, ⟨a1, a2⟩, rfl, rfl⟩
    obtain ⟨⟨b1, b2⟩, b3, b4⟩ := a2 _ _ _ _ ht.1
    obtain ⟨⟨c1, c2⟩, c3, c4⟩ := ht.2 _ _ _ _ a1
    norm_cast at b1 b2 b3 b4 c1 c2 c3 c4
    omega
  · rintro ⟨rfl, rfl⟩
    exact ⟨_, _, _, _, ht, rfl, rfl⟩

theorem hasCells_iff {P : List (Int × Int)} (hr : Rectilinear P) (hw : OnceCW P) (n : Int) : HasCells P n ↔ n = areaHoles90 P [] := by
  have key : ∀ lo hi : Int, (∀ p ∈ P, lo ≤ p.1 ∧ p.1 ≤ hi ∧ lo ≤ p.2 ∧ p.2 ≤ hi) →
      ∑ x ∈ Finset.Ico lo hi, ∑ y ∈ Finset.Ico lo hi, (if wind P (x, y) = 0 then 0 else 1) = areaHoles90 P [] := by
    intro lo hi hb
    have h := Verif.Properties.Polygon.C30_counts_cells P hr lo hi hb
    have e : ∑ x ∈ Finset.Ico lo hi, ∑ y ∈ Finset.Ico lo hi, (if wind P (x, y) = 0 then (0 : Int) else 1) = area90 P := by
      rw [← neg_inj, ← h, ← Finset.sum_neg_distrib]
      refine Finset.sum_congr rfl fun x _ => ?_
      rw [← Finset.sum_neg_distrib]
      refine Finset.sum_congr rfl fun y _ => ?_
      rcases hw (x, y) with e | e <;> rw [e] <;> simp
    have hn : 0 ≤ area90 P := by
      rw [← e]
      exact Finset.sum_nonneg fun x _ => Finset.sum_nonneg fun y _ => by split_ifs <;> omega
    rw [e]
    simp only [areaHoles90, List.foldl_nil]
    rw [if_neg (by omega)]
  constructor
  · rintro ⟨lo, hi, hb, rfl⟩
    exact key lo hi hb
  · rintro rfl
    have hbd : ∀ L : List (Int × Int), ∃ lo hi : Int, ∀ p ∈ L, lo ≤ p.1 ∧ p.1 ≤ hi ∧ lo ≤ p.2 ∧ p.2 ≤ hi := by
      intro L
      induction L with
      | nil => exact ⟨0, 0, by simp⟩
      | cons p L ih =>
        obtain ⟨lo, hi, h⟩ := ih
        refine ⟨min lo (min p.1 p.2), max hi (max p.1 p.2), fun x hx => ?_⟩
        rcases List.mem_cons.1 hx with rfl | hx
        · omega
        · have := h x hx; omega
    obtain ⟨lo, hi, hb⟩ := hbd P
    exact ⟨lo, hi, hb, key lo hi hb⟩

theorem keepTest_iff {o : Nat} {p : Poly} (hp : POk true o p) (a b c d e f : Int) :
    keepTest a b c d e f p = true ↔ ∃ w h n, HasSize (expand p.outer) w h ∧ HasCells (expand p.outer) n ∧ (a ≤ n ∧ n ≤ b) ∧ (c < w ∧ w ≤ d) ∧ e < h ∧ h ≤ f := by
  have hpr := proper hp.lo
  cases hx : Extents.polyExtents (expand p.outer) with
  | none =>
    have := ((Verif.Properties.Extents.C93_polygon _).1.1 hx)
    have := hpr.four
    simp_all
  | some r =>
    simp only [hasSize_iff hx, hasCells_iff (alternating_rect hpr.alternating) (once_outer hp)]
    unfold keepTest
    rw [hx]
    have e1 : deltaRect r HORIZONTAL = r.h.hi - r.h.lo := rfl
    have e2 : deltaRect r VERTICAL = r.v.hi - r.v.lo := rfl
    simp only [Option.getD_some, e1, e2]
    constructor
    · intro h
      refine ⟨_, _, _, ⟨rfl, rfl⟩, rfl, ?_⟩
      split_ifs at h with h1 h2
      simp only [Bool.and_eq_true, decide_eq_true_eq] at h h1 h2
      omega
    · rintro ⟨w, k, n, ⟨rfl, rfl⟩, rfl, h1, h2, h3⟩
      rw [if_pos (by simp; omega), if_pos (by simp; omega)]
      simp; omega

/-- C97: `keep` succeeds, keeps the orientation, and the result covers exactly those of the polygons `get` reads from the set whose number of
unit cells, width and height lie within the limits.
Missing: polygons exactly as wide or as high as the lower limit, see `C97_lower_limit_violated`. -/
theorem C97_keep_partial {s : PSet} (hs : Valid umin umax s) (minArea maxArea minWidth maxWidth minHeight maxHeight : Int) :
    ∃ ps s' r, s.getPolys true umax = some (ps, s') ∧ keep umax minArea maxArea minWidth maxWidth minHeight maxHeight s = some r ∧
      r.orient = s.orient ∧ Valid umin umax r ∧
      ∀ q, Covers r q ↔ ∃ p ∈ ps.map pts, wind p.1 q ≠ 0 ∧ ∃ w h n, HasSize p.1 w h ∧ HasCells p.1 n ∧
        (minArea ≤ n ∧ n ≤ maxArea) ∧ (minWidth < w ∧ w ≤ maxWidth) ∧ minHeight < h ∧ h ≤ maxHeight := by
  obtain ⟨ps, s', e1, e2, h3, _, h5, _⟩ := get_spec true hs
  have hk : polysOf umax s = some ps := by rw [polysOf_spec hs, e1]; rfl
  obtain ⟨a1, a2, a3⟩ := assignPolys_spec (umin := umin) (umax := umax) (s := s.clear) (o := s.orient)
    (ps := ps.filter (keepTest minArea maxArea minWidth maxWidth minHeight maxHeight)) hs.orient
    (fun p hp => ⟨h3 p (List.mem_filter.1 hp).1, expand_range (h5 p (List.mem_filter.1 hp).1).1⟩)
  refine ⟨ps, s', _, e1, by simp only [keep, hk]; rfl, a2, a1, fun q => ?_⟩
  rw [a3]
  constructor
  · rintro ⟨p, hp, hq⟩
    obtain ⟨m1, m2⟩ := List.mem_filter.1 hp
    exact ⟨pts p, List.mem_map_of_mem m1, hq, (keepTest_iff (h3 p m1) _ _ _ _ _ _).1 m2⟩
  · rintro ⟨P, hP, hq, hk⟩
    obtain ⟨p, hp, rfl⟩ := List.mem_map.1 hP
    exact ⟨p, List.mem_filter.2 ⟨hp, (keepTest_iff (h3 p hp) _ _ _ _ _ _).2 hk⟩, hq⟩

/-- A square of side ten with holes, an island and a separate rectangle of four by six. -/
def exK (o : Nat) : PSet := (Verif.Properties.PolyForm.exH o).insertRect ⟨⟨20, 24⟩, ⟨0, 6⟩⟩ false

theorem exK_valid (o : Nat) (ho : o = HORIZONTAL ∨ o = VERTICAL) : Valid (-100) 100 (exK o) :=
  Verif.Properties.Set90.C02_reachable_is_valid
    (.insertRect _ _ (.insertRect _ _ (.insertRect _ _ (.insertRect _ _ (.insertRect _ _ (.insertRect _ _ (.new _ ho) (by simp [RectIn])) (by simp [RectIn])) (by simp [RectIn])) (by simp [RectIn])) (by simp [RectIn])) (by simp [RectIn]))

/-- Limits that only the rectangle meets, and limits only the large polygon meets. -/
example : (keep 100 4 1000 2 20 0 9 (exK HORIZONTAL)).map PSet.data = some [⟨0, 20, 1⟩, ⟨6, 20, -1⟩, ⟨6, 24, 1⟩, ⟨0, 24, -1⟩] := by decide +kernel

example : (((keep 100 4 74 2 20 6 20 (exK VERTICAL)).bind (fun r => r.clean 100)).map PSet.data).map List.length = some 16 := by decide +kernel

/-- C97 fails at the lower limits of width and height: a rectangle of four by five is dropped when the least width allowed is four, although
one of area twenty is kept when the least area allowed is twenty. -/
theorem C97_lower_limit_violated : ∃ s r : PSet, Reach (-10) 10 s ∧ keep 10 20 20 4 4 1 5 s = some r ∧
    (∃ ps s', s.getPolys true 10 = some (ps, s') ∧ ∀ p ∈ ps.map pts, ∃ w h n, HasSize p.1 w h ∧ HasCells p.1 n ∧
      (20 ≤ n ∧ n ≤ 20) ∧ (4 ≤ w ∧ w ≤ 4) ∧ 1 ≤ h ∧ h ≤ 5) ∧
    (∃ q, Covers s q) ∧ ∀ q, ¬ Covers r q := by
  have hr : Reach (-10) 10 (rectSet VERTICAL 0 4 0 5) := .insertRect _ _ (.new _ (Or.inr rfl)) (by simp [RectIn])
  refine ⟨rectSet VERTICAL 0 4 0 5, PSet.mk0 VERTICAL, hr, by decide +kernel, ?_, ⟨((0 : Int), (0 : Int)), ?_⟩, fun q h => ?_⟩
  · obtain ⟨ps, s', e1, _, h3, _⟩ := get_spec true (Verif.Properties.Set90.C02_reachable_is_valid hr)
    refine ⟨ps, s', e1, fun P hP => ?_⟩
    obtain ⟨p, hp, rfl⟩ := List.mem_map.1 hP
    have hk : ((rectSet VERTICAL 0 4 0 5).getPolys true 10).map (fun x => x.1.all (keepTest 20 20 3 4 0 5)) = some true := by decide +kernel
    rw [e1] at hk
    simp only [Option.map_some, Option.some.injEq, List.all_eq_true] at hk
    obtain ⟨w, h, n, k1, k2, k3, k4, k5⟩ := (keepTest_iff (h3 p hp) _ _ _ _ _ _).1 (hk p hp)
    exact ⟨w, h, n, k1, k2, k3, by omega, by omega⟩
  · rw [covers_cell]; decide
  · rw [Covers, depth_mk0] at h; omega

end Verif.Properties.Concept90
