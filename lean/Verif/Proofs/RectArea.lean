import Verif.Proofs.RectForm
import Verif.Proofs.Set90Extents
import Mathlib.Algebra.BigOperators.Ring.Finset
import Mathlib.Order.Interval.Finset.Basic
import Mathlib.Data.Int.Interval
/-! From the scan of `form_rectangles` to `get_rectangles` and `area` (helper lemmas for C13, C14). -/
namespace Verif.RectForm
open Verif.BooleanOp Verif.Set90 Verif.Interval Verif.Spec Verif.Isotropy Verif.Rectangle Verif.Transform

variable {umin umax : Int}

/-- 1 if the rectangle contains the cell. -/
def inC (a b : Int) (r : Rect) : Int := if r.h.lo ≤ a ∧ a < r.h.hi ∧ r.v.lo ≤ b ∧ b < r.v.hi then 1 else 0

theorem toRect_sum (o : Nat) (ho : o = HORIZONTAL ∨ o = VERTICAL) (rs : List SR) (a b : Int) :
    ((rs.map (SR.toRect o)).map (inC a b)).sum = if o = VERTICAL then sm (oc a b) rs else sm (oc b a) rs := by
  rw [List.map_map]
  induction rs with
  | nil => simp
  | cons r t ih =>
    rw [List.map_cons, List.sum_cons, ih]
    rcases ho with rfl | rfl
    · simp only [HORIZONTAL, VERTICAL, sm_cons]
      simp [inC, SR.toRect, HORIZONTAL, oc]
      congr 1
      exact propext ⟨fun h => ⟨h.2.2.1, h.2.2.2, h.1, h.2.1⟩, fun h => ⟨h.2.2.1, h.2.2.2, h.1, h.2.1⟩⟩
    · simp only [sm_cons]
      simp [inC, SR.toRect, HORIZONTAL, VERTICAL, oc]

theorem getRectangles_spec {s : PSet} (h : Valid umin umax s) :
    ∃ rs t, s.getRectangles umax = some (rs, t) ∧ s.clean umax = some t ∧
      (∀ r ∈ rs, r.h.lo < r.h.hi ∧ r.v.lo < r.v.hi) ∧
      (∀ a b : Int, (rs.map (inC a b)).sum = ind (decide (0 < depth s (a, b)))) ∧
      ∀ r ∈ rs, ∀ x, (if s.orient = VERTICAL then r.h.lo ≤ x ∧ x < r.h.hi → ¬ 0 < depth s (x, (r.v.lo - 1 : Int)) ∧ ¬ 0 < depth s (x, r.v.hi)
        else r.v.lo ≤ x ∧ x < r.v.hi → ¬ 0 < depth s ((r.h.lo - 1 : Int), x) ∧ ¬ 0 < depth s (r.h.hi, x)) := by
  obtain ⟨t, e, t1, t2, t3, t4, t5, t6⟩ := clean_spec h
  obtain ⟨rs, e2, r1, r2, r3, -⟩ := formRects_spec umax (t5.sorted t3) (t5.clean t2) t5.closed
  refine ⟨rs.map (SR.toRect t.orient), t, by simp [PSet.getRectangles, e, e2], e, fun r hr => ?_, fun a b => ?_, fun r hr x => ?_⟩
  · obtain ⟨q, hq, rfl⟩ := List.mem_map.mp hr
    have := r1 q hq
    unfold SR.toRect
    split_ifs
    · exact ⟨this.2, this.1⟩
    · exact this
  · rw [toRect_sum _ t5.orient, r2, r2, t6, t6, depth_def, t1]
    simp only [Int.floor_intCast]
    split_ifs <;> rfl
  · obtain ⟨q, hq, rfl⟩ := List.mem_map.mp hr
    have h0 : ∀ a y, coverZ t.data a y = 0 → ¬ 0 < coverZ s.data a y := fun a y hz hp => by
      rw [t6] at hz; simp [ind, hp] at hz
    rcases h.orient with ho | ho
    · rw [if_neg (by rw [ho]; decide), t1, ho]
      intro hx
      have := r3 q hq x hx.1 hx.2
      simp only [depth_def, ho, Int.floor_intCast]
      exact ⟨h0 _ _ this.1, h0 _ _ this.2⟩
    · rw [if_pos ho, t1, ho]
      intro hx
      have := r3 q hq x hx.1 hx.2
      simp only [depth_def, ho, Int.floor_intCast]
      exact ⟨h0 _ _ this.1, h0 _ _ this.2⟩

theorem inC_nonneg (a b : Int) (r : Rect) : 0 ≤ inC a b r := by unfold inC; split_ifs <;> simp

theorem inC_pos_of_mem {rs : List Rect} {r : Rect} (hr : r ∈ rs) (a b : Int) : inC a b r ≤ (rs.map (inC a b)).sum := by
  rw [((List.perm_cons_erase hr).map _).sum_eq, List.map_cons, List.sum_cons]
  have := List.sum_nonneg (l := (rs.erase r).map (inC a b)) (fun z hz => by
    obtain ⟨q, -, rfl⟩ := List.mem_map.mp hz; exact inC_nonneg a b q)
  omega

theorem pairwise_of_sum {rs : List Rect} (h : ∀ a b, (rs.map (inC a b)).sum ≤ 1) :
    rs.Pairwise (fun r q => ∀ a b, ¬ (inC a b r = 1 ∧ inC a b q = 1)) := by
  induction rs with
  | nil => exact List.Pairwise.nil
  | cons r t ih =>
    refine List.pairwise_cons.mpr ⟨fun q hq a b ⟨h1, h2⟩ => ?_, ih (fun a b => ?_)⟩
    · have h3 := inC_pos_of_mem hq a b
      have h4 := h a b
      rw [List.map_cons, List.sum_cons] at h4
      omega
    · have h4 := h a b
      rw [List.map_cons, List.sum_cons] at h4
      have := inC_nonneg a b r
      omega

theorem exists_of_sum {rs : List Rect} {a b : Int} (h : 0 < (rs.map (inC a b)).sum) : ∃ r ∈ rs, inC a b r = 1 := by
  induction rs with
  | nil => simp at h
  | cons r t ih =>
    by_cases hr : inC a b r = 1
    · exact ⟨r, List.mem_cons_self, hr⟩
    · have : inC a b r = 0 := by unfold inC at *; split_ifs at * <;> simp_all
      rw [List.map_cons, List.sum_cons, this] at h
      obtain ⟨q, hq, h'⟩ := ih (by omega)
      exact ⟨q, List.mem_cons_of_mem _ hq, h'⟩

/-- Outside the range of the coordinate type nothing is covered. -/
theorem depth_out {s : PSet} (h : Valid umin umax s) {a b : Int} (ho : a < umin ∨ umax ≤ a ∨ b < umin ∨ umax ≤ b) :
    depth s (a, b) = 0 := by
  have key : ∀ {L : List V}, Closed L → InRange umin umax L → ∀ a b : Int,
      (a < umin ∨ umax ≤ a ∨ b < umin ∨ umax ≤ b) → coverZ L a b = 0 := by
    intro L hc hr a b ho
    have top : ∀ {L : List V}, Closed L → InRange umin umax L → ∀ a b : Int, umax ≤ a → coverZ L a b = 0 := by
      intro L hc hr a b ha
      obtain ⟨x0, hx⟩ := cover_right hc
      rw [← coverZ_const (L := L) (a := a) (b := max a x0) (fun v hv => by have := hr v hv; omega) (le_max_left _ _)]
      exact hx _ _ (le_max_right _ _)
    rcases ho with h1 | h1 | h1 | h1
    · exact coverZ_zero (fun v hv => by have := hr v hv; omega)
    · exact top hc hr a b h1
    · exact coverZ_zero (fun v hv => by have := hr v hv; omega)
    · rw [← coverZ_swap]
      exact top (closed_swap hc) (fun v hv => by
        obtain ⟨w, hw, rfl⟩ := List.mem_map.mp hv
        have := hr w hw
        simp only [swapV]; omega) b a h1
  rw [depth_def]
  simp only [Int.floor_intCast]
  split_ifs
  · exact key h.closed h.range a b ho
  · exact key h.closed h.range b a (by omega)

/-! ### area -/

theorem sum_ivl (lo hi l h : Int) (hl : lo ≤ l) (hlh : l ≤ h) (hh : h ≤ hi) :
    ∑ x ∈ Finset.Ico lo hi, (if l ≤ x ∧ x < h then (1 : Int) else 0) = h - l := by
  rw [← Finset.sum_filter]
  have : (Finset.Ico lo hi).filter (fun x => l ≤ x ∧ x < h) = Finset.Ico l h := by
    ext x; simp only [Finset.mem_filter, Finset.mem_Ico]; omega
  rw [this]
  simp
  omega

theorem rect_cells (r : Rect) (lo hi : Int) (h : lo ≤ r.h.lo ∧ r.h.lo ≤ r.h.hi ∧ r.h.hi ≤ hi)
    (hv : lo ≤ r.v.lo ∧ r.v.lo ≤ r.v.hi ∧ r.v.hi ≤ hi) :
    ∑ x ∈ Finset.Ico lo hi, ∑ y ∈ Finset.Ico lo hi, inC x y r = area r := by
  have e : ∀ x y, inC x y r = (if r.h.lo ≤ x ∧ x < r.h.hi then (1 : Int) else 0) * (if r.v.lo ≤ y ∧ y < r.v.hi then 1 else 0) := by
    intro x y; unfold inC
    split_ifs <;> simp_all
  simp only [e, ← Finset.mul_sum, ← Finset.sum_mul]
  rw [sum_ivl _ _ _ _ h.1 h.2.1 h.2.2, sum_ivl _ _ _ _ hv.1 hv.2.1 hv.2.2]
  simp [area, deltaRect, delta, Rect.get, HORIZONTAL, VERTICAL]

theorem rects_cells (rs : List Rect) (lo hi : Int) (h : ∀ r ∈ rs, RectIn lo hi r) :
    ∑ x ∈ Finset.Ico lo hi, ∑ y ∈ Finset.Ico lo hi, (rs.map (inC x y)).sum = (rs.map area).sum := by
  induction rs with
  | nil => simp
  | cons r t ih =>
    simp only [List.map_cons, List.sum_cons, Finset.sum_add_distrib]
    rw [ih (fun q hq => h q (List.mem_cons_of_mem _ hq))]
    have := h r List.mem_cons_self
    unfold RectIn at this
    rw [rect_cells r lo hi ⟨this.1, this.2.1, this.2.2.1⟩ ⟨this.2.2.2.1, this.2.2.2.2.1, this.2.2.2.2.2⟩]

theorem foldl_area (rs : List Rect) (z : Int) : rs.foldl (fun a r => a + area r) z = z + (rs.map area).sum := by
  induction rs generalizing z with
  | nil => simp
  | cons r t ih => rw [List.foldl_cons, ih, List.map_cons, List.sum_cons]; omega

/-- The rectangles lie in the range of the coordinate type. -/
theorem rects_in {s : PSet} (h : Valid umin umax s) {rs : List Rect} (h1 : ∀ r ∈ rs, r.h.lo < r.h.hi ∧ r.v.lo < r.v.hi)
    (h2 : ∀ a b : Int, (rs.map (inC a b)).sum = ind (decide (0 < depth s (a, b)))) : ∀ r ∈ rs, RectIn umin umax r := by
  intro r hr
  obtain ⟨g1, g2⟩ := h1 r hr
  have key : ∀ a b : Int, inC a b r = 1 → umin ≤ a ∧ a < umax ∧ umin ≤ b ∧ b < umax := by
    intro a b hab
    by_contra hn
    have := inC_pos_of_mem hr a b
    rw [h2, depth_out h (by omega)] at this
    simp [ind] at this
    omega
  have k1 := key r.h.lo r.v.lo (by unfold inC; rw [if_pos (by omega)])
  have k2 := key (r.h.hi - 1) (r.v.hi - 1) (by unfold inC; rw [if_pos (by omega)])
  unfold RectIn
  omega

theorem area_spec {s : PSet} (h : Valid umin umax s) :
    s.area umax = some (∑ x ∈ Finset.Ico umin umax, ∑ y ∈ Finset.Ico umin umax, ind (decide (0 < depth s (x, y)))) := by
  have hm := mk0_valid (umin := umin) (umax := umax) s.orient h.orient
  have hv := insertSet_valid hm h
  obtain ⟨rs, t, e, -, h1, h2, -⟩ := getRectangles_spec hv
  have hin := rects_in hv h1 h2
  have hd : ∀ p, depth ((PSet.mk0 s.orient).insertSet s) p = depth s p := fun p => by
    rw [insertSet_depth hm.orient h.orient]
    simp [depth_def, PSet.mk0, coverZ]
  have e' : ((PSet.mk0 s.orient).insertRange s.data s.orient).getRectangles umax = some (rs, t) := e
  simp only [PSet.area, e', Option.bind_eq_bind, Option.bind_some]
  rw [foldl_area, ← rects_cells rs umin umax hin]
  simp only [h2, hd]
  simp

/-! ### the other slicing orientation -/

theorem swap_transform (s : PSet) : s.transform SWAP_XY = { s with data := s.data.map swapV, unsorted := true } := by
  unfold PSet.transform PSet.transformWith
  have h1 : getDirections SWAP_XY = (3, 1) := by decide
  rw [h1]
  have h2 : ∀ p : Int × Int, axisTransform SWAP_XY p = (p.2, p.1) := fun p => by
    simp [axisTransform, SWAP_XY, bit0, bit1, bit2, predicatedSwap]
  have h3 : dir2Sign 3 * dir2Sign 1 = 1 := by decide
  simp only [h2, h3, Int.mul_one, ite_self]
  rfl

theorem swap_depth (s : PSet) (p : ℚ × ℚ) : depth (s.transform SWAP_XY) p = depth s (p.2, p.1) := by
  rw [swap_transform, depth_def, depth_def]
  simp only [coverZ_swap]

theorem swap_valid {s : PSet} (h : Valid umin umax s) : Valid umin umax (s.transform SWAP_XY) := by
  have e : s.transform SWAP_XY = s.transformT ⟨SWAP_XY, (0, 0)⟩ := by
    have : Transformation.transform ⟨SWAP_XY, (0, 0)⟩ = axisTransform SWAP_XY := by
      funext q; simp [Transformation.transform]
    unfold PSet.transform PSet.transformT
    rw [this]
  have hr : InRange umin umax (s.transform SWAP_XY).data := by
    rw [swap_transform]
    intro v hv
    obtain ⟨w, hw, rfl⟩ := List.mem_map.mp hv
    have := h.range w hw
    simp only [swapV]; omega
  rw [e] at hr ⊢
  exact transformT_valid h _ (by decide) hr

theorem swap_rect (r : Rect) (h : r.h.lo < r.h.hi ∧ r.v.lo < r.v.hi) : transformRect r SWAP_XY = ⟨r.v, r.h⟩ := by
  obtain ⟨⟨a, b⟩, ⟨c, d⟩⟩ := r
  simp only at h
  simp [transformRect, axisTransform, SWAP_XY, bit0, bit1, bit2, predicatedSwap, setPoints, construct]
  omega

end Verif.RectForm
