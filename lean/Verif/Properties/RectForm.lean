import Verif.Proofs.RectArea
import Verif.Properties.Set90
/-!
# C13, C14: rectangles and area of a Manhattan polygon set

`Tiles`, `Covers`, `InRect` are in `Spec/Region.lean`.
-/
namespace Verif.Properties.RectForm
open Verif.BooleanOp Verif.Set90 Verif.Spec Verif.Isotropy Verif.Rectangle Verif.Transform Verif.RectForm
open Verif.Properties.Set90

variable {umin umax : Int}

theorem inC_iff (r : Rect) (p : ℚ × ℚ) : inC ⌊p.1⌋ ⌊p.2⌋ r = 1 ↔ InRect r p := by
  unfold inC InRect
  rw [← Int.le_floor, ← Int.floor_lt, ← Int.le_floor, ← Int.floor_lt]
  split_ifs with h
  · simp [h]
  · simp [h]

theorem depth_floor (s : PSet) (p : ℚ × ℚ) : depth s ((⌊p.1⌋ : Int), (⌊p.2⌋ : Int)) = depth s p := by
  simp [depth_def]

theorem tiles_of {s : PSet} {rs : List Rect} (h1 : ∀ r ∈ rs, r.h.lo < r.h.hi ∧ r.v.lo < r.v.hi)
    (h2 : ∀ a b : Int, (rs.map (inC a b)).sum = ind (decide (0 < depth s (a, b)))) : Tiles rs s := by
  refine ⟨h1, (pairwise_of_sum (fun a b => ?_)).imp (fun {r q} h p hp => ?_), fun p => ?_⟩
  · rw [h2]; unfold ind; split_ifs <;> simp
  · exact h _ _ ⟨(inC_iff r p).mpr hp.1, (inC_iff q p).mpr hp.2⟩
  · unfold Covers
    constructor
    · intro h
      obtain ⟨r, hr, h'⟩ := exists_of_sum (rs := rs) (a := ⌊p.1⌋) (b := ⌊p.2⌋) (by
        rw [h2, depth_floor]; simp [ind, h])
      exact ⟨r, hr, (inC_iff r p).mp h'⟩
    · rintro ⟨r, hr, h'⟩
      have := inC_pos_of_mem hr ⌊p.1⌋ ⌊p.2⌋
      rw [(inC_iff r p).mpr h', h2, depth_floor] at this
      by_contra hn
      simp [ind, hn] at this

theorem tiles_congr {rs : List Rect} {s t : PSet} (h : Tiles rs s) (e : ∀ p, Covers t p ↔ Covers s p) : Tiles rs t :=
  ⟨h.1, h.2.1, fun p => by rw [e, h.2.2]⟩

/-- C13: `get_rectangles` writes rectangles that tile the region of the set; they stay in the range
of the coordinate type, and the set still covers the same points afterwards. -/
theorem C13_get_rectangles {s : PSet} (h : Valid umin umax s) :
    ∃ rs t, s.getRectangles umax = some (rs, t) ∧ Tiles rs s ∧ (∀ r ∈ rs, RectIn umin umax r) ∧
      ∀ p, Covers t p ↔ Covers s p := by
  obtain ⟨rs, t, e, ec, h1, h2, -⟩ := getRectangles_spec h
  refine ⟨rs, t, e, tiles_of h1 h2, rects_in h h1 h2, fun p => ?_⟩
  obtain ⟨t', e', h3⟩ := C03_clean h
  rw [ec] at e'
  cases e'
  unfold Covers
  rw [h3]
  split_ifs with h4 <;> simp [h4]

/-- C13: so do the rectangles of `get_rectangles` with either slicing orientation. -/
theorem C13_slicing {s : PSet} (h : Valid umin umax s) (slicing : Nat) :
    ∃ rs, s.getRectanglesO umax slicing = some rs ∧ Tiles rs s := by
  unfold PSet.getRectanglesO
  by_cases hs : slicing = s.orient
  · obtain ⟨rs, t, e, h1, -⟩ := C13_get_rectangles h
    exact ⟨rs, by rw [if_pos hs]; simp [e], h1⟩
  · obtain ⟨rs, t, e, h1, -⟩ := C13_get_rectangles (swap_valid h)
    obtain ⟨g1, g2, g3⟩ := h1
    have em : rs.map (fun r => transformRect r SWAP_XY) = rs.map (fun r => ⟨r.v, r.h⟩) :=
      List.map_congr_left (fun r hr => swap_rect r (g1 r hr))
    refine ⟨rs.map (fun r => ⟨r.v, r.h⟩), by rw [if_neg hs]; simp [e, em], ?_, ?_, fun p => ?_⟩
    · intro r hr
      obtain ⟨q, hq, rfl⟩ := List.mem_map.mp hr
      exact (g1 q hq).symm
    · rw [List.pairwise_map]
      refine g2.imp (fun {r q} hrq p hp => hrq (p.2, p.1) ?_)
      unfold InRect at *
      simp only at *
      exact ⟨⟨hp.1.2.2.1, hp.1.2.2.2, hp.1.1, hp.1.2.1⟩, ⟨hp.2.2.2.1, hp.2.2.2.2, hp.2.1, hp.2.2.1⟩⟩
    · have := g3 (p.2, p.1)
      unfold Covers at this ⊢
      rw [swap_depth] at this
      rw [show (p : ℚ × ℚ) = (p.1, p.2) from rfl]
      rw [this]
      constructor
      · rintro ⟨r, hr, h'⟩
        exact ⟨⟨r.v, r.h⟩, List.mem_map.mpr ⟨r, hr, rfl⟩, by
          unfold InRect at *; exact ⟨h'.2.2.1, h'.2.2.2, h'.1, h'.2.1⟩⟩
      · rintro ⟨r, hr, h'⟩
        obtain ⟨q, hq, rfl⟩ := List.mem_map.mp hr
        exact ⟨q, hq, by unfold InRect at *; exact ⟨h'.2.2.1, h'.2.2.2, h'.1, h'.2.1⟩⟩

/-- C54: the rectangles are full slices: in a vertical set none can be extended up or down at any
`x` of its horizontal range (the points just below and just above it are not covered); in a
horizontal set none can be extended left or right. -/
theorem C54_full_slices {s : PSet} (h : Valid umin umax s) :
    ∃ rs t, s.getRectangles umax = some (rs, t) ∧ ∀ r ∈ rs, ∀ x y : ℚ,
      (s.orient = VERTICAL → r.h.lo ≤ x → x < r.h.hi →
        (r.v.lo - 1 ≤ y → y < r.v.lo → ¬ Covers s (x, y)) ∧ (r.v.hi ≤ y → y < r.v.hi + 1 → ¬ Covers s (x, y))) ∧
      (s.orient = HORIZONTAL → r.v.lo ≤ y → y < r.v.hi →
        (r.h.lo - 1 ≤ x → x < r.h.lo → ¬ Covers s (x, y)) ∧ (r.h.hi ≤ x → x < r.h.hi + 1 → ¬ Covers s (x, y))) := by
  obtain ⟨rs, t, e, -, -, -, h3⟩ := getRectangles_spec h
  refine ⟨rs, t, e, fun r hr x y => ⟨fun ho h1 h2 => ?_, fun ho h1 h2 => ?_⟩⟩
  · have k := h3 r hr ⌊x⌋
    rw [if_pos ho] at k
    obtain ⟨k1, k2⟩ := k ⟨Int.le_floor.mpr h1, Int.floor_lt.mpr h2⟩
    constructor
    · intro h4 h5
      have : ⌊y⌋ = r.v.lo - 1 := Int.floor_eq_iff.mpr ⟨by push_cast; exact h4, by push_cast; linarith⟩
      unfold Covers
      rw [← depth_floor]
      simp only [this]
      exact k1
    · intro h4 h5
      have : ⌊y⌋ = r.v.hi := Int.floor_eq_iff.mpr ⟨h4, h5⟩
      unfold Covers
      rw [← depth_floor]
      simp only [this]
      exact k2
  · have k := h3 r hr ⌊y⌋
    rw [if_neg (by rw [ho]; decide)] at k
    obtain ⟨k1, k2⟩ := k ⟨Int.le_floor.mpr h1, Int.floor_lt.mpr h2⟩
    constructor
    · intro h4 h5
      have : ⌊x⌋ = r.h.lo - 1 := Int.floor_eq_iff.mpr ⟨by push_cast; exact h4, by push_cast; linarith⟩
      unfold Covers
      rw [← depth_floor]
      simp only [this]
      exact k1
    · intro h4 h5
      have : ⌊x⌋ = r.h.hi := Int.floor_eq_iff.mpr ⟨h4, h5⟩
      unfold Covers
      rw [← depth_floor]
      simp only [this]
      exact k2

/-- C13: so do those of the free function `get_rectangles`, which slices vertically. -/
theorem C13_free_function {s : PSet} (h : Valid umin umax s) :
    ∃ rs t, getRectanglesV umax s = some (rs, t) ∧ Tiles rs s ∧ ∀ p, Covers t p ↔ Covers s p := by
  obtain ⟨t, e, v, o, d, u, c⟩ := clean_spec' h
  have hm := mk0_valid (umin := umin) (umax := umax) VERTICAL (Or.inr rfl)
  have hv := insertSet_valid hm v
  obtain ⟨rs, t', e2, h1, -⟩ := C13_get_rectangles hv
  have e2' : ((PSet.mk0 VERTICAL).insertRange t.data t.orient).getRectangles umax = some (rs, t') := e2
  refine ⟨rs, t, by simp [getRectanglesV, e, e2'], tiles_congr h1 (fun p => ?_), c⟩
  rw [← c]
  unfold Covers
  rw [insertSet_depth hm.orient v.orient]
  simp [depth_def, PSet.mk0, coverZ]

example : (exA.getRectangles 100).map (·.1) =
    some [⟨⟨0, 4⟩, ⟨0, 1⟩⟩, ⟨⟨0, 6⟩, ⟨1, 3⟩⟩, ⟨⟨2, 6⟩, ⟨3, 5⟩⟩] := by decide +kernel
example : exA.getRectanglesO 100 VERTICAL =
    some [⟨⟨0, 2⟩, ⟨0, 3⟩⟩, ⟨⟨2, 4⟩, ⟨0, 5⟩⟩, ⟨⟨4, 6⟩, ⟨1, 5⟩⟩] := by decide +kernel
example : Valid (-100) 100 exA := C02_reachable_is_valid exA_reach

/-! ## C14 -/

/-- C14: `area` of a set is the number of unit cells `[x, x+1) × [y, y+1)` it covers. -/
theorem C14_counts_cells {s : PSet} (h : Valid umin umax s) :
    ∃ n, s.area umax = some n ∧
      n = ∑ x ∈ Finset.Ico umin umax, ∑ y ∈ Finset.Ico umin umax, if 0 < depth s (x, y) then (1 : Int) else 0 := by
  refine ⟨_, area_spec h, ?_⟩
  simp [ind]

/-- C14: in particular equal regions have equal areas, whatever history, orientation or
pending state the sets have. -/
theorem C14_depends_on_region {a b : PSet} (ha : Valid umin umax a) (hb : Valid umin umax b)
    (h : ∀ p, Covers a p ↔ Covers b p) : a.area umax = b.area umax := by
  rw [area_spec ha, area_spec hb]
  congr 1
  refine Finset.sum_congr rfl (fun x _ => Finset.sum_congr rfl (fun y _ => ?_))
  have := h (x, y)
  unfold Covers at this
  simp [this]

/-- C14: inclusion-exclusion: `area(a | b) + area(a & b) = area(a) + area(b)`. -/
theorem C14_inclusion_exclusion {a b : PSet} (ha : Valid umin umax a) (hb : Valid umin umax b) :
    ∃ u i nu ni na nb, (∃ x y, binaryOp BOp.or.code umax a b = some (u, x, y)) ∧
      (∃ x y, binaryOp BOp.and.code umax a b = some (i, x, y)) ∧
      u.area umax = some nu ∧ i.area umax = some ni ∧ a.area umax = some na ∧ b.area umax = some nb ∧
      nu + ni = na + nb := by
  obtain ⟨u, l1, r1, e1, -, -, vu, -, -, -, d1⟩ := binaryOp_spec (bop_zero BOp.or) ha hb
  obtain ⟨i, l2, r2, e2, -, -, vi, -, -, -, d2⟩ := binaryOp_spec (bop_zero BOp.and) ha hb
  refine ⟨u, i, _, _, _, _, ⟨l1, r1, e1⟩, ⟨l2, r2, e2⟩, area_spec vu, area_spec vi, area_spec ha, area_spec hb, ?_⟩
  rw [← Finset.sum_add_distrib, ← Finset.sum_add_distrib]
  refine Finset.sum_congr rfl (fun x _ => ?_)
  rw [← Finset.sum_add_distrib, ← Finset.sum_add_distrib]
  refine Finset.sum_congr rfl (fun y _ => ?_)
  rw [d1, d2]
  have o := bop_iff BOp.or (depth a (x, y)) (depth b (x, y))
  have n := bop_iff BOp.and (depth a (x, y)) (depth b (x, y))
  simp only [BOp.holds] at o n
  by_cases h1 : 0 < depth a (x, y) <;> by_cases h2 : 0 < depth b (x, y) <;> simp [ind, o, n, h1, h2]

/-- C14: area is additive over sets with no common point. -/
theorem C14_additive {a b : PSet} (ha : Valid umin umax a) (hb : Valid umin umax b)
    (hd : ∀ p, ¬ (Covers a p ∧ Covers b p)) :
    ∃ u nu na nb, (∃ x y, binaryOp BOp.or.code umax a b = some (u, x, y)) ∧
      u.area umax = some nu ∧ a.area umax = some na ∧ b.area umax = some nb ∧ nu = na + nb := by
  obtain ⟨u, i, nu, ni, na, nb, h1, ⟨x, y, h2⟩, h3, h4, h5, h6, h7⟩ := C14_inclusion_exclusion ha hb
  refine ⟨u, nu, na, nb, h1, h3, h5, h6, ?_⟩
  obtain ⟨out, l', r', e, hc, -, -⟩ := C01_boolean_operators BOp.and ha hb
  have hi : out = i := by rw [h2] at e; cases e; rfl
  subst hi
  obtain ⟨out', l2, r2, e2, -, -, vi, -⟩ := binaryOp_spec (bop_zero BOp.and) ha hb
  have hv : Valid umin umax out := by rw [h2] at e2; cases e2; exact vi
  have : ni = 0 := by
    rw [area_spec hv] at h4
    have h4' := Option.some.inj h4
    rw [← h4']
    refine Finset.sum_eq_zero (fun x _ => Finset.sum_eq_zero (fun y _ => ?_))
    have : ¬ Covers out (x, y) := fun h => hd _ ((hc _).mp h)
    unfold Covers at this
    simp [ind, this]
  omega

example : ∀ p, ¬ (Covers ((PSet.mk0 VERTICAL).insertRect ⟨⟨0, 2⟩, ⟨0, 2⟩⟩ false) p ∧
    Covers ((PSet.mk0 HORIZONTAL).insertRect ⟨⟨2, 3⟩, ⟨1, 4⟩⟩ false) p) := by
  rintro p ⟨h1, h2⟩
  have z : ∀ o, depth (PSet.mk0 o) p = 0 := fun o => by simp [depth_def, PSet.mk0, coverZ]
  have a1 := C07_insert_rectangle (PSet.mk0 VERTICAL) (Or.inr rfl) ⟨⟨0, 2⟩, ⟨0, 2⟩⟩ (by decide) (by decide) p
  have a2 := C07_insert_rectangle (PSet.mk0 HORIZONTAL) (Or.inl rfl) ⟨⟨2, 3⟩, ⟨1, 4⟩⟩ (by decide) (by decide) p
  rw [z] at a1 a2
  by_cases i1 : InRect ⟨⟨0, 2⟩, ⟨0, 2⟩⟩ p
  · have i2 : ¬ InRect ⟨⟨2, 3⟩, ⟨1, 4⟩⟩ p := by
      unfold InRect at *
      intro i2
      have := i1.2.1; have := i2.1
      norm_num at *
      linarith
    unfold Covers at h2
    rw [(a2.2 i2).1] at h2
    omega
  · unfold Covers at h1
    rw [(a1.2 i1).1] at h1
    omega

/-- C14: area does not change when the set is moved. -/
theorem C14_move {s : PSet} (h : Valid umin umax s) (dx dy : Int) (hr : InRange umin umax (s.move dx dy).data) :
    (s.move dx dy).area umax = s.area umax := by
  obtain ⟨hd, -, -, hv⟩ := C10_move h dx dy
  have hv := hv hr
  have hd' : ∀ x y : Int, depth (s.move dx dy) (x, y) = depth s ((x - dx : Int), (y - dy : Int)) := fun x y => by
    rw [hd]; push_cast; rfl
  rw [area_spec hv, area_spec h, ← Finset.sum_product', ← Finset.sum_product']
  congr 1
  have ne : ∀ {t : PSet}, Valid umin umax t → ∀ q : Int × Int, ind (decide (0 < depth t (q.1, q.2))) ≠ 0 →
      q ∈ Finset.Ico umin umax ×ˢ Finset.Ico umin umax := by
    intro t ht q hq
    by_contra hn
    rw [Finset.mem_product, Finset.mem_Ico, Finset.mem_Ico] at hn
    rw [depth_out ht (by omega)] at hq
    exact hq rfl
  refine Finset.sum_bij_ne_zero (fun q _ _ => (q.1 - dx, q.2 - dy)) ?_ ?_ ?_ ?_
  · intro q _ hq
    rw [hd'] at hq
    exact ne h (q.1 - dx, q.2 - dy) hq
  · intro q _ _ r _ _ e
    simp only [Prod.mk.injEq] at e
    exact Prod.ext (by omega) (by omega)
  · intro q _ hq
    refine ⟨(q.1 + dx, q.2 + dy), ne hv (q.1 + dx, q.2 + dy) ?_, ?_, ?_⟩
    · rw [hd']; simpa using hq
    · rw [hd']; simpa using hq
    · simp
  · intro q _ _
    rw [hd']

example : exA.area 100 = some 24 ∧ exB.area 100 = some 15 := by decide +kernel
example : Valid (-100) 100 exB := C02_reachable_is_valid exB_reach

end Verif.Properties.RectForm
