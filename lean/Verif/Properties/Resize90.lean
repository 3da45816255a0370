import Verif.Model.Resize90
import Verif.Proofs.ResizeValid
import Verif.Properties.ResizePoly
import Verif.Properties.Resize
import Verif.Properties.Concept90
/-!
# C98: resizing a Manhattan set by different amounts on opposite sides
-/
namespace Verif.Properties.Resize90
open Verif.Spec hiding Near
open Verif.PolyForm Verif.Polygon Verif.Set90 Verif.Isotropy Verif.Concept90 Verif.Resize90 Verif.ResizePoly Verif.Shift1D
open Verif.Properties.ResizePoly (got)
open Verif.Properties.Resize (Near)
open Verif.Properties.Concept90 (copy_spec depth_clear depth_mk0)

variable {umin umax : Int}

theorem exists_stretch (F : Int → Prop) (x : ℚ) (c d : Int) :
    (∃ z, ⌊x⌋ - c ≤ z ∧ z ≤ ⌊x⌋ + d ∧ F z) ↔ ∃ u : ℚ, -(c : ℚ) ≤ u ∧ u ≤ d ∧ F ⌊x + u⌋ := by
  constructor
  · rintro ⟨z, h1, h2, h3⟩
    refine ⟨((z - ⌊x⌋ : Int) : ℚ), ?_, by exact_mod_cast (by omega : z - ⌊x⌋ ≤ d), ?_⟩
    · exact_mod_cast (by omega : -c ≤ z - ⌊x⌋)
    · rw [Int.floor_add_intCast, show ⌊x⌋ + (z - ⌊x⌋) = z by ring]; exact h3
  · rintro ⟨u, h1, h2, h3⟩
    refine ⟨_, ?_, ?_, h3⟩
    · rw [← Int.floor_sub_intCast]
      exact Int.floor_le_floor (by linarith)
    · rw [← Int.floor_add_intCast]
      exact Int.floor_le_floor (by linarith)

theorem forall_stretch (F : Int → Prop) (x : ℚ) (c d : Int) :
    (∀ z, ⌊x⌋ - c ≤ z → z ≤ ⌊x⌋ + d → F z) ↔ ∀ u : ℚ, -(c : ℚ) ≤ u → u ≤ d → F ⌊x + u⌋ := by
  have := exists_stretch (fun z => ¬ F z) x c d
  constructor
  · intro h u h1 h2
    by_contra g
    obtain ⟨z, z1, z2, z3⟩ := this.mpr ⟨u, h1, h2, g⟩
    exact z3 (h z z1 z2)
  · intro h z h1 h2
    by_contra g
    obtain ⟨u, z1, z2, z3⟩ := this.mp ⟨z, h1, h2, g⟩
    exact z3 (h u z1 z2)

/-- Amounts along one axis only. -/
def OneAxis (w e s n : Int) : Prop := (s = 0 ∧ n = 0) ∨ (w = 0 ∧ e = 0)

/-- The points of the set keep within the limits. -/
def Held (a b : Int) (s : PSet) : Prop := ∀ x y : Int, Covers s ((x : ℚ), (y : ℚ)) → a ≤ x ∧ x < b ∧ a ≤ y ∧ y < b

theorem held {a b : Int} {s : PSet} (hs : Valid umin umax s) (hr : InRange a b s.data) : Held a b s := by
  intro x y h
  by_contra hcon
  have hv' : Valid a b s := ⟨hs.orient, hs.sorted, hs.clean, hs.closed, hr⟩
  unfold Covers at h
  rw [Verif.RectForm.depth_out hv' (by omega)] at h
  omega

/-- What `get` returns from a set that keeps a distance from the limits keeps the same distance. -/
theorem got_range {m : Int} {s : PSet} (hs : Valid umin umax s) (hr : Held (umin + m) (umax - m) s) :
    ∃ ps t, s.getPolys false umax = some (ps, t) ∧ t.orient = s.orient ∧ RegularPolys (ps.map verticesOf) ∧
      (∀ q, 0 < total (ps.map verticesOf) q ↔ Covers s q) ∧ ∀ P ∈ boundaries (ps.map verticesOf), Good P ∧ PtsIn (umin + m) (umax - m) P := by
  obtain ⟨ps, t, h1, h2, h3, h4⟩ := got hs
  have := regular_range h3 (a := umin + m) (b := umax - m) (fun x y hxy => hr x y ((h4 _).1 hxy))
  exact ⟨ps, t, h1, h2, h3, h4, fun P hP => ⟨regular_good h3 P hP, this P hP⟩⟩

theorem near_iff {w e s n : Int} {q p : ℚ × ℚ} : Near w e s n q p ↔ -(w : ℚ) ≤ p.1 - q.1 ∧ p.1 - q.1 ≤ e ∧ -(s : ℚ) ≤ p.2 - q.2 ∧ p.2 - q.2 ≤ n := Iff.rfl

theorem bloat_total {polys : List PolyHoles} (h : RegularPolys polys) {w e s n : Int} (hw : 0 ≤ w) (he : 0 ≤ e) (hs : 0 ≤ s) (hn : 0 ≤ n)
    (hax : OneAxis w e s n) (p : ℚ × ℚ) :
    0 < (polys.map (fun p' => wind (mod w e s n p'.1) p +
        (p'.2.map (fun h => if Small w e s n h then 0 else wind (mod w e s n h) p)).sum)).sum ↔ ∃ q, 0 < total polys q ∧ Near w e s n q p := by
  rcases hax with ⟨rfl, rfl⟩ | ⟨rfl, rfl⟩
  · rw [bloatH h w e p (both w e) (fun E => rfl) (⌊p.1⌋ - e) (⌊p.1⌋ + w) (by rw [abs_of_nonneg (by omega)]; ring)
      (fun E a b => dilate_both a b w e _ hw he), exists_stretch (fun z => 0 < total polys ((z : ℚ), p.2))]
    constructor
    · rintro ⟨u, u1, u2, u3⟩
      rw [← (total_floor (p.1 + u) p.2).2] at u3
      exact ⟨_, u3, by unfold Near; push_cast; refine ⟨?_, ?_, ?_, ?_⟩ <;> linarith⟩
    · rintro ⟨q, q1, n1, n2, n3, n4⟩
      push_cast at n3 n4
      refine ⟨q.1 - p.1, by linarith, by linarith, ?_⟩
      rw [← (total_floor (p.1 + (q.1 - p.1)) p.2).2]
      have : (p.1 + (q.1 - p.1), p.2) = q := Prod.ext (by ring) (by linarith)
      rw [this]; exact q1
  · rw [bloatV h s n p (both s n) (fun E => rfl) (⌊p.2⌋ - n) (⌊p.2⌋ + s) (by rw [abs_of_nonneg (by omega)]; ring)
      (fun E a b => dilate_both a b s n _ hs hn), exists_stretch (fun z => 0 < total polys (p.1, (z : ℚ)))]
    constructor
    · rintro ⟨u, u1, u2, u3⟩
      rw [← (total_floor p.1 (p.2 + u)).1] at u3
      exact ⟨_, u3, by unfold Near; push_cast; refine ⟨?_, ?_, ?_, ?_⟩ <;> linarith⟩
    · rintro ⟨q, q1, n1, n2, n3, n4⟩
      push_cast at n1 n2
      refine ⟨q.2 - p.2, by linarith, by linarith, ?_⟩
      rw [← (total_floor p.1 (p.2 + (q.2 - p.2))).1]
      have : (p.1, p.2 + (q.2 - p.2)) = q := Prod.ext (by linarith) (by ring)
      rw [this]; exact q1

theorem shrink_total {polys : List PolyHoles} (h : RegularPolys polys) {w e s n : Int} (hw : 0 ≤ w) (he : 0 ≤ e) (hs : 0 ≤ s) (hn : 0 ≤ n)
    (hax : OneAxis w e s n) (p : ℚ × ℚ) :
    0 < (polys.map (fun p' => if Gone w e s n p' then 0 else
        ((p'.1 :: p'.2).map (fun h => wind (mod (-w) (-e) (-s) (-n) h) p)).sum)).sum ↔ ∀ q, Near w e s n p q → 0 < total polys q := by
  rcases hax with ⟨rfl, rfl⟩ | ⟨rfl, rfl⟩
  · rw [shrinkH h w e p (both (-w) (-e)) (fun E => rfl) (⌊p.1⌋ - w) (⌊p.1⌋ + e) (by rw [abs_of_nonneg (by omega)]; ring)
      (fun E a b => erode_both a b w e _ hw he), forall_stretch (fun z => 0 < total polys ((z : ℚ), p.2))]
    constructor
    · rintro f q ⟨n1, n2, n3, n4⟩
      push_cast at n3 n4
      have := f (q.1 - p.1) (by linarith) (by linarith)
      rw [← (total_floor (p.1 + (q.1 - p.1)) p.2).2] at this
      have e : (p.1 + (q.1 - p.1), p.2) = q := Prod.ext (by ring) (by linarith)
      rwa [e] at this
    · intro f u u1 u2
      rw [← (total_floor (p.1 + u) p.2).2]
      exact f _ (by unfold Near; push_cast; refine ⟨?_, ?_, ?_, ?_⟩ <;> linarith)
  · rw [shrinkV h s n p (both (-s) (-n)) (fun E => rfl) (⌊p.2⌋ - s) (⌊p.2⌋ + n) (by rw [abs_of_nonneg (by omega)]; ring)
      (fun E a b => erode_both a b s n _ hs hn), forall_stretch (fun z => 0 < total polys (p.1, (z : ℚ)))]
    constructor
    · rintro f q ⟨n1, n2, n3, n4⟩
      push_cast at n1 n2
      have := f (q.2 - p.2) (by linarith) (by linarith)
      rw [← (total_floor p.1 (p.2 + (q.2 - p.2))).1] at this
      have e : (p.1, p.2 + (q.2 - p.2)) = q := Prod.ext (by linarith) (by ring)
      rwa [e] at this
    · intro f u u1 u2
      rw [← (total_floor p.1 (p.2 + u)).1]
      exact f _ (by unfold Near; push_cast; refine ⟨?_, ?_, ?_, ?_⟩ <;> linarith)

/-- The amount lies between zero and `m`. -/
def Amount (m a : Int) : Prop := 0 ≤ a ∧ a ≤ m

theorem Amount.abs {m a : Int} (h : Amount m a) : |a| ≤ m := by rw [abs_of_nonneg h.1]; exact h.2

theorem widen {a b c d : Int} {s : PSet} (h : Valid a b s) (h1 : c ≤ a) (h2 : b ≤ d) : Valid c d s :=
  ⟨h.orient, h.sorted, h.clean, h.closed, fun v hv => by have := h.range v hv; omega⟩

theorem bloatBy_spec' {s : PSet} (hs : Valid umin umax s) {w e so n m k : Int} (_hk : 0 ≤ k) (hw : Amount m w) (he : Amount m e) (hso : Amount m so) (hn : Amount m n)
    (hax : OneAxis w e so n) (hr : Held (umin + (k + m)) (umax - (k + m)) s) :
    ∃ t, bloatBy umax w e so n s = some t ∧ Valid (umin + k) (umax - k) t ∧ t.orient = s.orient ∧ ∀ p, Covers t p ↔ ∃ q, Covers s q ∧ Near w e so n q p := by
  obtain ⟨ps, t, h1, h2, h3, h4, h5⟩ := got_range hs hr
  have ho : t.clear.orient = HORIZONTAL ∨ t.clear.orient = VERTICAL := by show t.orient = _ ∨ t.orient = _; rw [h2]; exact hs.orient
  obtain ⟨t', e1, e2, e3⟩ := bloatPolys_depth w e so n t.clear ho (ps.map verticesOf) (fun P hP => (h5 P hP).1)
  refine ⟨t', by unfold bloatBy; rw [h1]; exact e1, bloatPolys_valid hw.abs he.abs hso.abs hn.abs _ _ _ (mk0_valid _ ho) (fun P hP => ⟨(h5 P hP).1, fun x hx => by have := (h5 P hP).2 x hx; omega⟩) e1, by rw [e2]; exact h2, fun p => ?_⟩
  unfold Covers
  rw [e3, depth_clear, zero_add, bloat_total h3 hw.1 he.1 hso.1 hn.1 hax]
  exact exists_congr fun q => and_congr_left fun _ => h4 q

theorem bloatBy_spec {s : PSet} (hs : Valid umin umax s) {w e so n m : Int} (hw : Amount m w) (he : Amount m e) (hso : Amount m so) (hn : Amount m n)
    (hax : OneAxis w e so n) (hr : InRange (umin + m) (umax - m) s.data) :
    ∃ t, bloatBy umax w e so n s = some t ∧ Valid umin umax t ∧ t.orient = s.orient ∧ ∀ p, Covers t p ↔ ∃ q, Covers s q ∧ Near w e so n q p := by
  obtain ⟨t, h1, h2, h3⟩ := bloatBy_spec' hs (le_refl 0) hw he hso hn hax (held hs (fun v hv => by have := hr v hv; omega))
  exact ⟨t, h1, widen h2 (by omega) (by omega), h3⟩

theorem shrinkBy_spec' {s : PSet} (hs : Valid umin umax s) {w e so n m k : Int} (_hk : 0 ≤ k) (hw : Amount m w) (he : Amount m e) (hso : Amount m so) (hn : Amount m n)
    (hax : OneAxis w e so n) (hr : Held (umin + (k + m)) (umax - (k + m)) s) :
    ∃ t, shrinkBy umax w e so n s = some t ∧ Valid (umin + k) (umax - k) t ∧ t.orient = s.orient ∧ ∀ p, Covers t p ↔ ∀ q, Near w e so n p q → Covers s q := by
  obtain ⟨ps, t, h1, h2, h3, h4, h5⟩ := got_range hs hr
  have ho : t.clear.orient = HORIZONTAL ∨ t.clear.orient = VERTICAL := by show t.orient = _ ∨ t.orient = _; rw [h2]; exact hs.orient
  obtain ⟨t', e1, e2, e3⟩ := shrinkPolys_depth w e so n t.clear ho (ps.map verticesOf) (fun P hP => (h5 P hP).1)
  refine ⟨t', by unfold shrinkBy; rw [h1]; exact e1, shrinkPolys_valid hw.abs he.abs hso.abs hn.abs _ _ _ (mk0_valid _ ho) (fun P hP => ⟨(h5 P hP).1, fun x hx => by have := (h5 P hP).2 x hx; omega⟩) e1, by rw [e2]; exact h2, fun p => ?_⟩
  unfold Covers
  rw [e3, depth_clear, zero_add, shrink_total h3 hw.1 he.1 hso.1 hn.1 hax]
  exact forall_congr' fun q => forall_congr' fun _ => h4 q

theorem shrinkBy_spec {s : PSet} (hs : Valid umin umax s) {w e so n m : Int} (hw : Amount m w) (he : Amount m e) (hso : Amount m so) (hn : Amount m n)
    (hax : OneAxis w e so n) (hr : InRange (umin + m) (umax - m) s.data) :
    ∃ t, shrinkBy umax w e so n s = some t ∧ Valid umin umax t ∧ t.orient = s.orient ∧ ∀ p, Covers t p ↔ ∀ q, Near w e so n p q → Covers s q := by
  obtain ⟨t, h1, h2, h3⟩ := shrinkBy_spec' hs (le_refl 0) hw he hso hn hax (held hs (fun v hv => by have := hr v hv; omega))
  exact ⟨t, h1, widen h2 (by omega) (by omega), h3⟩

/-- The round trip of the free functions: copy to a set of the default orientation, work on it, clean it, copy back. -/
theorem copy_in {s : PSet} {a b : Int} (hs : Valid a b s) : Valid a b (assignSet (PSet.mk0 HORIZONTAL) s) ∧
    ∀ q, Covers (assignSet (PSet.mk0 HORIZONTAL) s) q ↔ Covers s q := by
  obtain ⟨h1, -, h3⟩ := copy_spec hs (o := HORIZONTAL) (Or.inl rfl)
  exact ⟨h1, fun q => by unfold Covers; rw [← h3 q]; rfl⟩

theorem copy_out {s t : PSet} (ho : s.orient = HORIZONTAL ∨ s.orient = VERTICAL) (ht : Valid umin umax t) : Valid umin umax (assignSet s t) ∧
    (assignSet s t).orient = s.orient ∧ ∀ q, Covers (assignSet s t) q ↔ Covers t q := by
  obtain ⟨h1, h2, h3⟩ := copy_spec ht ho
  exact ⟨h1, h2, fun q => by unfold Covers; rw [← h3 q]; rfl⟩

theorem restrict {s : PSet} {a b : Int} (hs : Valid umin umax s) (hr : InRange a b s.data) : Valid a b s := ⟨hs.orient, hs.sorted, hs.clean, hs.closed, hr⟩

theorem bloatFree_held {s : PSet} (hs : Valid umin umax s) {w e so n m : Int} (hw : Amount m w) (he : Amount m e) (hso : Amount m so) (hn : Amount m n)
    (hax : OneAxis w e so n) (hr : Held (umin + m) (umax - m) s) :
    ∃ t, bloatFree umax w e so n s = some t ∧ Valid umin umax t ∧ t.orient = s.orient ∧ ∀ p, Covers t p ↔ ∃ q, Covers s q ∧ Near w e so n q p := by
  obtain ⟨a1, a2⟩ := copy_in hs
  obtain ⟨t, b1, b2, b3, b4⟩ := bloatBy_spec' a1 (le_refl 0) hw he hso hn hax (fun x y h => by have := hr x y ((a2 _).1 h); omega)
  replace b2 := widen (c := umin) (d := umax) b2 (by omega) (by omega)
  obtain ⟨t1, c1, c2, c3, c4, c5, c6⟩ := Verif.Properties.Set90.clean_spec' b2
  obtain ⟨d1, d2, d3⟩ := copy_out hs.orient c2
  refine ⟨assignSet s t1, by simp only [bloatFree, b1, c1, Option.bind_eq_bind, Option.bind_some]; rfl, d1, d2, fun p => ?_⟩
  rw [d3, c6, b4]
  exact exists_congr fun q => and_congr_left fun _ => a2 q

theorem bloatFree_spec {s : PSet} (hs : Valid umin umax s) {w e so n m : Int} (hw : Amount m w) (he : Amount m e) (hso : Amount m so) (hn : Amount m n)
    (hax : OneAxis w e so n) (hr : InRange (umin + m) (umax - m) s.data) :
    ∃ t, bloatFree umax w e so n s = some t ∧ Valid umin umax t ∧ t.orient = s.orient ∧ ∀ p, Covers t p ↔ ∃ q, Covers s q ∧ Near w e so n q p :=
  bloatFree_held hs hw he hso hn hax (held hs hr)

theorem shrinkFree_spec {s : PSet} (hs : Valid umin umax s) {w e so n m : Int} (hw : Amount m w) (he : Amount m e) (hso : Amount m so) (hn : Amount m n)
    (hax : OneAxis w e so n) (hr : InRange (umin + m) (umax - m) s.data) :
    ∃ t, shrinkFree umax w e so n s = some t ∧ Valid umin umax t ∧ t.orient = s.orient ∧ ∀ p, Covers t p ↔ ∀ q, Near w e so n p q → Covers s q := by
  obtain ⟨a1, a2⟩ := copy_in hs
  obtain ⟨t, b1, b2, b3, b4⟩ := shrinkBy_spec a1 hw he hso hn hax (copy_in (restrict hs hr)).1.range
  obtain ⟨t1, c1, c2, c3, c4, c5, c6⟩ := Verif.Properties.Set90.clean_spec' b2
  obtain ⟨d1, d2, d3⟩ := copy_out hs.orient c2
  refine ⟨assignSet s t1, by simp only [shrinkFree, b1, c1, Option.bind_eq_bind, Option.bind_some]; rfl, d1, d2, fun p => ?_⟩
  rw [d3, c6, b4]
  exact forall_congr' fun q => forall_congr' fun _ => a2 q

/-- C98: `bloat(set, orient, low, high)` succeeds, keeps the orientation, and covers exactly the points that lie at most `high` above and at most
`low` below (to the right and to the left) of a point of the set. The vertices keep the distance `m` from the limits of the coordinate type. -/
theorem C98_bloat_along {s : PSet} (hs : Valid umin umax s) {low high m : Int} (hl : Amount m low) (hh : Amount m high)
    (hr : InRange (umin + m) (umax - m) s.data) {o : Nat} (ho : o = HORIZONTAL ∨ o = VERTICAL) :
    ∃ t, bloatAlong umax o low high s = some t ∧ Valid umin umax t ∧ t.orient = s.orient ∧
      ∀ p, Covers t p ↔ ∃ u : ℚ, -(low : ℚ) ≤ u ∧ u ≤ high ∧ Covers s (if o = HORIZONTAL then (p.1 - u, p.2) else (p.1, p.2 - u)) := by
  have h0 : Amount m 0 := ⟨le_refl _, le_trans hl.1 hl.2⟩
  rcases ho with rfl | rfl
  · obtain ⟨t, a1, a2, a3, a4⟩ := bloatFree_spec hs hl hh h0 h0 (Or.inl ⟨rfl, rfl⟩) hr
    refine ⟨t, by simpa [bloatAlong] using a1, a2, a3, fun p => ?_⟩
    rw [a4]
    constructor
    · rintro ⟨q, q1, n1, n2, n3, n4⟩
      push_cast at n3 n4
      refine ⟨p.1 - q.1, n1, n2, ?_⟩
      rw [if_pos rfl, show ((p.1 - (p.1 - q.1), p.2) : ℚ × ℚ) = q from Prod.ext (by ring) (by linarith)]; exact q1
    · rintro ⟨u, u1, u2, u3⟩
      rw [if_pos rfl] at u3
      exact ⟨_, u3, by unfold Near; push_cast; refine ⟨?_, ?_, ?_, ?_⟩ <;> linarith⟩
  · obtain ⟨t, a1, a2, a3, a4⟩ := bloatFree_spec hs h0 h0 hl hh (Or.inr ⟨rfl, rfl⟩) hr
    have hne : ¬ VERTICAL = HORIZONTAL := by decide
    refine ⟨t, by simpa [bloatAlong, hne] using a1, a2, a3, fun p => ?_⟩
    rw [a4]
    constructor
    · rintro ⟨q, q1, n1, n2, n3, n4⟩
      push_cast at n1 n2
      refine ⟨p.2 - q.2, n3, n4, ?_⟩
      rw [if_neg hne, show ((p.1, p.2 - (p.2 - q.2)) : ℚ × ℚ) = q from Prod.ext (by linarith) (by ring)]; exact q1
    · rintro ⟨u, u1, u2, u3⟩
      rw [if_neg hne] at u3
      exact ⟨_, u3, by unfold Near; push_cast; refine ⟨?_, ?_, ?_, ?_⟩ <;> linarith⟩

/-- C98: `shrink(set, orient, low, high)` succeeds, keeps the orientation, and covers exactly the points whose whole stretch from `low` below to
`high` above (left and right) lay in the set. -/
theorem C98_shrink_along {s : PSet} (hs : Valid umin umax s) {low high m : Int} (hl : Amount m low) (hh : Amount m high)
    (hr : InRange (umin + m) (umax - m) s.data) {o : Nat} (ho : o = HORIZONTAL ∨ o = VERTICAL) :
    ∃ t, shrinkAlong umax o low high s = some t ∧ Valid umin umax t ∧ t.orient = s.orient ∧
      ∀ p, Covers t p ↔ ∀ u : ℚ, -(low : ℚ) ≤ u → u ≤ high → Covers s (if o = HORIZONTAL then (p.1 + u, p.2) else (p.1, p.2 + u)) := by
  have h0 : Amount m 0 := ⟨le_refl _, le_trans hl.1 hl.2⟩
  rcases ho with rfl | rfl
  · obtain ⟨t, a1, a2, a3, a4⟩ := shrinkFree_spec hs hl hh h0 h0 (Or.inl ⟨rfl, rfl⟩) hr
    refine ⟨t, by simpa [shrinkAlong] using a1, a2, a3, fun p => ?_⟩
    rw [a4]
    constructor
    · intro f u u1 u2
      rw [if_pos rfl]
      exact f _ (by unfold Near; push_cast; refine ⟨?_, ?_, ?_, ?_⟩ <;> linarith)
    · rintro f q ⟨n1, n2, n3, n4⟩
      push_cast at n3 n4
      have := f (q.1 - p.1) n1 n2
      rwa [if_pos rfl, show ((p.1 + (q.1 - p.1), p.2) : ℚ × ℚ) = q from Prod.ext (by ring) (by linarith)] at this
  · obtain ⟨t, a1, a2, a3, a4⟩ := shrinkFree_spec hs h0 h0 hl hh (Or.inr ⟨rfl, rfl⟩) hr
    have hne : ¬ VERTICAL = HORIZONTAL := by decide
    refine ⟨t, by simpa [shrinkAlong, hne] using a1, a2, a3, fun p => ?_⟩
    rw [a4]
    constructor
    · intro f u u1 u2
      rw [if_neg hne]
      exact f _ (by unfold Near; push_cast; refine ⟨?_, ?_, ?_, ?_⟩ <;> linarith)
    · rintro f q ⟨n1, n2, n3, n4⟩
      push_cast at n1 n2
      have := f (q.2 - p.2) n3 n4
      rwa [if_neg hne, show ((p.1, p.2 + (q.2 - p.2)) : ℚ × ℚ) = q from Prod.ext (by linarith) (by ring)] at this

/-- C98: the free `bloat` and `shrink` by one amount in one direction do what the members do. -/
theorem C98_direction {s : PSet} (hs : Valid umin umax s) {d m : Int} (hd : Amount m d) (hr : InRange (umin + m) (umax - m) s.data) {dir : Nat} (hdir : dir < 4) :
    (∃ t, bloatTo umax dir d s = some t ∧ Valid umin umax t ∧ t.orient = s.orient ∧
      ∀ p, Covers t p ↔ ∃ u : ℚ, 0 ≤ u ∧ u ≤ d ∧ Covers s (p.1 - u * (dirVec dir).1, p.2 - u * (dirVec dir).2)) ∧
    ∃ t, shrinkTo umax dir d s = some t ∧ Valid umin umax t ∧ t.orient = s.orient ∧
      ∀ p, Covers t p ↔ ∀ u : ℚ, 0 ≤ u → u ≤ d → Covers s (p.1 + u * (dirVec dir).1, p.2 + u * (dirVec dir).2) := by
  have h0 : Amount m 0 := ⟨le_refl _, le_trans hd.1 hd.2⟩
  obtain rfl | rfl | rfl | rfl : dir = 0 ∨ dir = 1 ∨ dir = 2 ∨ dir = 3 := by omega
  · obtain ⟨t, a1, a2, a3, a4⟩ := bloatFree_spec hs hd h0 h0 h0 (Or.inl ⟨rfl, rfl⟩) hr
    obtain ⟨t', b1, b2, b3, b4⟩ := shrinkFree_spec hs hd h0 h0 h0 (Or.inl ⟨rfl, rfl⟩) hr
    refine ⟨⟨t, by simpa [bloatTo, WEST, EAST] using a1, a2, a3, fun p => ?_⟩, t', by simpa [shrinkTo, WEST, EAST] using b1, b2, b3, fun p => ?_⟩
    · rw [a4]
      constructor
      · rintro ⟨q, q1, n1, n2, n3, n4⟩
        push_cast at n1 n2 n3 n4
        refine ⟨q.1 - p.1, by linarith, by linarith, ?_⟩
        rw [show ((p.1 - (q.1 - p.1) * (dirVec 0).1, p.2 - (q.1 - p.1) * (dirVec 0).2) : ℚ × ℚ) = q from Prod.ext (by simp [dirVec]) (by simp [dirVec]; linarith)]; exact q1
      · rintro ⟨u, u1, u2, u3⟩
        exact ⟨_, u3, by unfold Near; push_cast; simp only [dirVec]; refine ⟨?_, ?_, ?_, ?_⟩ <;> linarith⟩
    · rw [b4]
      constructor
      · intro f u u1 u2
        exact f _ (by unfold Near; push_cast; simp only [dirVec]; refine ⟨?_, ?_, ?_, ?_⟩ <;> linarith)
      · rintro f q ⟨n1, n2, n3, n4⟩
        push_cast at n1 n2 n3 n4
        have := f (p.1 - q.1) (by linarith) (by linarith)
        rwa [show ((p.1 + (p.1 - q.1) * (dirVec 0).1, p.2 + (p.1 - q.1) * (dirVec 0).2) : ℚ × ℚ) = q from Prod.ext (by simp [dirVec]) (by simp [dirVec]; linarith)] at this
  · obtain ⟨t, a1, a2, a3, a4⟩ := bloatFree_spec hs h0 hd h0 h0 (Or.inl ⟨rfl, rfl⟩) hr
    obtain ⟨t', b1, b2, b3, b4⟩ := shrinkFree_spec hs h0 hd h0 h0 (Or.inl ⟨rfl, rfl⟩) hr
    refine ⟨⟨t, by simpa [bloatTo, WEST, EAST] using a1, a2, a3, fun p => ?_⟩, t', by simpa [shrinkTo, WEST, EAST] using b1, b2, b3, fun p => ?_⟩
    · rw [a4]
      constructor
      · rintro ⟨q, q1, n1, n2, n3, n4⟩
        push_cast at n1 n2 n3 n4
        refine ⟨p.1 - q.1, by linarith, by linarith, ?_⟩
        rw [show ((p.1 - (p.1 - q.1) * (dirVec 1).1, p.2 - (p.1 - q.1) * (dirVec 1).2) : ℚ × ℚ) = q from Prod.ext (by simp [dirVec]) (by simp [dirVec]; linarith)]; exact q1
      · rintro ⟨u, u1, u2, u3⟩
        exact ⟨_, u3, by unfold Near; push_cast; simp only [dirVec]; refine ⟨?_, ?_, ?_, ?_⟩ <;> linarith⟩
    · rw [b4]
      constructor
      · intro f u u1 u2
        exact f _ (by unfold Near; push_cast; simp only [dirVec]; refine ⟨?_, ?_, ?_, ?_⟩ <;> linarith)
      · rintro f q ⟨n1, n2, n3, n4⟩
        push_cast at n1 n2 n3 n4
        have := f (q.1 - p.1) (by linarith) (by linarith)
        rwa [show ((p.1 + (q.1 - p.1) * (dirVec 1).1, p.2 + (q.1 - p.1) * (dirVec 1).2) : ℚ × ℚ) = q from Prod.ext (by simp [dirVec]) (by simp [dirVec]; linarith)] at this
  · obtain ⟨t, a1, a2, a3, a4⟩ := bloatFree_spec hs h0 h0 hd h0 (Or.inr ⟨rfl, rfl⟩) hr
    obtain ⟨t', b1, b2, b3, b4⟩ := shrinkFree_spec hs h0 h0 hd h0 (Or.inr ⟨rfl, rfl⟩) hr
    refine ⟨⟨t, by simpa [bloatTo, WEST, EAST, SOUTH] using a1, a2, a3, fun p => ?_⟩, t', by simpa [shrinkTo, WEST, EAST, SOUTH] using b1, b2, b3, fun p => ?_⟩
    · rw [a4]
      constructor
      · rintro ⟨q, q1, n1, n2, n3, n4⟩
        push_cast at n1 n2 n3 n4
        refine ⟨q.2 - p.2, by linarith, by linarith, ?_⟩
        rw [show ((p.1 - (q.2 - p.2) * (dirVec 2).1, p.2 - (q.2 - p.2) * (dirVec 2).2) : ℚ × ℚ) = q from Prod.ext (by simp [dirVec]; linarith) (by simp [dirVec])]; exact q1
      · rintro ⟨u, u1, u2, u3⟩
        exact ⟨_, u3, by unfold Near; push_cast; simp only [dirVec]; refine ⟨?_, ?_, ?_, ?_⟩ <;> linarith⟩
    · rw [b4]
      constructor
      · intro f u u1 u2
        exact f _ (by unfold Near; push_cast; simp only [dirVec]; refine ⟨?_, ?_, ?_, ?_⟩ <;> linarith)
      · rintro f q ⟨n1, n2, n3, n4⟩
        push_cast at n1 n2 n3 n4
        have := f (p.2 - q.2) (by linarith) (by linarith)
        rwa [show ((p.1 + (p.2 - q.2) * (dirVec 2).1, p.2 + (p.2 - q.2) * (dirVec 2).2) : ℚ × ℚ) = q from Prod.ext (by simp [dirVec]; linarith) (by simp [dirVec])] at this
  · obtain ⟨t, a1, a2, a3, a4⟩ := bloatFree_spec hs h0 h0 h0 hd (Or.inr ⟨rfl, rfl⟩) hr
    obtain ⟨t', b1, b2, b3, b4⟩ := shrinkFree_spec hs h0 h0 h0 hd (Or.inr ⟨rfl, rfl⟩) hr
    refine ⟨⟨t, by simpa [bloatTo, WEST, EAST, SOUTH] using a1, a2, a3, fun p => ?_⟩, t', by simpa [shrinkTo, WEST, EAST, SOUTH] using b1, b2, b3, fun p => ?_⟩
    · rw [a4]
      constructor
      · rintro ⟨q, q1, n1, n2, n3, n4⟩
        push_cast at n1 n2 n3 n4
        refine ⟨p.2 - q.2, by linarith, by linarith, ?_⟩
        rw [show ((p.1 - (p.2 - q.2) * (dirVec 3).1, p.2 - (p.2 - q.2) * (dirVec 3).2) : ℚ × ℚ) = q from Prod.ext (by simp [dirVec]; linarith) (by simp [dirVec])]; exact q1
      · rintro ⟨u, u1, u2, u3⟩
        exact ⟨_, u3, by unfold Near; push_cast; simp only [dirVec]; refine ⟨?_, ?_, ?_, ?_⟩ <;> linarith⟩
    · rw [b4]
      constructor
      · intro f u u1 u2
        exact f _ (by unfold Near; push_cast; simp only [dirVec]; refine ⟨?_, ?_, ?_, ?_⟩ <;> linarith)
      · rintro f q ⟨n1, n2, n3, n4⟩
        push_cast at n1 n2 n3 n4
        have := f (q.2 - p.2) (by linarith) (by linarith)
        rwa [show ((p.1 + (q.2 - p.2) * (dirVec 3).1, p.2 + (q.2 - p.2) * (dirVec 3).2) : ℚ × ℚ) = q from Prod.ext (by simp [dirVec]; linarith) (by simp [dirVec])] at this

/-! ### `resize` with four amounts of any sign -/

theorem moved {s : PSet} {m k : Int} (hs : Valid umin umax s) (hr : InRange (umin + (k + m)) (umax - (k + m)) s.data) (hk : 0 ≤ k) {dx dy : Int} (hx : |dx| ≤ m) (hy : |dy| ≤ m) :
    Valid umin umax (s.move dx dy) ∧ (s.move dx dy).orient = s.orient ∧ InRange (umin + k) (umax - k) (s.move dx dy).data ∧
      ∀ q, Covers (s.move dx dy) q ↔ Covers s (q.1 - dx, q.2 - dy) := by
  rw [abs_le] at hx hy
  have h : InRange (umin + k) (umax - k) (s.move dx dy).data := by
    intro v hv
    simp only [PSet.move, List.mem_map] at hv
    obtain ⟨v0, h0, rfl⟩ := hv
    have := hr v0 h0
    split_ifs <;> dsimp only <;> omega
  refine ⟨move_valid hs dx dy (fun v hv => by have := h v hv; omega), rfl, h, fun q => ?_⟩
  unfold Covers
  rw [move_depth s hs.orient]

/-- What `resize` should do along one axis by the amounts `low` and `high`, as a relation between a point of the result and the points of the
set it depends on: grow when the sum of the amounts is not negative, otherwise shrink. -/
def ResizedX (low high : Int) (S : ℚ × ℚ → Prop) (p : ℚ × ℚ) : Prop :=
  if 0 ≤ low + high then ∃ u : ℚ, -(low : ℚ) ≤ u ∧ u ≤ high ∧ S (p.1 - u, p.2)
  else ∀ u : ℚ, (low : ℚ) ≤ u → u ≤ -(high : ℚ) → S (p.1 + u, p.2)

/-- The same along the other axis. -/
def ResizedY (low high : Int) (S : ℚ × ℚ → Prop) (p : ℚ × ℚ) : Prop :=
  if 0 ≤ low + high then ∃ u : ℚ, -(low : ℚ) ≤ u ∧ u ≤ high ∧ S (p.1, p.2 - u)
  else ∀ u : ℚ, (low : ℚ) ≤ u → u ≤ -(high : ℚ) → S (p.1, p.2 + u)

theorem shiftX (w e : Int) (S : ℚ × ℚ → Prop) (p : ℚ × ℚ) : ResizedX 0 (w + e) (fun q => S (q.1 + w, q.2)) p ↔ ResizedX w e S p := by
  unfold ResizedX
  rw [zero_add]
  split_ifs
  · constructor
    · rintro ⟨u, u1, u2, u3⟩
      push_cast at *
      exact ⟨u - w, by linarith, by linarith, by rw [show p.1 - (u - w) = p.1 - u + w by ring]; exact u3⟩
    · rintro ⟨u, u1, u2, u3⟩
      push_cast at *
      exact ⟨u + w, by linarith, by linarith, by rw [show p.1 - (u + w) + w = p.1 - u by ring]; exact u3⟩
  · constructor
    · intro f u u1 u2
      push_cast at f
      have := f (u - w) (by linarith) (by linarith)
      rwa [show p.1 + (u - w) + w = p.1 + u by ring] at this
    · intro f u u1 u2
      push_cast at u1 u2
      have := f (u + w) (by linarith) (by linarith)
      rwa [show p.1 + (u + w) = p.1 + u + w by ring] at this

theorem shiftY (w e : Int) (S : ℚ × ℚ → Prop) (p : ℚ × ℚ) : ResizedY 0 (w + e) (fun q => S (q.1, q.2 + w)) p ↔ ResizedY w e S p := by
  unfold ResizedY
  rw [zero_add]
  split_ifs
  · constructor
    · rintro ⟨u, u1, u2, u3⟩
      push_cast at *
      exact ⟨u - w, by linarith, by linarith, by rw [show p.2 - (u - w) = p.2 - u + w by ring]; exact u3⟩
    · rintro ⟨u, u1, u2, u3⟩
      push_cast at *
      exact ⟨u + w, by linarith, by linarith, by rw [show p.2 - (u + w) + w = p.2 - u by ring]; exact u3⟩
  · constructor
    · intro f u u1 u2
      push_cast at f
      have := f (u - w) (by linarith) (by linarith)
      rwa [show p.2 + (u - w) + w = p.2 + u by ring] at this
    · intro f u u1 u2
      push_cast at u1 u2
      have := f (u + w) (by linarith) (by linarith)
      rwa [show p.2 + (u + w) = p.2 + u + w by ring] at this

theorem growX {e : Int} (he : 0 ≤ e) (T : ℚ × ℚ → Prop) (p : ℚ × ℚ) : (∃ q, T q ∧ Near 0 e 0 0 q p) ↔ ResizedX 0 e T p := by
  unfold ResizedX
  rw [if_pos (by omega)]
  constructor
  · rintro ⟨q, q1, n1, n2, n3, n4⟩
    push_cast at n1 n3 n4
    refine ⟨p.1 - q.1, by push_cast; linarith, n2, ?_⟩
    rw [show ((p.1 - (p.1 - q.1), p.2) : ℚ × ℚ) = q from Prod.ext (by ring) (by linarith)]; exact q1
  · rintro ⟨u, u1, u2, u3⟩
    exact ⟨_, u3, by unfold Near; push_cast at *; refine ⟨?_, ?_, ?_, ?_⟩ <;> linarith⟩

theorem growY {e : Int} (he : 0 ≤ e) (T : ℚ × ℚ → Prop) (p : ℚ × ℚ) : (∃ q, T q ∧ Near 0 0 0 e q p) ↔ ResizedY 0 e T p := by
  unfold ResizedY
  rw [if_pos (by omega)]
  constructor
  · rintro ⟨q, q1, n1, n2, n3, n4⟩
    push_cast at n1 n2 n3
    refine ⟨p.2 - q.2, by push_cast; linarith, n4, ?_⟩
    rw [show ((p.1, p.2 - (p.2 - q.2)) : ℚ × ℚ) = q from Prod.ext (by linarith) (by ring)]; exact q1
  · rintro ⟨u, u1, u2, u3⟩
    exact ⟨_, u3, by unfold Near; push_cast at *; refine ⟨?_, ?_, ?_, ?_⟩ <;> linarith⟩

theorem shrinkX {e : Int} (he : e < 0) (T : ℚ × ℚ → Prop) (p : ℚ × ℚ) : (∀ q, Near 0 (-e) 0 0 p q → T q) ↔ ResizedX 0 e T p := by
  unfold ResizedX
  rw [if_neg (by omega)]
  constructor
  · intro f u u1 u2
    exact f _ (by unfold Near; push_cast at *; refine ⟨?_, ?_, ?_, ?_⟩ <;> linarith)
  · rintro f q ⟨n1, n2, n3, n4⟩
    push_cast at n1 n2 n3 n4
    have := f (q.1 - p.1) (by push_cast; linarith) n2
    rwa [show ((p.1 + (q.1 - p.1), p.2) : ℚ × ℚ) = q from Prod.ext (by ring) (by linarith)] at this

theorem shrinkY {e : Int} (he : e < 0) (T : ℚ × ℚ → Prop) (p : ℚ × ℚ) : (∀ q, Near 0 0 0 (-e) p q → T q) ↔ ResizedY 0 e T p := by
  unfold ResizedY
  rw [if_neg (by omega)]
  constructor
  · intro f u u1 u2
    exact f _ (by unfold Near; push_cast at *; refine ⟨?_, ?_, ?_, ?_⟩ <;> linarith)
  · rintro f q ⟨n1, n2, n3, n4⟩
    push_cast at n1 n2 n3 n4
    have := f (q.2 - p.2) (by push_cast; linarith) n4
    rwa [show ((p.1, p.2 + (q.2 - p.2)) : ℚ × ℚ) = q from Prod.ext (by linarith) (by ring)] at this

theorem stillX (T : ℚ × ℚ → Prop) (p : ℚ × ℚ) : ResizedX 0 0 T p ↔ T p := by
  unfold ResizedX
  rw [if_pos (by decide)]
  constructor
  · rintro ⟨u, u1, u2, u3⟩
    have : u = 0 := by push_cast at *; linarith
    subst this
    simpa using u3
  · intro h; exact ⟨0, by simp, by simp, by simpa using h⟩

theorem stillY (T : ℚ × ℚ → Prop) (p : ℚ × ℚ) : ResizedY 0 0 T p ↔ T p := by
  unfold ResizedY
  rw [if_pos (by decide)]
  constructor
  · rintro ⟨u, u1, u2, u3⟩
    have : u = 0 := by push_cast at *; linarith
    subst this
    simpa using u3
  · intro h; exact ⟨0, by simp, by simp, by simpa using h⟩

theorem resizeBy_spec {s : PSet} (hs : Valid umin umax s) {west east south north m : Int} (hw : |west| ≤ m) (he : |east| ≤ m) (hso : |south| ≤ m)
    (hn : |north| ≤ m) (hr : InRange (umin + 5 * m) (umax - 5 * m) s.data)
    (hpos : ¬ (0 < west + east ∧ 0 < south + north)) (hneg : ¬ (west + east < 0 ∧ south + north < 0)) :
    ∃ t, resizeBy umax west east south north s = some t ∧ Valid umin umax t ∧ t.orient = s.orient ∧
      ∀ p, Covers t p ↔ if west + east < 0 then ResizedY south north (ResizedX west east (Covers s)) p
        else ResizedX west east (ResizedY south north (Covers s)) p := by
  have hm : 0 ≤ m := le_trans (abs_nonneg _) hw
  obtain ⟨a1, a2, a3, a4⟩ := moved hs (k := 4 * m) (m := m) (fun v hv => by have := hr v hv; omega) (by omega) (dx := -west) (dy := -south) (by rwa [abs_neg]) (by rwa [abs_neg])
  have hM : Covers (s.move (-west) (-south)) = fun q => Covers s (q.1 + west, q.2 + south) := by
    funext q
    rw [a4]
    push_cast
    rw [sub_neg_eq_add, sub_neg_eq_add]
  rw [abs_le] at hw he hso hn
  have h0 : Amount (2 * m) 0 := ⟨le_refl _, by omega⟩
  have swapped : ∀ p, ResizedX 0 (west + east) (ResizedY 0 (south + north) (Covers (s.move (-west) (-south)))) p ↔
      ResizedX west east (ResizedY south north (Covers s)) p := by
    intro p
    rw [hM]
    have e1 : (ResizedY 0 (south + north) fun q => Covers s (q.1 + west, q.2 + south)) = fun q => ResizedY south north (Covers s) (q.1 + west, q.2) := by
      funext q
      rw [← shiftY south north (Covers s)]
      rfl
    rw [e1, shiftX west east (ResizedY south north (Covers s))]
  have straight : ∀ p, ResizedY 0 (south + north) (ResizedX 0 (west + east) (Covers (s.move (-west) (-south)))) p ↔
      ResizedY south north (ResizedX west east (Covers s)) p := by
    intro p
    rw [hM]
    have e1 : (ResizedX 0 (west + east) fun q => Covers s (q.1 + west, q.2 + south)) = fun q => ResizedX west east (Covers s) (q.1, q.2 + south) := by
      funext q
      rw [← shiftX west east (Covers s)]
      rfl
    rw [e1, shiftY south north (ResizedX west east (Covers s))]
  have hR : InRange (umin + (2 * m + 2 * m)) (umax - (2 * m + 2 * m)) (s.move (-west) (-south)).data := fun v hv => by have := a3 v hv; omega
  by_cases c1 : west + east < 0
  · have c2 : ¬ south + north < 0 := fun h => hneg ⟨c1, h⟩
    obtain ⟨t1, b1, b2, b3, b4⟩ := shrinkBy_spec' a1 (m := 2 * m) (k := 2 * m) (by omega) h0 (e := -(west + east)) ⟨by omega, by omega⟩ h0 h0 (Or.inl ⟨rfl, rfl⟩) (held a1 hR)
    have hT : Covers t1 = ResizedX 0 (west + east) (Covers (s.move (-west) (-south))) := by
      funext q
      rw [b4, shrinkX c1]
    by_cases c3 : south + north = 0
    · refine ⟨t1, ?_, widen b2 (by omega) (by omega), by rw [b3, a2], fun p => ?_⟩
      · unfold resizeBy
        simp only [c1, c2, decide_true, decide_false, Bool.xor_false, if_true, b1, Option.bind_eq_bind, Option.bind_some]
        rw [if_neg (by simpa using c3)]; rfl
      · rw [if_pos c1, ← straight p, c3, stillY, hT]
    · obtain ⟨t2, d1, d2, d3, d4⟩ := bloatBy_spec (widen b2 (c := umin) (d := umax) (by omega) (by omega)) (m := 2 * m) h0 h0 h0 (n := south + north) ⟨by omega, by omega⟩ (Or.inr ⟨rfl, rfl⟩) b2.range
      refine ⟨t2, ?_, d2, by rw [d3, b3, a2], fun p => ?_⟩
      · unfold resizeBy
        simp only [c1, c2, decide_true, decide_false, Bool.xor_false, if_true, b1, Option.bind_eq_bind, Option.bind_some]
        rw [if_pos c3]; exact d1
      · rw [if_pos c1, ← straight p, ← hT, ← growY (by omega), d4]
  · by_cases c2 : south + north < 0
    · obtain ⟨t1, b1, b2, b3, b4⟩ := shrinkBy_spec' a1 (m := 2 * m) (k := 2 * m) (by omega) h0 h0 h0 (n := -(south + north)) ⟨by omega, by omega⟩ (Or.inr ⟨rfl, rfl⟩) (held a1 hR)
      have hT : Covers t1 = ResizedY 0 (south + north) (Covers (s.move (-west) (-south))) := by
        funext q
        rw [b4, shrinkY c2]
      by_cases c3 : west + east = 0
      · refine ⟨t1, ?_, widen b2 (by omega) (by omega), by rw [b3, a2], fun p => ?_⟩
        · unfold resizeBy
          simp only [c1, c2, decide_true, decide_false, Bool.false_xor, if_true, if_false, b1, Option.bind_eq_bind, Option.bind_some]
          rw [if_neg (by simpa using c3)]; rfl
        · rw [if_neg c1, ← swapped p, c3, stillX, hT]
      · obtain ⟨t2, d1, d2, d3, d4⟩ := bloatBy_spec (widen b2 (c := umin) (d := umax) (by omega) (by omega)) (m := 2 * m) h0 (e := west + east) ⟨by omega, by omega⟩ h0 h0 (Or.inl ⟨rfl, rfl⟩) b2.range
        refine ⟨t2, ?_, d2, by rw [d3, b3, a2], fun p => ?_⟩
        · unfold resizeBy
          simp only [c1, c2, decide_true, decide_false, Bool.false_xor, if_true, if_false, b1, Option.bind_eq_bind, Option.bind_some]
          rw [if_pos c3]; exact d1
        · rw [if_neg c1, ← swapped p, ← hT, ← growX (by omega), d4]
    · have hax : OneAxis 0 (west + east) 0 (south + north) := by
        rcases eq_or_ne (west + east) 0 with h | h
        · exact Or.inr ⟨rfl, h⟩
        · exact Or.inl ⟨rfl, by omega⟩
      obtain ⟨t, b1, b2, b3, b4⟩ := bloatBy_spec a1 (m := 2 * m) h0 (e := west + east) ⟨by omega, by omega⟩ h0 (n := south + north) ⟨by omega, by omega⟩ hax
        (fun v hv => by have := a3 v hv; omega)
      refine ⟨t, ?_, b2, by rw [b3, a2], fun p => ?_⟩
      · unfold resizeBy
        simp only [c1, c2, decide_false, Bool.xor_self, if_false, Bool.false_eq_true]
        exact b1
      · rw [if_neg c1, ← swapped p, b4]
        rcases eq_or_ne (west + east) 0 with h | h
        · rw [h, stillX, growY (by omega)]
        · have h' : south + north = 0 := by omega
          rw [h', growX (by omega)]
          have : ResizedY 0 0 (Covers (s.move (-west) (-south))) = Covers (s.move (-west) (-south)) := funext fun q => propext (stillY _ q)
          rw [this]

/-- C98: `resize(west, east, south, north)`, the member and the free function. Along each axis the set grows when the sum of the two amounts is not
negative and shrinks otherwise; the axis that shrinks comes first. The amounts may have any sign: a negative amount on one side moves that side
inward. The vertices keep the distance `5 m` from the limits of the coordinate type.
Missing: growing or shrinking along both axes at once. -/
theorem C98_resize_partial {s : PSet} (hs : Valid umin umax s) {west east south north m : Int} (hw : |west| ≤ m) (he : |east| ≤ m) (hso : |south| ≤ m)
    (hn : |north| ≤ m) (hr : InRange (umin + 5 * m) (umax - 5 * m) s.data)
    (hpos : ¬ (0 < west + east ∧ 0 < south + north)) (hneg : ¬ (west + east < 0 ∧ south + north < 0)) :
    ∃ t t', resizeBy umax west east south north s = some t ∧ resizeFree umax west east south north s = some t' ∧
      t.orient = s.orient ∧ t'.orient = s.orient ∧ (∀ p, Covers t' p ↔ Covers t p) ∧
      ∀ p, Covers t p ↔ if west + east < 0 then ResizedY south north (ResizedX west east (Covers s)) p
        else ResizedX west east (ResizedY south north (Covers s)) p := by
  obtain ⟨t, a1, a2, a3, a4⟩ := resizeBy_spec hs hw he hso hn hr hpos hneg
  obtain ⟨c1, c2⟩ := copy_in hs
  obtain ⟨t1, b1, b2, b3, b4⟩ := resizeBy_spec c1 hw he hso hn (copy_in (restrict hs hr)).1.range hpos hneg
  obtain ⟨d1, d2, d3⟩ := copy_out hs.orient b2
  refine ⟨t, assignSet s t1, a1, by simp only [resizeFree, b1, Option.bind_eq_bind, Option.bind_some]; rfl, a3, d2, fun p => ?_, a4⟩
  have : Covers (assignSet (PSet.mk0 HORIZONTAL) s) = Covers s := funext fun q => propext (c2 q)
  rw [d3, b4, a4, this]

/-! ### Examples -/

theorem exK_range (o : Nat) (ho : o = HORIZONTAL ∨ o = VERTICAL) : InRange (-100 + 5 * 12) (100 - 5 * 12) (Verif.Properties.Concept90.exK o).data := by
  rcases ho with rfl | rfl <;> intro v hv <;> revert v <;> decide +kernel

example : Amount 12 2 ∧ Amount 12 3 ∧ InRange (-100 + 12) (100 - 12) (Verif.Properties.Concept90.exK HORIZONTAL).data :=
  ⟨⟨by decide, by decide⟩, ⟨by decide, by decide⟩, fun v hv => by have := exK_range _ (Or.inl rfl) v hv; omega⟩

example : (bloatAlong 100 HORIZONTAL 2 3 (Verif.Properties.Concept90.exK HORIZONTAL)).map (fun t => t.data) =
    some [⟨0, -2, 1⟩, ⟨0, 13, -1⟩, ⟨0, 18, 1⟩, ⟨0, 27, -1⟩, ⟨6, 18, -1⟩, ⟨6, 27, 1⟩, ⟨10, -2, -1⟩, ⟨10, 13, 1⟩] := by decide +kernel

example : (shrinkAlong 100 VERTICAL 1 2 (Verif.Properties.Concept90.exK VERTICAL)).map (fun t => t.data.length) = some 20 := by decide +kernel

example : (bloatTo 100 SOUTH 3 (Verif.Properties.Concept90.exK HORIZONTAL)).map (fun t => t.data.length) = some 16 := by decide +kernel

/-- Narrower by one on the left and on the right, and at the same time one lower and two higher. -/
example : ((resizeBy 100 (-1) (-1) 1 2 (Verif.Properties.Concept90.exK HORIZONTAL)).bind (fun t => t.clean 100)).map (fun t => t.data.take 4) =
    some [⟨-1, 1, 1⟩, ⟨-1, 9, -1⟩, ⟨-1, 21, 1⟩, ⟨-1, 23, -1⟩] := by decide +kernel

/-- The left side moves inward by two and the right side outward by five. -/
example : ((resizeBy 100 (-2) 5 (-1) 0 (Verif.Properties.Concept90.exK HORIZONTAL)).bind (fun t => t.clean 100)).map (fun t => t.data.length) = some 18 := by decide +kernel

end Verif.Properties.Resize90
