import Verif.Proofs.Set90Move
import Verif.Proofs.PolygonInsert
/-! Reachable sets are valid; extents. -/
namespace Verif.Set90
open Verif.BooleanOp Verif.Spec Verif.Isotropy Verif.Rectangle Verif.Transform

variable {umin umax : Int}

theorem mk0_valid (o : Nat) (h : o = HORIZONTAL ∨ o = VERTICAL) : Valid umin umax (PSet.mk0 o) :=
  ⟨h, fun _ => List.Pairwise.nil, fun _ => flat_nil, closed_nil, by simp [InRange, PSet.mk0]⟩

theorem setData_valid {s : PSet} {L : List V} {o : Nat} (ho : o = HORIZONTAL ∨ o = VERTICAL)
    (hc : Closed L) (hr : InRange umin umax L) : Valid umin umax (s.setData L o) :=
  ⟨ho, by simp [PSet.setData], by simp [PSet.setData], hc, hr⟩

theorem clear_valid {s : PSet} (h : Valid umin umax s) : Valid umin umax s.clear :=
  ⟨h.orient, fun _ => List.Pairwise.nil, fun _ => flat_nil, closed_nil, by simp [InRange, PSet.clear]⟩

theorem assignRect_valid {s : PSet} (h : Valid umin umax s) (r : Rect) (hr : RectIn umin umax r) :
    Valid umin umax (s.assignRect r) := by
  have : Valid umin umax ({ s with data := [] } : PSet) :=
    ⟨h.orient, fun _ => List.Pairwise.nil, fun _ => flat_nil, closed_nil, by simp [InRange]⟩
  exact insertRect_valid this r false hr

theorem selfXor_valid {s t : PSet} (h : Valid umin umax s) (e : s.selfXor umax = some t) : Valid umin umax t := by
  by_cases hd : s.dirty = true
  · obtain ⟨t', e', hv, -⟩ := selfXor_spec h hd
    rw [e'] at e; injection e with e; rw [← e]; exact hv
  · rw [PSet.selfXor] at e
    simp only [(sort_facts s).2.1, hd] at e
    simp at e; rw [← e]; exact h.sort

theorem selfIntersect_valid {s t : PSet} (h : Valid umin umax s) (hu : umin ≤ umax)
    (e : s.selfIntersect umin umax = some t) : Valid umin umax t := by
  by_cases hd : s.dirty = true
  · obtain ⟨t', e', hv, -⟩ := selfIntersect_spec h hu hd
    rw [e'] at e; injection e with e; rw [← e]; exact hv
  · rw [PSet.selfIntersect] at e
    simp only [(sort_facts s).2.1, hd] at e
    simp at e; rw [← e]; exact h.sort

theorem reach_valid {s : PSet} (h : Reach umin umax s) : Valid umin umax s := by
  induction h with
  | new o h => exact mk0_valid o h
  | insertRect r hole _ hr ih => exact insertRect_valid ih r hole hr
  | insertPoly P hole _ hp hr ih =>
    by_cases h4 : P.length < 4
    · rw [Polygon.insertPoly_depth_short _ _ _ h4]; exact ih
    · obtain ⟨h1, h2⟩ := hp.resolve_left h4
      exact Polygon.insertPoly_valid ih P hole (by omega) h1 h2 hr
  | insertPolyHoles P H hole _ h0 h1 hg ih =>
    exact Polygon.insertPolyHoles_valid ih P H hole ⟨h0, h1⟩ (hg P (by simp)).1 (fun Q hQ => (hg Q (by simp [hQ])).1)
      (hg P (by simp)).2 (fun Q hQ => (hg Q (by simp [hQ])).2)
  | assignRect r _ hr ih => exact assignRect_valid ih r hr
  | insertSet _ _ ih1 ih2 => exact insertSet_valid ih1 ih2
  | setData _ _ ih1 ih2 => exact setData_valid ih2.orient ih2.closed ih2.range
  | clear _ ih => exact clear_valid ih
  | sort _ ih => exact ih.sort
  | clean _ e ih =>
    obtain ⟨t, e', -, -, -, -, hv, -⟩ := clean_spec ih
    rw [e'] at e; injection e with e; rw [← e]; exact hv
  | selfXor _ e ih => exact selfXor_valid ih e
  | selfIntersect hu _ e ih => exact selfIntersect_valid ih hu e
  | binary op _ _ e ih1 ih2 =>
    obtain ⟨out, l', r', e', -, -, hv, -⟩ := binaryOp_spec (bop_zero op) ih1 ih2
    rw [e'] at e; injection e with e; injection e with e; rw [← e]; exact hv
  | assign op _ _ e ih1 ih2 =>
    obtain ⟨out, e', hv, -⟩ := assignOp_spec (bop_zero op) ih1 ih2
    rw [e'] at e; injection e with e; rw [← e]; exact hv
  | move dx dy _ hr ih => exact move_valid ih dx dy hr
  | transform t _ ht hr ih => exact transformT_valid ih t ht hr
  | scaleUp k _ hk hr ih => exact scaleUp_valid ih k hk hr

/-! ### extents -/

theorem encompassPt_eq (r : Rect) (p : Int × Int) : (encompassPt r p).1 =
    ⟨⟨min r.h.lo p.1, max r.h.hi p.1⟩, ⟨min r.v.lo p.2, max r.v.hi p.2⟩⟩ := by
  obtain ⟨⟨a, b⟩, ⟨c, d⟩⟩ := r
  by_cases h : a ≤ p.1 ∧ p.1 ≤ b ∧ c ≤ p.2 ∧ p.2 ≤ d
  · have e : encompassPt ⟨⟨a, b⟩, ⟨c, d⟩⟩ p = (⟨⟨a, b⟩, ⟨c, d⟩⟩, false) := by
      simp [encompassPt, Interval.encompassVal, Interval.containsVal, h.1, h.2.1, h.2.2.1, h.2.2.2]
    have e1 : min a p.1 = a := by omega
    have e2 : max b p.1 = b := by omega
    have e3 : min c p.2 = c := by omega
    have e4 : max d p.2 = d := by omega
    simp only [e, e1, e2, e3, e4]
  · have hb : (!(Interval.containsVal ⟨a, b⟩ p.1 true) || !(Interval.containsVal ⟨c, d⟩ p.2 true)) = true := by
      by_contra hcon
      apply h
      simp [Interval.containsVal] at hcon
      exact ⟨hcon.1.2, hcon.1.1, hcon.2.2, hcon.2.1⟩
    simp only [encompassPt, Interval.encompassVal, hb, if_true]

/-- `r` is the exact bounding box of the points. -/
def BBox (r : Rect) (P : List (Int × Int)) : Prop :=
  (∀ q ∈ P, r.h.lo ≤ q.1 ∧ q.1 ≤ r.h.hi ∧ r.v.lo ≤ q.2 ∧ q.2 ≤ r.v.hi) ∧
  (∃ q ∈ P, q.1 = r.h.lo) ∧ (∃ q ∈ P, q.1 = r.h.hi) ∧ (∃ q ∈ P, q.2 = r.v.lo) ∧ (∃ q ∈ P, q.2 = r.v.hi)

theorem bbox_step {r : Rect} {P : List (Int × Int)} (h : BBox r P) (p : Int × Int) :
    BBox (encompassPt r p).1 (p :: P) := by
  rw [encompassPt_eq]
  obtain ⟨h0, ⟨q1, m1, e1⟩, ⟨q2, m2, e2⟩, ⟨q3, m3, e3⟩, ⟨q4, m4, e4⟩⟩ := h
  refine ⟨fun q hq => ?_, ?_, ?_, ?_, ?_⟩
  · rcases List.mem_cons.mp hq with rfl | hq
    · simp only; omega
    · have := h0 q hq; simp only; omega
  · by_cases c : p.1 ≤ r.h.lo
    · exact ⟨p, by simp, by simp only; omega⟩
    · exact ⟨q1, by simp [m1], by simp only; omega⟩
  · by_cases c : r.h.hi ≤ p.1
    · exact ⟨p, by simp, by simp only; omega⟩
    · exact ⟨q2, by simp [m2], by simp only; omega⟩
  · by_cases c : p.2 ≤ r.v.lo
    · exact ⟨p, by simp, by simp only; omega⟩
    · exact ⟨q3, by simp [m3], by simp only; omega⟩
  · by_cases c : r.v.hi ≤ p.2
    · exact ⟨p, by simp, by simp only; omega⟩
    · exact ⟨q4, by simp [m4], by simp only; omega⟩

theorem bbox_congr {r : Rect} {P Q : List (Int × Int)} (h : BBox r P) (e : ∀ q, q ∈ P ↔ q ∈ Q) : BBox r Q := by
  obtain ⟨h0, ⟨q1, m1, e1⟩, ⟨q2, m2, e2⟩, ⟨q3, m3, e3⟩, ⟨q4, m4, e4⟩⟩ := h
  exact ⟨fun q hq => h0 q ((e q).mpr hq), ⟨q1, (e _).mp m1, e1⟩, ⟨q2, (e _).mp m2, e2⟩, ⟨q3, (e _).mp m3, e3⟩,
    ⟨q4, (e _).mp m4, e4⟩⟩

theorem bbox_fold (g : V → Int × Int) (M : List V) : ∀ (r : Rect) (P : List (Int × Int)), BBox r P →
    BBox (M.foldl (fun e w => (encompassPt e (g w)).1) r) (M.map g ++ P) := by
  induction M with
  | nil => intro r P h; exact h
  | cons w M ih =>
    intro r P h
    have := ih _ _ (bbox_step h (g w))
    refine bbox_congr this (fun q => ?_)
    simp only [List.mem_append, List.mem_cons, List.map_cons]
    constructor
    · rintro (h | h | h)
      · exact Or.inl (Or.inr h)
      · exact Or.inl (Or.inl h)
      · exact Or.inr h
    · rintro ((h | h) | h)
      · exact Or.inr (Or.inl h)
      · exact Or.inl h
      · exact Or.inr (Or.inr h)

theorem bbox_init (p q : Int × Int) : BBox (setPoints p q) [p, q] := by
  unfold setPoints Interval.construct
  refine ⟨fun w hw => ?_, ?_, ?_, ?_, ?_⟩
  · simp at hw
    rcases hw with rfl | rfl <;> split_ifs <;> simp only <;> omega
  all_goals split_ifs <;> simp

theorem extents_bbox {v : V} {r : List V} (g : V → Int × Int) :
    BBox (r.dropLast.foldl (fun e w => (encompassPt e (g w)).1)
      (setPoints (g v) (g ((v :: r).getLast (by simp))))) ((v :: r).map g) := by
  refine bbox_congr (bbox_fold g r.dropLast _ _ (bbox_init (g v) (g ((v :: r).getLast (by simp))))) (fun q => ?_)
  cases r with
  | nil => simp
  | cons w r =>
    have e := List.dropLast_append_getLast (l := w :: r) (by simp)
    rw [List.getLast_cons (by simp)]
    conv_rhs => rw [← e]
    simp only [List.map_cons, List.map_append, List.mem_append, List.mem_cons, List.map_nil, List.not_mem_nil, or_false]
    tauto

theorem mass_ne_zero_flat {L : List V} (h : Flat L) {v : V} (hv : v ∈ L) : mass L v.x v.y ≠ 0 := by
  have p := sortData_perm L
  have hc : Canon (sortData L) := canon_of_flat (sortData_sorted L) (flat_perm p.symm h)
  have := mass_ne_zero hc (p.mem_iff.mpr hv)
  unfold mass at *
  rwa [(p.map _).sum_eq] at this

theorem cover_zero_right {L : List V} (h : Closed L) {X : Int} (hX : ∀ v ∈ L, v.x ≤ X) {a y : Int} (ha : X ≤ a) :
    coverZ L a y = 0 := by
  obtain ⟨x0, h0⟩ := cover_right h
  rw [← h0 (max a x0) y (by omega)]
  clear h0 h
  induction L with
  | nil => rfl
  | cons v L ih =>
    rw [coverZ_cons, coverZ_cons, ih (fun w hw => hX w (by simp [hw]))]
    have := hX v (by simp)
    congr 1
    split_ifs <;> omega

theorem cover_zero_left {L : List V} {X : Int} (hX : ∀ v ∈ L, X ≤ v.x) {a y : Int} (ha : a < X) :
    coverZ L a y = 0 := by
  induction L with
  | nil => rfl
  | cons v L ih =>
    rw [coverZ_cons, ih (fun w hw => hX w (by simp [hw]))]
    have := hX v (by simp)
    rw [if_neg (by omega)]; rfl

theorem x_low_tight {L : List V} (hf : Flat L) {v : V} (hv : v ∈ L) (hX : ∀ w ∈ L, v.x ≤ w.x) :
    ∃ y, 0 < coverZ L v.x y := by
  have hm := mass_ne_zero_flat hf hv
  rw [mass_eq_cover, cover_zero_left hX (a := v.x - 1) (y := v.y) (by omega),
    cover_zero_left hX (a := v.x - 1) (y := v.y - 1) (by omega)] at hm
  have h1 := hf.2.2 v.x v.y
  have h2 := hf.2.2 v.x ((v.y - 1 : Int) : ℚ)
  rw [cover_int] at h1 h2
  by_cases c : coverZ L v.x v.y = 1
  · exact ⟨v.y, by omega⟩
  · exact ⟨v.y - 1, by omega⟩

theorem x_high_tight {L : List V} (hf : Flat L) (hc : Closed L) {v : V} (hv : v ∈ L) (hX : ∀ w ∈ L, w.x ≤ v.x) :
    ∃ y, 0 < coverZ L (v.x - 1) y := by
  have hm := mass_ne_zero_flat hf hv
  rw [mass_eq_cover, cover_zero_right hc hX (a := v.x) (y := v.y) (by omega),
    cover_zero_right hc hX (a := v.x) (y := v.y - 1) (by omega)] at hm
  have h1 := hf.2.2 ((v.x - 1 : Int) : ℚ) v.y
  have h2 := hf.2.2 ((v.x - 1 : Int) : ℚ) ((v.y - 1 : Int) : ℚ)
  rw [cover_int] at h1 h2
  by_cases c : coverZ L (v.x - 1) v.y = 1
  · exact ⟨v.y, by omega⟩
  · exact ⟨v.y - 1, by omega⟩

theorem flat_swap {L : List V} (hf : Flat L) : Flat (L.map swapV) :=
  flat_map hf swapV (fun v => Or.inl rfl) (fun v w h1 h2 => by simp only [swapV] at *; omega)
    (fun a y => ⟨_, _, coverZ_swap _ a y⟩)

/-- In the vertical frame: the bounding box of the vertices is the bounding box of the cells. -/
theorem bbox_cells {L : List V} (hf : Flat L) (hc : Closed L) {r : Rect} (hb : BBox r (L.map (fun v => (v.x, v.y)))) :
    (∀ a y, 0 < coverZ L a y → r.h.lo ≤ a ∧ a < r.h.hi ∧ r.v.lo ≤ y ∧ y < r.v.hi) ∧
    (∃ y, 0 < coverZ L r.h.lo y) ∧ (∃ y, 0 < coverZ L (r.h.hi - 1) y) ∧
    (∃ a, 0 < coverZ L a r.v.lo) ∧ (∃ a, 0 < coverZ L a (r.v.hi - 1)) := by
  obtain ⟨h0, ⟨q1, m1, e1⟩, ⟨q2, m2, e2⟩, ⟨q3, m3, e3⟩, ⟨q4, m4, e4⟩⟩ := hb
  simp only [List.mem_map] at h0 m1 m2 m3 m4
  obtain ⟨v1, i1, rfl⟩ := m1
  obtain ⟨v2, i2, rfl⟩ := m2
  obtain ⟨v3, i3, rfl⟩ := m3
  obtain ⟨v4, i4, rfl⟩ := m4
  simp only at e1 e2 e3 e4
  have hb : ∀ v ∈ L, r.h.lo ≤ v.x ∧ v.x ≤ r.h.hi ∧ r.v.lo ≤ v.y ∧ v.y ≤ r.v.hi := fun v hv => h0 _ ⟨v, hv, rfl⟩
  have sw : ∀ v ∈ L.map swapV, ∃ w ∈ L, v = swapV w := fun v hv => by
    obtain ⟨w, hw, rfl⟩ := List.mem_map.mp hv; exact ⟨w, hw, rfl⟩
  refine ⟨fun a y hp => ⟨?_, ?_, ?_, ?_⟩, ?_, ?_, ?_, ?_⟩
  · by_contra hcon
    rw [cover_zero_left (X := r.h.lo) (fun w hw => (hb w hw).1) (by omega)] at hp; omega
  · by_contra hcon
    rw [cover_zero_right hc (X := r.h.hi) (fun w hw => (hb w hw).2.1) (by omega)] at hp; omega
  · by_contra hcon
    rw [← coverZ_swap, cover_zero_left (X := r.v.lo) (fun w hw => by
      obtain ⟨u, hu, rfl⟩ := sw w hw; exact (hb u hu).2.2.1) (by omega)] at hp; omega
  · by_contra hcon
    rw [← coverZ_swap, cover_zero_right (closed_swap hc) (X := r.v.hi) (fun w hw => by
      obtain ⟨u, hu, rfl⟩ := sw w hw; exact (hb u hu).2.2.2) (by omega)] at hp; omega
  · rw [← e1]; exact x_low_tight hf i1 (fun w hw => by have := hb w hw; omega)
  · rw [← e2]; exact x_high_tight hf hc i2 (fun w hw => by have := hb w hw; omega)
  · rw [← e3]
    obtain ⟨y, hy⟩ := x_low_tight (flat_swap hf) (v := swapV v3) (List.mem_map.mpr ⟨v3, i3, rfl⟩) (fun w hw => by
      obtain ⟨u, hu, rfl⟩ := sw w hw
      have := hb u hu; simp only [swapV]; omega)
    rw [coverZ_swap] at hy
    exact ⟨y, hy⟩
  · rw [← e4]
    obtain ⟨y, hy⟩ := x_high_tight (flat_swap hf) (closed_swap hc) (v := swapV v4) (List.mem_map.mpr ⟨v4, i4, rfl⟩) (fun w hw => by
      obtain ⟨u, hu, rfl⟩ := sw w hw
      have := hb u hu; simp only [swapV]; omega)
    rw [coverZ_swap] at hy
    exact ⟨y, hy⟩

end Verif.Set90
