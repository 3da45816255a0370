import Verif.Proofs.MaxCover
import Verif.Spec.MaxRect
import Verif.Properties.RectForm
/-!
# C67: `get_max_rectangles`

`MaximalRect`, `RectInside` are in `Spec/MaxRect.lean`.
-/
namespace Verif.Properties.MaxCover
open Verif.BooleanOp Verif.Set90 Verif.Spec Verif.Isotropy Verif.Rectangle Verif.RectForm Verif.MaxCover
open Verif.Properties.Set90 Verif.Properties.RectForm

variable {umin umax : Int}

theorem getRectangles_tiling {s : PSet} (h : Valid umin umax s) :
    ∃ rs t, s.getRectangles umax = some (rs.map (SR.toRect s.orient), t) ∧ Tiling (fun x y => 0 < coverZ s.data x y) rs := by
  obtain ⟨t, e, t1, t2, t3, t4, t5, t6⟩ := Verif.Set90.clean_spec h
  obtain ⟨rs, e2, r1, r2, r3, r4⟩ := formRects_spec umax (t5.sorted t3) (t5.clean t2) t5.closed
  refine ⟨rs, t, by simp [PSet.getRectangles, e, e2, t1], r1, fun x y => ?_, fun a ha b hb x y h1 h2 => ?_, fun r hr x x1 x2 => ?_, r4⟩
  · have h1 : ∀ {L : List SR}, 0 < sm (oc x y) L ↔ ∃ r ∈ L, InSR r x y := by
      intro L
      induction L with
      | nil => simp
      | cons a l ih =>
        have h0 : 0 ≤ sm (oc x y) l := by
          clear ih
          induction l with
          | nil => simp
          | cons b l ihl => rw [sm_cons]; have : 0 ≤ oc x y b := (by unfold oc; split_ifs <;> simp); omega
        rw [sm_cons, List.exists_mem_cons_iff, ← ih]
        by_cases hc : InSR a x y
        · have : oc x y a = 1 := by unfold InSR at hc; simp [oc, hc]
          simp [hc]; omega
        · have : oc x y a = 0 := by unfold InSR at hc; simp only [oc]; rw [if_neg hc]
          simp [hc, this]
    rw [← h1, r2, t6]
    by_cases hc : 0 < coverZ s.data x y <;> simp [ind, hc]
  · by_contra hne
    have hle : sm (oc x y) rs ≤ 1 := by rw [r2, t6]; unfold ind; split_ifs <;> simp
    obtain ⟨L1, L2, rfl⟩ := List.append_of_mem ha
    have hb' : b ∈ L1 ++ L2 := by
      rcases List.mem_append.1 hb with hb | hb
      · exact List.mem_append_left _ hb
      · rcases List.mem_cons.1 hb with rfl | hb
        · exact absurd rfl hne
        · exact List.mem_append_right _ hb
    have hoc : ∀ r, InSR r x y → oc x y r = 1 := fun r hr => by unfold InSR at hr; simp [oc, hr]
    have hnn : ∀ L : List SR, 0 ≤ sm (oc x y) L := fun L => by
      induction L with
      | nil => simp
      | cons b l ihl => rw [sm_cons]; have : 0 ≤ oc x y b := (by unfold oc; split_ifs <;> simp); omega
    obtain ⟨M1, M2, eM⟩ := List.append_of_mem hb'
    have e3 : sm (oc x y) (L1 ++ L2) = sm (oc x y) (M1 ++ b :: M2) := by rw [eM]
    rw [sm_append, sm_cons, hoc a h1] at hle
    rw [sm_append, sm_append, sm_cons, hoc b h2] at e3
    have := hnn M1; have := hnn M2
    omega
  · have h0 : ∀ a y, coverZ t.data a y = 0 → ¬ 0 < coverZ s.data a y := fun a y hz hp => by
      rw [t6] at hz; simp [ind, hp] at hz
    have := r3 r hr x x1 x2
    exact ⟨h0 _ _ this.1, h0 _ _ this.2⟩

theorem toSR_toRect (o : Nat) (r : SR) : toSR o (r.toRect o) = r := by
  unfold toSR SR.toRect
  split_ifs <;> rfl

theorem toRect_toSR (o : Nat) (r : Rect) : (toSR o r).toRect o = r := by
  unfold toSR SR.toRect
  split_ifs <;> rfl

theorem inside_iff {s : PSet} (ho : s.orient = HORIZONTAL ∨ s.orient = VERTICAL) (r : SR) :
    RectInside s (r.toRect s.orient) ↔ Fits (fun x y => 0 < coverZ s.data x y) r := by
  have hV : ¬ HORIZONTAL = VERTICAL := by decide
  rcases ho with ho | ho
  · unfold RectInside Fits Covers
    rw [ho]
    simp only [SR.toRect, if_true]
    constructor
    · rintro ⟨h1, h2, h3⟩
      refine ⟨h2, h1, fun x y hi => ?_⟩
      obtain ⟨i1, i2, i3, i4⟩ := hi
      have := h3 ((y : ℚ), (x : ℚ)) ⟨Int.cast_le.2 i3, Int.cast_lt.2 i4, Int.cast_le.2 i1, Int.cast_lt.2 i2⟩
      simpa [depth_def, ho, hV] using this
    · rintro ⟨h1, h2, h3⟩
      refine ⟨h2, h1, fun p hp => ?_⟩
      obtain ⟨i1, i2, i3, i4⟩ := hp
      have := h3 ⌊p.2⌋ ⌊p.1⌋ ⟨Int.le_floor.2 i3, Int.floor_lt.2 i4, Int.le_floor.2 i1, Int.floor_lt.2 i2⟩
      simpa [depth_def, ho, hV] using this
  · unfold RectInside Fits Covers
    rw [ho]
    simp only [SR.toRect, if_neg (Ne.symm hV)]
    constructor
    · rintro ⟨h1, h2, h3⟩
      refine ⟨h1, h2, fun x y hi => ?_⟩
      obtain ⟨i1, i2, i3, i4⟩ := hi
      have := h3 ((x : ℚ), (y : ℚ)) ⟨Int.cast_le.2 i1, Int.cast_lt.2 i2, Int.cast_le.2 i3, Int.cast_lt.2 i4⟩
      simpa [depth_def, ho] using this
    · rintro ⟨h1, h2, h3⟩
      refine ⟨h1, h2, fun p hp => ?_⟩
      obtain ⟨i1, i2, i3, i4⟩ := hp
      have := h3 ⌊p.1⌋ ⌊p.2⌋ ⟨Int.le_floor.2 i1, Int.floor_lt.2 i2, Int.le_floor.2 i3, Int.floor_lt.2 i4⟩
      simpa [depth_def, ho] using this

theorem rect_sub_iff {r q : Rect} (h1 : r.h.lo < r.h.hi) (h2 : r.v.lo < r.v.hi) :
    (∀ p, InRect r p → InRect q p) ↔ q.h.lo ≤ r.h.lo ∧ r.h.hi ≤ q.h.hi ∧ q.v.lo ≤ r.v.lo ∧ r.v.hi ≤ q.v.hi := by
  constructor
  · intro h
    have a := h ((r.h.lo : ℚ), (r.v.lo : ℚ)) ⟨le_refl _, Int.cast_lt.2 h1, le_refl _, Int.cast_lt.2 h2⟩
    have b := h (((r.h.hi - 1 : Int) : ℚ), ((r.v.hi - 1 : Int) : ℚ))
      ⟨Int.cast_le.2 (show r.h.lo ≤ r.h.hi - 1 by omega), Int.cast_lt.2 (show r.h.hi - 1 < r.h.hi by omega),
       Int.cast_le.2 (show r.v.lo ≤ r.v.hi - 1 by omega), Int.cast_lt.2 (show r.v.hi - 1 < r.v.hi by omega)⟩
    obtain ⟨a1, a2, a3, a4⟩ := a
    obtain ⟨b1, b2, b3, b4⟩ := b
    dsimp only at a1 a3 b2 b4
    have a1 : q.h.lo ≤ r.h.lo := by exact_mod_cast a1
    have a3 : q.v.lo ≤ r.v.lo := by exact_mod_cast a3
    have b2 : r.h.hi - 1 < q.h.hi := by exact_mod_cast b2
    have b4 : r.v.hi - 1 < q.v.hi := by exact_mod_cast b4
    omega
  · rintro ⟨a1, a2, a3, a4⟩ p ⟨i1, i2, i3, i4⟩
    have a1 : (q.h.lo : ℚ) ≤ r.h.lo := by exact_mod_cast a1
    have a2 : (r.h.hi : ℚ) ≤ q.h.hi := by exact_mod_cast a2
    have a3 : (q.v.lo : ℚ) ≤ r.v.lo := by exact_mod_cast a3
    have a4 : (r.v.hi : ℚ) ≤ q.v.hi := by exact_mod_cast a4
    exact ⟨by linarith, by linarith, by linarith, by linarith⟩

theorem toRect_sub (o : Nat) {r q : SR} (h1 : r.pl < r.ph) (h2 : r.lo < r.hi) :
    (∀ p, InRect (r.toRect o) p → InRect (q.toRect o) p) ↔ SubR r q := by
  rw [rect_sub_iff]
  · unfold SubR SR.toRect
    split_ifs
    · simp only; tauto
    · simp only
  · unfold SR.toRect; split_ifs
    · exact h2
    · exact h1
  · unfold SR.toRect; split_ifs
    · exact h1
    · exact h2

theorem maximal_iff {s : PSet} (ho : s.orient = HORIZONTAL ∨ s.orient = VERTICAL) (r : SR) :
    MaximalRect s (r.toRect s.orient) ↔ Maxl (fun x y => 0 < coverZ s.data x y) r := by
  unfold MaximalRect Maxl
  rw [inside_iff ho]
  refine and_congr_right (fun hr => ?_)
  constructor
  · intro h q hq hs
    have := h (q.toRect s.orient) ((inside_iff ho q).2 hq) ((toRect_sub _ hr.1 hr.2.1).2 hs)
    rw [← toSR_toRect s.orient q, this, toSR_toRect]
  · intro h q hq hs
    rw [← toRect_toSR s.orient q] at hq hs ⊢
    rw [h _ ((inside_iff ho _).1 hq) ((toRect_sub _ hr.1 hr.2.1).1 hs)]

/-- C67: `get_max_rectangles` terminates and writes exactly the maximal rectangles of the set, each once. -/
theorem C67_max_rectangles {s : PSet} (h : Valid umin umax s) :
    ∃ out, (∃ N, ∀ k, N ≤ k → s.getMaxRectangles umax k = some out) ∧ out.Nodup ∧ ∀ r, r ∈ out ↔ MaximalRect s r := by
  have hm := mk0_valid (umin := umin) (umax := umax) s.orient h.orient
  have hv : Valid umin umax ((PSet.mk0 s.orient).insertRange s.data s.orient) := insertSet_valid hm h
  obtain ⟨rs, t, e, ht⟩ := getRectangles_tiling hv
  have ho : ((PSet.mk0 s.orient).insertRange s.data s.orient).orient = s.orient := by
    unfold PSet.insertRange; by_cases hd : s.data = [] <;> simp [hd, PSet.mk0]
  have hcov : (fun x y => 0 < coverZ ((PSet.mk0 s.orient).insertRange s.data s.orient).data x y) = fun x y => 0 < coverZ s.data x y := by
    have : ((PSet.mk0 s.orient).insertRange s.data s.orient).data = s.data := by
      unfold PSet.insertRange; by_cases hd : s.data = [] <;> simp [hd, PSet.mk0]
    rw [this]
  rw [hcov] at ht
  obtain ⟨out, ⟨N, hN⟩, hnd, hout⟩ := ht.maxCover
  refine ⟨out.map (SR.toRect s.orient), ⟨N, fun k hk => ?_⟩, ?_, fun r => ?_⟩
  · have : (rs.map (SR.toRect s.orient)).map (toSR s.orient) = rs := by
      rw [List.map_map]
      conv_rhs => rw [← List.map_id rs]
      exact List.map_congr_left (fun r _ => toSR_toRect _ r)
    rw [ho] at e
    simp [PSet.getMaxRectangles, e, ← List.map_map, this, hN k hk]
  · exact hnd.map (fun a b hab => by rw [← toSR_toRect s.orient a, hab, toSR_toRect])
  · rw [List.mem_map]
    constructor
    · rintro ⟨q, hq, rfl⟩
      exact (maximal_iff h.orient q).2 ((hout q).1 hq)
    · intro hr
      refine ⟨toSR s.orient r, (hout _).2 ((maximal_iff h.orient _).1 ?_), toRect_toSR _ _⟩
      rwa [toRect_toSR]

theorem inside_bounds {s : PSet} (h : Valid umin umax s) {r : Rect} (hr : RectInside s r) :
    umin ≤ r.h.lo ∧ r.h.hi ≤ umax ∧ umin ≤ r.v.lo ∧ r.v.hi ≤ umax := by
  obtain ⟨h1, h2, h3⟩ := hr
  have key : ∀ x y : Int, r.h.lo ≤ x → x < r.h.hi → r.v.lo ≤ y → y < r.v.hi → umin ≤ x ∧ x < umax ∧ umin ≤ y ∧ y < umax := by
    intro x y x1 x2 y1 y2
    by_contra hn
    have a := h3 ((x : ℚ), (y : ℚ)) ⟨Int.cast_le.2 x1, Int.cast_lt.2 x2, Int.cast_le.2 y1, Int.cast_lt.2 y2⟩
    have b := depth_out h (a := x) (b := y) (by omega)
    unfold Covers at a
    rw [b] at a
    exact lt_irrefl _ a
  have a := key r.h.lo r.v.lo (le_refl _) h1 (le_refl _) h2
  have b := key (r.h.hi - 1) (r.v.hi - 1) (by omega) (by omega) (by omega) (by omega)
  omega

/-- C67: every rectangle inside the set lies in one of the rectangles written. -/
theorem C67_every_rectangle_inside {s : PSet} (h : Valid umin umax s) :
    ∃ out, (∃ N, ∀ k, N ≤ k → s.getMaxRectangles umax k = some out) ∧
      ∀ r, RectInside s r → ∃ q ∈ out, ∀ p, InRect r p → InRect q p := by
  obtain ⟨out, hN, -, hout⟩ := C67_max_rectangles h
  refine ⟨out, hN, ?_⟩
  have : ∀ (n : Nat) (r : Rect), RectInside s r → (r.h.lo - umin) + (umax - r.h.hi) + (r.v.lo - umin) + (umax - r.v.hi) ≤ n →
      ∃ q ∈ out, ∀ p, InRect r p → InRect q p := by
    intro n
    induction n with
    | zero =>
      intro r hr hn
      refine ⟨r, (hout r).2 ⟨hr, fun q hq hs => ?_⟩, fun p hp => hp⟩
      have b1 := inside_bounds h hr
      have b2 := inside_bounds h hq
      rw [rect_sub_iff hr.1 hr.2.1] at hs
      obtain ⟨⟨a, b⟩, ⟨c, d⟩⟩ := r
      obtain ⟨⟨a', b'⟩, ⟨c', d'⟩⟩ := q
      simp only [Rect.mk.injEq, Verif.Interval.Ivl.mk.injEq] at *
      omega
    | succ n ih =>
      intro r hr hn
      by_cases hm : MaximalRect s r
      · exact ⟨r, (hout r).2 hm, fun p hp => hp⟩
      · unfold MaximalRect at hm
        push Not at hm
        obtain ⟨q, hq, hs, hne⟩ := hm hr
        have hs' := (rect_sub_iff hr.1 hr.2.1).1 hs
        obtain ⟨x, hx, hx'⟩ := ih q hq (by
          obtain ⟨⟨a, b⟩, ⟨c, d⟩⟩ := r
          obtain ⟨⟨a', b'⟩, ⟨c', d'⟩⟩ := q
          simp only [ne_eq, Rect.mk.injEq, Verif.Interval.Ivl.mk.injEq] at *
          omega)
        exact ⟨x, hx, fun p hp => hx' p (hs p hp)⟩
  intro r hr
  have b := inside_bounds h hr
  exact this ((r.h.lo - umin) + (umax - r.h.hi) + (r.v.lo - umin) + (umax - r.v.hi)).toNat r hr (by omega)

/-- C67: so a point is covered by the set exactly if it lies in one of the rectangles written. -/
theorem C67_same_region {s : PSet} (h : Valid umin umax s) :
    ∃ out, (∃ N, ∀ k, N ≤ k → s.getMaxRectangles umax k = some out) ∧ ∀ p, Covers s p ↔ ∃ r ∈ out, InRect r p := by
  obtain ⟨out, ⟨N, hN⟩, h1⟩ := C67_every_rectangle_inside h
  obtain ⟨out', ⟨N', hN'⟩, -, h2⟩ := C67_max_rectangles h
  have e : out' = out := by
    have a := hN (max N N') (le_max_left _ _)
    rw [hN' (max N N') (le_max_right _ _)] at a
    exact Option.some_inj.1 a
  subst e
  refine ⟨out', ⟨N, hN⟩, fun p => ⟨fun hp => ?_, fun ⟨r, hr, hp⟩ => ((h2 r).1 hr).1.2.2 p hp⟩⟩
  obtain ⟨q, hq, hs⟩ := h1 ⟨⟨⌊p.1⌋, ⌊p.1⌋ + 1⟩, ⟨⌊p.2⌋, ⌊p.2⌋ + 1⟩⟩ ⟨by simp, by simp, fun x hx => by
    obtain ⟨i1, i2, i3, i4⟩ := hx
    have e1 : ⌊x.1⌋ = ⌊p.1⌋ := Int.floor_eq_iff.2 ⟨i1, by simpa using i2⟩
    have e2 : ⌊x.2⌋ = ⌊p.2⌋ := Int.floor_eq_iff.2 ⟨i3, by simpa using i4⟩
    unfold Covers at hp ⊢
    rw [← depth_floor, e1, e2, depth_floor]
    exact hp⟩
  refine ⟨q, hq, hs p ⟨Int.floor_le _, ?_, Int.floor_le _, ?_⟩⟩
  · push_cast; exact Int.lt_floor_add_one _
  · push_cast; exact Int.lt_floor_add_one _

example : exA.getMaxRectangles 100 12 = some [⟨⟨0, 4⟩, ⟨0, 3⟩⟩, ⟨⟨2, 4⟩, ⟨0, 5⟩⟩, ⟨⟨2, 6⟩, ⟨1, 5⟩⟩, ⟨⟨0, 6⟩, ⟨1, 3⟩⟩] := by decide +kernel
example : Valid (-100) 100 exA := C02_reachable_is_valid exA_reach

end Verif.Properties.MaxCover
