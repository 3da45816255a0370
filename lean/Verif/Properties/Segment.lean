import Verif.Proofs.Segment
import Verif.Proofs.Set90Extents
/-!
# C26 – C28: segment orientation, containment and intersection

Specification: `Spec/Segment.lean` (exact cross products, parametric rational points).
-/
namespace Verif.Properties.Segment
open Verif.Machine Verif.Interval Verif.Rectangle Verif.Segment Verif.Spec

/-! ## C26 -/

/-- C26: `orientation(segment, segment)` is the sign of the exact cross product for every pair of
segments with 32-bit coordinates; no signed intermediate overflows (the result is not `none`). -/
theorem C26_orientation_segments {s1 s2 : Seg} (h1 : S32 s1) (h2 : S32 s2) :
    orientSeg s1 s2 = some (cross s1.lo s1.hi s2.lo s2.hi).sign := orientSeg_eq h1 h2

/-- C26: `orientation(segment, point)` is the sign of the exact determinant
`(hi-lo) × (p-lo)`: 1 to the left, -1 to the right, 0 on the line. -/
theorem C26_orientation_point {s : Seg} {p : Int × Int} (h : S32 s) (hp : P32 p) :
    orientPt s p = some (cross s.lo s.hi s.lo p).sign := by
  rw [orientPt_eq h hp]
  congr 2
  unfold cross; ring

/-- C26: swapping the segments negates the orientation. -/
theorem C26_orientation_antisymmetric {s1 s2 : Seg} (h1 : S32 s1) (h2 : S32 s2) :
    ∃ o, orientSeg s1 s2 = some o ∧ orientSeg s2 s1 = some (-o) := by
  refine ⟨_, orientSeg_eq h1 h2, ?_⟩
  rw [orientSeg_eq h2 h1, ← Int.sign_neg]
  congr 2
  unfold cross; ring

-- the extreme corners of the coordinate range, where a 64-bit signed product would overflow
example : S32 ⟨(-2 ^ 31, -2 ^ 31), (2 ^ 31 - 1, 2 ^ 31 - 1)⟩ ∧ S32 ⟨(-2 ^ 31, 2 ^ 31 - 2), (2 ^ 31 - 1, -2 ^ 31)⟩ := by
  simp [S32, P32, I32]
example : orientSeg ⟨(-2 ^ 31, -2 ^ 31), (2 ^ 31 - 1, 2 ^ 31 - 1)⟩ ⟨(-2 ^ 31, 2 ^ 31 - 2), (2 ^ 31 - 1, -2 ^ 31)⟩ = some (-1) := by
  decide +kernel
example : orientSeg ⟨(-2 ^ 31, -2 ^ 31), (2 ^ 31 - 1, 2 ^ 31 - 1)⟩ ⟨(-2 ^ 31, -2 ^ 31), (2 ^ 31 - 1, 2 ^ 31 - 2)⟩ = some (-1) := by
  decide +kernel

/-! ## C27 -/

private theorem construct_mem (a b p : Int) :
    containsVal (construct a b) p true = true ↔ min a b ≤ p ∧ p ≤ max a b := by
  have e1 : construct a b = ⟨min a b, max a b⟩ := by
    unfold construct; split_ifs <;> congr 1 <;> omega
  rw [e1]
  simp only [containsVal, if_true, Bool.and_eq_true, decide_eq_true_eq, ge_iff_le]
  exact and_comm

/-- C27: `contains(segment, point, true)` holds exactly when the point is on the closed segment;
without touching, exactly when in addition it is neither end point. Degenerate segments included. -/
theorem C27_contains_point {s : Seg} {p : Int × Int} (h : S32 s) (hp : P32 p) :
    (∃ b, containsPtSeg s p true = some b ∧ (b = true ↔ OnSeg s (p.1, p.2))) ∧
    (∃ b, containsPtSeg s p false = some b ∧ (b = true ↔ OnSeg s (p.1, p.2) ∧ ¬ IsEnd s (p.1, p.2))) := by
  have key : OnSeg s (p.1, p.2) ↔ (cross s.lo s.hi s.hi p = 0 ∧ containsPt (setPoints s.lo s.hi) p true = true) := by
    have e : OnSeg s (p.1, p.2) ↔ ∃ u t, MeetAt ((s.lo.1 : ℚ), (s.lo.2 : ℚ)) ((s.hi.1 : ℚ) - s.lo.1, (s.hi.2 : ℚ) - s.lo.2)
        ((p.1 : ℚ), (p.2 : ℚ)) (0, 0) u t := by
      constructor
      · rintro ⟨t, t0, t1, e1, e2⟩
        refine ⟨t, 0, t0, t1, le_refl _, by norm_num, ?_, ?_⟩
        · simp only at e1 ⊢; linarith
        · simp only at e2 ⊢; linarith
      · rintro ⟨u, t, u0, u1, -, -, e1, e2⟩
        refine ⟨u, u0, u1, ?_, ?_⟩
        · simp only at e1 ⊢; linarith
        · simp only at e2 ⊢; linarith
    rw [e, meet_iff rfl rfl rfl]
    have c0 : ((cross s.lo s.hi s.hi p : ℤ) : ℚ) =
        -crossQ ((p.1 : ℚ) - s.lo.1, (p.2 : ℚ) - s.lo.2) ((s.hi.1 : ℚ) - s.lo.1, (s.hi.2 : ℚ) - s.lo.2) := by
      unfold cross crossQ; push_cast; ring
    have d0 : crossQ ((s.hi.1 : ℚ) - s.lo.1, (s.hi.2 : ℚ) - s.lo.2) (0, 0) = 0 := by simp [crossQ]
    have e0 : crossQ ((p.1 : ℚ) - s.lo.1, (p.2 : ℚ) - s.lo.2) (0, 0) = 0 := by simp [crossQ]
    have hz : cross s.lo s.hi s.hi p = 0 ↔
        crossQ ((p.1 : ℚ) - s.lo.1, (p.2 : ℚ) - s.lo.2) ((s.hi.1 : ℚ) - s.lo.1, (s.hi.2 : ℚ) - s.lo.2) = 0 := by
      rw [← @Int.cast_eq_zero ℚ, c0, neg_eq_zero]
    have hb : containsPt (setPoints s.lo s.hi) p true = true ↔
        Ovl (s.lo.1 : ℚ) ((s.hi.1 : ℚ) - s.lo.1) p.1 0 ∧ Ovl (s.lo.2 : ℚ) ((s.hi.2 : ℚ) - s.lo.2) p.2 0 := by
      unfold containsPt setPoints
      rw [Bool.and_eq_true, construct_mem, construct_mem]
      have : ∀ a b c : Int, (min a b ≤ c ∧ c ≤ max a b) ↔ Ovl (a : ℚ) ((b : ℚ) - a) c 0 := by
        intro a b c
        unfold Ovl
        simp only [add_sub_cancel, add_zero, min_self, max_self]
        constructor
        · intro ⟨g1, g2⟩; exact ⟨by exact_mod_cast g1, by exact_mod_cast g2⟩
        · intro ⟨g1, g2⟩; exact ⟨by exact_mod_cast g1, by exact_mod_cast g2⟩
      rw [this, this]
    rw [hz, hb, d0, e0]
    simp only [sub_zero, mul_zero, le_refl, and_true]
    constructor
    · rintro ⟨g1, g2, g3⟩
      exact ⟨mul_self_eq_zero.mp (le_antisymm g3 (mul_self_nonneg _)), g1, g2⟩
    · rintro ⟨g1, g2, g3⟩
      exact ⟨g2, g3, by rw [g1]; norm_num⟩
  have hends : (s.lo == p || s.hi == p) = true ↔ IsEnd s (p.1, p.2) := by
    rw [Bool.or_eq_true, beq_iff_eq, beq_iff_eq]
    unfold IsEnd
    simp only [Int.cast_inj]
    constructor
    · rintro (rfl | rfl)
      · exact Or.inl ⟨rfl, rfl⟩
      · exact Or.inr ⟨rfl, rfl⟩
    · rintro (⟨a, b⟩ | ⟨a, b⟩)
      · exact Or.inl (Prod.ext a.symm b.symm)
      · exact Or.inr (Prod.ext a.symm b.symm)
  rw [key, ← hends]
  have unf : ∀ touch, containsPtSeg s p touch = some (decide (cross s.lo s.hi s.hi p = 0) &&
      containsPt (setPoints s.lo s.hi) p true && (touch || !(s.lo == p || s.hi == p))) := by
    intro touch
    unfold containsPtSeg
    rw [orientPt_eq h hp]
    simp only [Option.bind_eq_bind, Option.bind_some, ne_eq, Int.sign_eq_zero_iff_zero]
    by_cases h1 : cross s.lo s.hi s.hi p = 0
    · by_cases h2 : containsPt (setPoints s.lo s.hi) p true = true
      · by_cases h3 : (s.lo == p || s.hi == p) = true <;> cases touch <;> simp [h1, h2, h3]
      · simp [h1, h2]
    · simp [h1]
  refine ⟨⟨_, unf true, by simp⟩, ⟨_, unf false, ?_⟩⟩
  simp only [Bool.false_or, Bool.and_eq_true, decide_eq_true_eq, Bool.not_eq_true', Bool.not_eq_true]

/-- C27: `contains(segment, segment)` holds exactly when both end points of the second lie on the
first — equivalently all of its points do. -/
theorem C27_contains_segment {s1 s2 : Seg} (h1 : S32 s1) (h2 : S32 s2) :
    ∃ b, containsSeg s1 s2 true = some b ∧ (b = true ↔ ∀ q, OnSeg s2 q → OnSeg s1 q) := by
  obtain ⟨⟨b1, e1, g1⟩, -⟩ := C27_contains_point h1 h2.1
  obtain ⟨⟨b2, e2, g2⟩, -⟩ := C27_contains_point h1 h2.2
  refine ⟨b1 && b2, ?_, ?_⟩
  · unfold containsSeg
    simp only [e1, e2, Option.bind_eq_bind, Option.bind_some]
    cases b1 <;> simp
  · rw [Bool.and_eq_true, g1, g2]
    constructor
    · rintro ⟨⟨u, u0, u1, ux, uy⟩, v, v0, v1, vx, vy⟩ q ⟨t, t0, t1, tx, ty⟩
      simp only at ux uy vx vy
      refine ⟨u + t * (v - u), ?_, ?_, ?_, ?_⟩
      · nlinarith
      · nlinarith
      · rw [tx, vx, ux]; ring
      · rw [ty, vy, uy]; ring
    · intro h
      exact ⟨h _ ⟨0, le_refl _, by norm_num, by simp, by simp⟩, h _ ⟨1, by norm_num, le_refl _, by simp, by simp⟩⟩

example : containsPtSeg ⟨(0, 0), (6, 4)⟩ (3, 2) false = some true ∧ containsPtSeg ⟨(0, 0), (6, 4)⟩ (6, 4) false = some false ∧
    containsPtSeg ⟨(0, 0), (6, 4)⟩ (9, 6) true = some false ∧ containsPtSeg ⟨(5, 5), (5, 5)⟩ (5, 5) true = some true := by
  decide +kernel
example : OnSeg ⟨(0, 0), (6, 4)⟩ (3, 2) := ⟨1 / 2, by norm_num, by norm_num, by norm_num, by norm_num⟩

/-! ## C28 -/

private theorem code_iff {s1 s2 : Seg} (h1 : S32 s1) (h2 : S32 s2) (touch : Bool) :
    ∃ b, intersectsSeg s1 s2 touch = some b ∧
      (b = true ↔ (∃ q, OnSeg s1 q ∧ OnSeg s2 q ∧ (touch = true ∨ ¬ (IsEnd s1 q ∧ IsEnd s2 q)))) := by
  obtain ⟨⟨a1, a2⟩, ⟨b1, b2⟩⟩ := s1
  obtain ⟨⟨c1, c2⟩, ⟨d1, d2⟩⟩ := s2
  set p : ℚ × ℚ := ((a1 : ℚ), (a2 : ℚ)) with hp
  set d : ℚ × ℚ := ((b1 : ℚ) - a1, (b2 : ℚ) - a2) with hd
  set q : ℚ × ℚ := ((c1 : ℚ), (c2 : ℚ)) with hq
  set e : ℚ × ℚ := ((d1 : ℚ) - c1, (d2 : ℚ) - c2) with he
  have spec : (∃ q', OnSeg ⟨(a1, a2), (b1, b2)⟩ q' ∧ OnSeg ⟨(c1, c2), (d1, d2)⟩ q' ∧
      (touch = true ∨ ¬ (IsEnd ⟨(a1, a2), (b1, b2)⟩ q' ∧ IsEnd ⟨(c1, c2), (d1, d2)⟩ q'))) ↔
      ∃ s t, MeetAt p d q e s t ∧ (touch = true ∨ NotBothEnds p d q e (p.1 + s * d.1, p.2 + s * d.2)) := by
    constructor
    · rintro ⟨X, ⟨s, s0, s1, x1, x2⟩, ⟨t, t0, t1, y1, y2⟩, hn⟩
      refine ⟨s, t, ⟨s0, s1, t0, t1, ?_, ?_⟩, ?_⟩
      · simp only [p, d, q, e] at *; linarith
      · simp only [p, d, q, e] at *; linarith
      · rcases hn with hn | hn
        · exact Or.inl hn
        · refine Or.inr (fun hc => hn ?_)
          simp only [IsEnd, p, d, q, e] at *
          rw [← x1, ← x2] at hc
          simpa only [add_sub_cancel] using hc
    · rintro ⟨s, t, ⟨s0, s1, t0, t1, y1, y2⟩, hn⟩
      refine ⟨(p.1 + s * d.1, p.2 + s * d.2), ⟨s, s0, s1, rfl, rfl⟩, ⟨t, t0, t1, y1, y2⟩, ?_⟩
      rcases hn with hn | hn
      · exact Or.inl hn
      · refine Or.inr (fun hc => hn ?_)
        simp only [IsEnd, NotBothEnds, p, d, q, e] at *
        simpa only [add_sub_cancel] using hc
  rw [spec]
  exact intersectsSeg_meet ℚ h1 h2 touch hp hd hq he

/-- C28: `intersects(s1, s2, true)` holds exactly when the closed segments share a point; collinear
overlap and degenerate segments included. -/
theorem C28_intersects_touch {s1 s2 : Seg} (h1 : S32 s1) (h2 : S32 s2) :
    ∃ b, intersectsSeg s1 s2 true = some b ∧ (b = true ↔ ∃ q, OnSeg s1 q ∧ OnSeg s2 q) := by
  obtain ⟨b, e, h⟩ := code_iff h1 h2 true
  refine ⟨b, e, h.trans ?_⟩
  constructor
  · rintro ⟨q, a, b, -⟩; exact ⟨q, a, b⟩
  · rintro ⟨q, a, b⟩; exact ⟨q, a, b, Or.inl rfl⟩

/-- C28: `intersects(s1, s2, false)` holds exactly when the segments share a point that is not an
end point of both. -/
theorem C28_intersects_no_touch {s1 s2 : Seg} (h1 : S32 s1) (h2 : S32 s2) :
    ∃ b, intersectsSeg s1 s2 false = some b ∧
      (b = true ↔ ∃ q, OnSeg s1 q ∧ OnSeg s2 q ∧ ¬ (IsEnd s1 q ∧ IsEnd s2 q)) := by
  obtain ⟨b, e, h⟩ := code_iff h1 h2 false
  refine ⟨b, e, h.trans ?_⟩
  simp

private theorem onSeg_reverse (s : Seg) (q : ℚ × ℚ) : OnSeg (reverse s) q ↔ OnSeg s q := by
  constructor <;> rintro ⟨t, t0, t1, e1, e2⟩ <;> refine ⟨1 - t, by linarith, by linarith, ?_, ?_⟩ <;>
    simp only [reverse] at * <;> first | (rw [e1]; ring) | (rw [e2]; ring)

/-- C28: `intersects` is symmetric and does not depend on the direction in which either segment is
listed, with or without touching. -/
theorem C28_intersects_symmetric {s1 s2 : Seg} (h1 : S32 s1) (h2 : S32 s2) (touch : Bool) :
    intersectsSeg s1 s2 touch = intersectsSeg s2 s1 touch ∧
    intersectsSeg s1 s2 touch = intersectsSeg (reverse s1) s2 touch ∧
    intersectsSeg s1 s2 touch = intersectsSeg s1 (reverse s2) touch := by
  have r1 : S32 (reverse s1) := ⟨h1.2, h1.1⟩
  have r2 : S32 (reverse s2) := ⟨h2.2, h2.1⟩
  have er : ∀ s q, IsEnd (reverse s) q ↔ IsEnd s q := fun s q => or_comm
  obtain ⟨b, e, h⟩ := code_iff h1 h2 touch
  obtain ⟨b', e', h'⟩ := code_iff h2 h1 touch
  obtain ⟨c, ec, hc⟩ := code_iff r1 h2 touch
  obtain ⟨c', ec', hc'⟩ := code_iff h1 r2 touch
  simp only [onSeg_reverse, er] at hc hc'
  rw [e, e', ec, ec']
  refine ⟨?_, ?_, ?_⟩
  · congr 1
    rw [Bool.eq_iff_iff, h, h']
    constructor
    · rintro ⟨q, x, y, z⟩; exact ⟨q, y, x, z.imp id (fun z w => z ⟨w.2, w.1⟩)⟩
    · rintro ⟨q, x, y, z⟩; exact ⟨q, y, x, z.imp id (fun z w => z ⟨w.2, w.1⟩)⟩
  · congr 1
    rw [Bool.eq_iff_iff, h, hc]
  · congr 1
    rw [Bool.eq_iff_iff, h, hc']

-- crossing, T junction, shared end point, collinear overlap, collinear touch, point on segment
example : intersectsSeg ⟨(0, 0), (4, 4)⟩ ⟨(0, 3), (4, 0)⟩ false = some true ∧
    intersectsSeg ⟨(0, 0), (4, 4)⟩ ⟨(2, 2), (9, 0)⟩ false = some true ∧
    intersectsSeg ⟨(0, 0), (4, 4)⟩ ⟨(4, 4), (9, 0)⟩ false = some false ∧
    intersectsSeg ⟨(0, 0), (4, 4)⟩ ⟨(4, 4), (9, 0)⟩ true = some true ∧
    intersectsSeg ⟨(0, 0), (4, 4)⟩ ⟨(3, 3), (9, 9)⟩ false = some true ∧
    intersectsSeg ⟨(0, 0), (4, 4)⟩ ⟨(4, 4), (9, 9)⟩ false = some false ∧
    intersectsSeg ⟨(0, 0), (4, 4)⟩ ⟨(3, 3), (3, 3)⟩ false = some true ∧
    intersectsSeg ⟨(0, 0), (4, 4)⟩ ⟨(3, 2), (3, 2)⟩ true = some false := by decide +kernel

/-- C28: `abuts` holds exactly when the high end of one is the low end of the other. -/
theorem C28_abuts (s1 s2 : Seg) : abutsSeg s1 s2 = true ↔ s2.lo = s1.hi ∨ s1.lo = s2.hi := by
  simp [abutsSeg, abutsDirSeg]

example : abutsSeg ⟨(0, 0), (4, 4)⟩ ⟨(4, 4), (9, 0)⟩ = true := by decide

/-! ## C52 -/

private theorem envelope_bbox (r : List Seg) : ∀ (e : Rect) (P : List (Int × Int)), Verif.Set90.BBox e P →
    Verif.Set90.BBox (r.foldl (fun e t => (encompassPt (encompassPt e t.lo).1 t.hi).1) e)
      (r.flatMap (fun s => [s.lo, s.hi]) ++ P) := by
  induction r with
  | nil => intro e P h; simpa using h
  | cons s r ih =>
    intro e P h
    have h2 := Verif.Set90.bbox_step (Verif.Set90.bbox_step h s.lo) s.hi
    refine Verif.Set90.bbox_congr (ih _ _ h2) (fun q => ?_)
    simp only [List.mem_append, List.mem_flatMap, List.mem_cons, List.flatMap_cons, List.not_mem_nil, or_false]
    generalize (∃ a, a ∈ r ∧ (q = a.lo ∨ q = a.hi)) = X
    tauto

/-- C52: `envelope_segments` reports failure exactly on the empty range, and otherwise returns the
smallest closed rectangle: bounds hold for all points of all segments exactly when they hold for
the rectangle. -/
theorem C52_envelope (L : List Seg) :
    (envelopeSegments L = none ↔ L = []) ∧
    ∀ r, envelopeSegments L = some r → ∀ x1 x2 y1 y2 : ℚ,
      ((∀ s ∈ L, ∀ q, OnSeg s q → x1 ≤ q.1 ∧ q.1 ≤ x2 ∧ y1 ≤ q.2 ∧ q.2 ≤ y2) ↔
        (x1 ≤ r.h.lo ∧ (r.h.hi : ℚ) ≤ x2 ∧ y1 ≤ r.v.lo ∧ (r.v.hi : ℚ) ≤ y2)) := by
  constructor
  · cases L <;> simp [envelopeSegments]
  · intro r hr x1 x2 y1 y2
    cases L with
    | nil => simp [envelopeSegments] at hr
    | cons s0 L =>
      simp only [envelopeSegments, Option.some.injEq] at hr
      have hb := envelope_bbox L _ _ (Verif.Set90.bbox_init s0.lo s0.hi)
      rw [hr] at hb
      obtain ⟨hin, ⟨q1, m1, e1⟩, ⟨q2, m2, e2⟩, ⟨q3, m3, e3⟩, ⟨q4, m4, e4⟩⟩ := hb
      have mem : ∀ q, q ∈ L.flatMap (fun s => [s.lo, s.hi]) ++ [s0.lo, s0.hi] ↔ ∃ s ∈ s0 :: L, q = s.lo ∨ q = s.hi := by
        intro q
        simp only [List.mem_append, List.mem_flatMap, List.mem_cons, List.not_mem_nil, or_false, exists_eq_or_imp]
        generalize (∃ a, a ∈ L ∧ (q = a.lo ∨ q = a.hi)) = X
        tauto
      have onEnd : ∀ s q, (q = s.lo ∨ q = s.hi) → OnSeg s ((q.1 : ℚ), (q.2 : ℚ)) := by
        rintro s q (rfl | rfl)
        · exact ⟨0, le_rfl, by norm_num, by simp, by simp⟩
        · exact ⟨1, by norm_num, le_rfl, by simp, by simp⟩
      constructor
      · intro h
        have use : ∀ q ∈ L.flatMap (fun s => [s.lo, s.hi]) ++ [s0.lo, s0.hi],
            x1 ≤ (q.1 : ℚ) ∧ (q.1 : ℚ) ≤ x2 ∧ y1 ≤ (q.2 : ℚ) ∧ (q.2 : ℚ) ≤ y2 := by
          intro q hq
          obtain ⟨s, hs, hq⟩ := (mem q).mp hq
          exact h s hs _ (onEnd s q hq)
        exact ⟨by rw [← e1]; exact (use _ m1).1, by rw [← e2]; exact (use _ m2).2.1,
          by rw [← e3]; exact (use _ m3).2.2.1, by rw [← e4]; exact (use _ m4).2.2.2⟩
      · rintro ⟨g1, g2, g3, g4⟩ s hs q ⟨t, t0, t1, ex, ey⟩
        have a := hin s.lo ((mem _).mpr ⟨s, hs, Or.inl rfl⟩)
        have b := hin s.hi ((mem _).mpr ⟨s, hs, Or.inr rfl⟩)
        have a1 : (r.h.lo : ℚ) ≤ s.lo.1 := by exact_mod_cast a.1
        have a2 : (s.lo.1 : ℚ) ≤ r.h.hi := by exact_mod_cast a.2.1
        have a3 : (r.v.lo : ℚ) ≤ s.lo.2 := by exact_mod_cast a.2.2.1
        have a4 : (s.lo.2 : ℚ) ≤ r.v.hi := by exact_mod_cast a.2.2.2
        have b1 : (r.h.lo : ℚ) ≤ s.hi.1 := by exact_mod_cast b.1
        have b2 : (s.hi.1 : ℚ) ≤ r.h.hi := by exact_mod_cast b.2.1
        have b3 : (r.v.lo : ℚ) ≤ s.hi.2 := by exact_mod_cast b.2.2.1
        have b4 : (s.hi.2 : ℚ) ≤ r.v.hi := by exact_mod_cast b.2.2.2
        rw [ex, ey]
        refine ⟨?_, ?_, ?_, ?_⟩ <;> nlinarith

example : envelopeSegments [⟨(3, 1), (0, 5)⟩, ⟨(7, 2), (4, -1)⟩] = some ⟨⟨0, 7⟩, ⟨-1, 5⟩⟩ := by decide +kernel

end Verif.Properties.Segment
