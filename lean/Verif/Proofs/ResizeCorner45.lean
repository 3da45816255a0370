import Verif.Proofs.ResizeRegion45
import Mathlib.Tactic
/-! The region of a corner piece. -/
namespace Verif.Resize45
open Verif.Spec.Resize45

/-- The distance along each axis in a direction. -/
def kap (b u : Int) (k : Nat) : Int := if k % 2 = 0 then b else u

theorem bloat_vec {k : Nat} (hk : k < 8) {m : Int} (hm : m = 1 ∨ m = -1) (b u : Int) (v : Pt) :
    bloatVertex b u (normalDir k m) v = (v.1 + m * kap b u k * (vec k).2, v.2 - m * kap b u k * (vec k).1) := by
  obtain ⟨x, y⟩ := v
  rcases hm with rfl | rfl <;> interval_cases k <;> simp [bloatVertex, normalDir, vec, kap] <;> omega

theorem along {k : Nat} (hk : k < 8) {x e : Pt} (h1 : (x.1 - e.1) * (vec k).2 = (x.2 - e.2) * (vec k).1)
    (h2 : 0 ≤ (x.1 - e.1) * (vec k).1 + (x.2 - e.2) * (vec k).2) : ∃ s : Int, 0 ≤ s ∧ x.1 = e.1 + s * (vec k).1 ∧ x.2 = e.2 + s * (vec k).2 := by
  obtain ⟨x, y⟩ := x
  obtain ⟨e, f⟩ := e
  interval_cases k <;> simp only [vec] at h1 h2 ⊢
  · exact ⟨x - e, by omega, by omega, by omega⟩
  · exact ⟨x - e, by omega, by omega, by omega⟩
  · exact ⟨y - f, by omega, by omega, by omega⟩
  · exact ⟨y - f, by omega, by omega, by omega⟩
  · exact ⟨e - x, by omega, by omega, by omega⟩
  · exact ⟨e - x, by omega, by omega, by omega⟩
  · exact ⟨f - y, by omega, by omega, by omega⟩
  · exact ⟨x - e, by omega, by omega, by omega⟩

/-- If the crossing point is an offset of the vertex, or both moved edges have a length. -/
theorem degenerate {k1 k2 : Nat} (h1 : k1 < 8) (h2 : k2 < 8) {m : Int} (hm : m = 1 ∨ m = -1) (hd : 0 < m * dcross k1 k2) {b u s t : Int} (hu : 0 < u)
    (hub : u ≤ b) (hs : 0 ≤ s) (ht : 0 ≤ t)
    (ex : m * kap b u k1 * (vec k1).2 + s * (vec k1).1 + t * (vec k2).1 = m * kap b u k2 * (vec k2).2)
    (ey : -(m * kap b u k1 * (vec k1).1) + s * (vec k1).2 + t * (vec k2).2 = -(m * kap b u k2 * (vec k2).1)) :
    0 < s + t ∧ ∀ p q : Int, 0 ≤ (vec k1).1 * p + (vec k1).2 * q → (vec k2).1 * p + (vec k2).2 * q ≤ 0 →
      (s = 0 → 0 ≤ m * ((vec k2).1 * q - (vec k2).2 * p) + kap b u k2 * ((vec k2).1 * (vec k2).1 + (vec k2).2 * (vec k2).2) →
        0 ≤ m * ((vec k1).1 * q - (vec k1).2 * p) + kap b u k1 * ((vec k1).1 * (vec k1).1 + (vec k1).2 * (vec k1).2)) ∧
      (t = 0 → 0 ≤ m * ((vec k1).1 * q - (vec k1).2 * p) + kap b u k1 * ((vec k1).1 * (vec k1).1 + (vec k1).2 * (vec k1).2) →
        0 ≤ m * ((vec k2).1 * q - (vec k2).2 * p) + kap b u k2 * ((vec k2).1 * (vec k2).1 + (vec k2).2 * (vec k2).2)) := by
  rcases hm with rfl | rfl <;> interval_cases k1 <;> interval_cases k2 <;> first
    | (exfalso; revert hd; decide)
    | (clear hd
       simp only [vec, kap] at ex ey ⊢
       norm_num at ex ey ⊢
       refine ⟨by omega, fun p q g1 g2 => ⟨fun g3 g4 => ?_, fun g3 g4 => ?_⟩⟩ <;> omega)

/-- The linear core: four half planes. -/
theorem four {A B F1 F2 k1 k2 s t c1 c2 : Int} (hk1 : 0 < k1) (hk2 : 0 < k2) (hs : 0 ≤ s) (ht : 0 ≤ t) (hst : 0 < s + t) (hc1 : 0 < c1) (hc2 : 0 < c2)
    (sum : k1 * A + k2 * B + t * F2 + s * F1 = c1 * s + c2 * t)
    (d1 : 0 ≤ A → 0 ≤ B → s = 0 → 0 ≤ F2 → 0 ≤ F1) (d2 : 0 ≤ A → 0 ≤ B → t = 0 → 0 ≤ F1 → 0 ≤ F2) :
    ((0 ≤ k1 * A ∧ 0 ≤ k2 * B ∧ 0 ≤ t * F2 ∧ 0 ≤ s * F1) ∨ (k1 * A ≤ 0 ∧ k2 * B ≤ 0 ∧ t * F2 ≤ 0 ∧ s * F1 ≤ 0)) ↔ (0 ≤ A ∧ 0 ≤ B ∧ 0 ≤ F1 ∧ 0 ≤ F2) := by
  have pos : 0 < c1 * s + c2 * t := by
    rcases hs.lt_or_eq with h | h
    · have := mul_pos hc1 h; have := mul_nonneg hc2.le ht; omega
    · have := mul_pos hc2 (show 0 < t by omega); have := mul_nonneg hc1.le hs; omega
  constructor
  · rintro (⟨a1, a2, a3, a4⟩ | ⟨a1, a2, a3, a4⟩)
    · have hA := (mul_nonneg_iff_of_pos_left hk1).1 a1
      have hB := (mul_nonneg_iff_of_pos_left hk2).1 a2
      rcases hs.lt_or_eq with h | h
      · have f1 := (mul_nonneg_iff_of_pos_left h).1 a4
        rcases ht.lt_or_eq with h' | h'
        · exact ⟨hA, hB, f1, (mul_nonneg_iff_of_pos_left h').1 a3⟩
        · exact ⟨hA, hB, f1, d2 hA hB h'.symm f1⟩
      · have f2 := (mul_nonneg_iff_of_pos_left (show 0 < t by omega)).1 a3
        exact ⟨hA, hB, d1 hA hB h.symm f2, f2⟩
    · omega
  · rintro ⟨a1, a2, a3, a4⟩
    exact Or.inl ⟨mul_nonneg hk1.le a1, mul_nonneg hk2.le a2, mul_nonneg ht a4, mul_nonneg hs a3⟩

theorem kap_pos {b u : Int} (hu : 0 < u) (hub : u ≤ b) (k : Nat) : 0 < kap b u k := by unfold kap; split_ifs <;> omega

theorem norm_pos {k : Nat} (hk : k < 8) : 0 < (vec k).1 * (vec k).1 + (vec k).2 * (vec k).2 := by
  interval_cases k <;> decide

/-- The quadrilateral of a corner, for directions. -/
theorem corner_region {k1 k2 : Nat} (h1 : k1 < 8) (h2 : k2 < 8) {m : Int} (hm : m = 1 ∨ m = -1) (hd : 0 < m * dcross k1 k2) {b u : Int} (hu : 0 < u)
    (hub : u ≤ b) {v e1 e2 x : Pt} (he1 : e1 = bloatVertex b u (normalDir k1 m) v) (he2 : e2 = bloatVertex b u (normalDir k2 m) v)
    (x1 : (x.1 - e1.1) * (vec k1).2 = (x.2 - e1.2) * (vec k1).1) (x2 : (x.1 - e2.1) * (vec k2).2 = (x.2 - e2.2) * (vec k2).1)
    (x3 : 0 ≤ (x.1 - e1.1) * (vec k1).1 + (x.2 - e1.2) * (vec k1).2) (x4 : 0 ≤ (e2.1 - x.1) * (vec k2).1 + (e2.2 - x.2) * (vec k2).2) (z : Pt) :
    covers (.poly [e1, v, e2, x]) z ↔ 0 ≤ (vec k1).1 * (z.1 - v.1) + (vec k1).2 * (z.2 - v.2) ∧ 0 ≤ -((vec k2).1 * (z.1 - v.1) + (vec k2).2 * (z.2 - v.2)) ∧
      0 ≤ m * ((vec k1).1 * (z.2 - v.2) - (vec k1).2 * (z.1 - v.1)) + kap b u k1 * ((vec k1).1 * (vec k1).1 + (vec k1).2 * (vec k1).2) ∧
      0 ≤ m * ((vec k2).1 * (z.2 - v.2) - (vec k2).2 * (z.1 - v.1)) + kap b u k2 * ((vec k2).1 * (vec k2).1 + (vec k2).2 * (vec k2).2) := by
  obtain ⟨s, hs, sx, sy⟩ := along h1 x1 x3
  obtain ⟨t, ht, tx, ty⟩ := along (x := e2) (e := x) h2 (by linarith) x4
  rw [bloat_vec h1 hm] at he1
  rw [bloat_vec h2 hm] at he2
  have e1x := congrArg Prod.fst he1
  have e1y := congrArg Prod.snd he1
  have e2x := congrArg Prod.fst he2
  have e2y := congrArg Prod.snd he2
  simp only at e1x e1y e2x e2y
  have ex : m * kap b u k1 * (vec k1).2 + s * (vec k1).1 + t * (vec k2).1 = m * kap b u k2 * (vec k2).2 := by linarith
  have ey : -(m * kap b u k1 * (vec k1).1) + s * (vec k1).2 + t * (vec k2).2 = -(m * kap b u k2 * (vec k2).1) := by linarith
  obtain ⟨hst, hdg⟩ := degenerate h1 h2 hm hd hu hub hs ht ex ey
  have hg := hdg (z.1 - v.1) (z.2 - v.2)
  have mm : m * m = 1 := by rcases hm with rfl | rfl <;> rfl
  have c1 : cross e1 v e1 z = -m * (kap b u k1 * ((vec k1).1 * (z.1 - v.1) + (vec k1).2 * (z.2 - v.2))) := by
    unfold cross; rw [e1x, e1y]; ring
  have c2 : cross v e2 v z = -m * (kap b u k2 * -((vec k2).1 * (z.1 - v.1) + (vec k2).2 * (z.2 - v.2))) := by
    unfold cross; rw [e2x, e2y]; ring
  have c3 : cross e2 x e2 z = -m * (t * (m * ((vec k2).1 * (z.2 - v.2) - (vec k2).2 * (z.1 - v.1)) + kap b u k2 * ((vec k2).1 * (vec k2).1 + (vec k2).2 * (vec k2).2))) := by
    unfold cross
    rw [show x.1 - e2.1 = -(t * (vec k2).1) by linarith, show x.2 - e2.2 = -(t * (vec k2).2) by linarith, e2x, e2y]
    linear_combination (t * ((vec k2).1 * (z.2 - v.2) - (vec k2).2 * (z.1 - v.1))) * mm
  have c4 : cross x e1 x z = -m * (s * (m * ((vec k1).1 * (z.2 - v.2) - (vec k1).2 * (z.1 - v.1)) + kap b u k1 * ((vec k1).1 * (vec k1).1 + (vec k1).2 * (vec k1).2))) := by
    unfold cross
    rw [show e1.1 - x.1 = -(s * (vec k1).1) by linarith, show e1.2 - x.2 = -(s * (vec k1).2) by linarith, sx, sy, e1x, e1y]
    linear_combination (s * ((vec k1).1 * (z.2 - v.2) - (vec k1).2 * (z.1 - v.1))) * mm
  have neg : ∀ p q : Pt, cross q p q z = -cross p q p z := by intro p q; unfold cross; ring
  have r1 := neg e1 v
  have r2 := neg v e2
  have r3 := neg e2 x
  have r4 := neg x e1
  have sum : kap b u k1 * ((vec k1).1 * (z.1 - v.1) + (vec k1).2 * (z.2 - v.2)) + kap b u k2 * -((vec k2).1 * (z.1 - v.1) + (vec k2).2 * (z.2 - v.2)) +
      t * (m * ((vec k2).1 * (z.2 - v.2) - (vec k2).2 * (z.1 - v.1)) + kap b u k2 * ((vec k2).1 * (vec k2).1 + (vec k2).2 * (vec k2).2)) +
      s * (m * ((vec k1).1 * (z.2 - v.2) - (vec k1).2 * (z.1 - v.1)) + kap b u k1 * ((vec k1).1 * (vec k1).1 + (vec k1).2 * (vec k1).2)) =
      kap b u k1 * ((vec k1).1 * (vec k1).1 + (vec k1).2 * (vec k1).2) * s + kap b u k2 * ((vec k2).1 * (vec k2).1 + (vec k2).2 * (vec k2).2) * t := by
    linear_combination (m * (z.2 - v.2)) * ex - (m * (z.1 - v.1)) * ey +
      (-(kap b u k1 * ((vec k1).1 * (z.1 - v.1) + (vec k1).2 * (z.2 - v.2))) + kap b u k2 * ((vec k2).1 * (z.1 - v.1) + (vec k2).2 * (z.2 - v.2))) * mm
  have key := four (kap_pos hu hub k1) (kap_pos hu hub k2) hs ht hst (mul_pos (kap_pos hu hub k1) (norm_pos h1)) (mul_pos (kap_pos hu hub k2) (norm_pos h2)) sum
    (fun a b c d => (hg a (by linarith)).1 c d) (fun a b c d => (hg a (by linarith)).2 c d)
  rw [← key]
  clear key sum hg hdg
  revert c1 c2 c3 c4
  generalize kap b u k1 * ((vec k1).1 * (z.1 - v.1) + (vec k1).2 * (z.2 - v.2)) = P1
  generalize kap b u k2 * -((vec k2).1 * (z.1 - v.1) + (vec k2).2 * (z.2 - v.2)) = P2
  generalize t * (m * ((vec k2).1 * (z.2 - v.2) - (vec k2).2 * (z.1 - v.1)) + kap b u k2 * ((vec k2).1 * (vec k2).1 + (vec k2).2 * (vec k2).2)) = P3
  generalize s * (m * ((vec k1).1 * (z.2 - v.2) - (vec k1).2 * (z.1 - v.1)) + kap b u k1 * ((vec k1).1 * (vec k1).1 + (vec k1).2 * (vec k1).2)) = P4
  intro c1 c2 c3 c4
  simp only [covers, InConvex, List.reverse_cons, List.reverse_nil, List.nil_append, List.cons_append, List.drop_one, List.tail_cons, List.take_succ_cons,
    List.take_zero, List.zip_cons_cons, List.zip_nil_left, List.forall_mem_cons, List.not_mem_nil, false_imp_iff, implies_true, and_true, c1, c2, c3, c4, r1, r2,
    r3, r4]
  clear c1 c2 c3 c4 r1 r2 r3 r4 neg e1x e1y e2x e2y sx sy tx ty x1 x2 x3 x4 ex ey hd
  rcases hm with rfl | rfl <;> omega

theorem edge_norm {p q : Pt} {k : Nat} (hk : k < 8) {n : Int} (hn : 0 < n) (hx : q.1 - p.1 = n * (vec k).1) (hy : q.2 - p.2 = n * (vec k).2) (b u : Int) :
    (if p.1 = q.1 ∨ p.2 = q.2 then b else u) * (|q.1 - p.1| + |q.2 - p.2|) = n * (kap b u k * ((vec k).1 * (vec k).1 + (vec k).2 * (vec k).2)) := by
  rw [hx, hy, abs_mul, abs_mul, abs_of_pos hn]
  interval_cases k <;> simp only [vec] at hx hy ⊢ <;> first
    | (rw [if_pos (by omega)]; simp [kap]; try ring)
    | (rw [if_neg (by omega)]; simp [kap]; try ring)

/-- The quadrilateral of a corner. -/
theorem quad_region {a v c : Pt} (h1 : Is45 a v) (h2 : Is45 v c) {side : Int} (hs : side = 1 ∨ side = -1) (ht : 0 < side * cross a v v c) {b u : Int} (hu : 0 < u)
    (hub : u ≤ b) {x : Pt} (x1 : cross (offset a v b u side v) x a v = 0) (x2 : cross (offset v c b u side v) x v c = 0)
    (x3 : 0 ≤ dot (offset a v b u side v) x a v) (x4 : 0 ≤ dot x (offset v c b u side v) v c) (z : Pt) :
    covers (.poly [offset a v b u side v, v, offset v c b u side v, x]) z ↔ InCorner a v c b u side z := by
  obtain ⟨n, hn, hc, _⟩ := lift h1 h2
  have hd : 0 < side * dcross (edgeDir a v) (edgeDir v c) := by
    rw [hc] at ht
    have : 0 < n * (side * dcross (edgeDir a v) (edgeDir v c)) := by
      rwa [show n * (side * dcross (edgeDir a v) (edgeDir v c)) = side * (n * dcross (edgeDir a v) (edgeDir v c)) by ring]
    exact (mul_sign hn).2.1.1 this
  obtain ⟨n1, p1, dx1, dy1⟩ := edge_step h1
  obtain ⟨n2, p2, dx2, dy2⟩ := edge_step h2
  have k1 := (edge_vec h1).1
  have k2 := (edge_vec h2).1
  have N1 := edge_norm k1 p1 dx1 dy1 b u
  have N2 := edge_norm k2 p2 dx2 dy2 b u
  have E1 := (bloat_offset h1 hs b u v).symm
  have E2 := (bloat_offset h2 hs b u v).symm
  generalize offset a v b u side v = e1 at *
  generalize offset v c b u side v = e2 at *
  unfold cross at x1 x2
  unfold dot at x3 x4
  rw [dx1, dy1] at x1 x3
  rw [dx2, dy2] at x2 x4
  generalize edgeDir a v = K1 at *
  generalize edgeDir v c = K2 at *
  have y1 : (x.1 - e1.1) * (vec K1).2 = (x.2 - e1.2) * (vec K1).1 := by
    have : n1 * ((x.1 - e1.1) * (vec K1).2 - (x.2 - e1.2) * (vec K1).1) = 0 := by linarith
    have := (mul_sign p1).2.2.1.1 this
    linarith
  have y2 : (x.1 - e2.1) * (vec K2).2 = (x.2 - e2.2) * (vec K2).1 := by
    have : n2 * ((x.1 - e2.1) * (vec K2).2 - (x.2 - e2.2) * (vec K2).1) = 0 := by linarith
    have := (mul_sign p2).2.2.1.1 this
    linarith
  have y3 : 0 ≤ (x.1 - e1.1) * (vec K1).1 + (x.2 - e1.2) * (vec K1).2 :=
    (mul_sign p1).2.2.2.1 (by linarith)
  have y4 : 0 ≤ (e2.1 - x.1) * (vec K2).1 + (e2.2 - x.2) * (vec K2).2 :=
    (mul_sign p2).2.2.2.1 (by linarith)
  rw [corner_region k1 k2 hs hd hu hub E1 E2 y1 y2 y3 y4 z]
  unfold InCorner
  rw [N1, N2]
  unfold dot cross
  rw [dx1, dy1, dx2, dy2]
  refine and_congr ?_ (and_congr ?_ (and_congr ?_ ?_))
  · rw [← (mul_sign p1).2.2.2]; constructor <;> intro h <;> linarith
  · rw [← (mul_sign p2).2.2.2]; constructor <;> intro h <;> linarith
  · rw [← (mul_sign p1).2.2.2]; constructor <;> intro h <;> linarith
  · rw [← (mul_sign p2).2.2.2]; constructor <;> intro h <;> linarith

end Verif.Resize45
