import Verif.Proofs.OffsetArb
/-!
# C105: `bloat` and `shrink` move every edge of a polygon at any angle by the distance
-/
namespace Verif.Properties.OffsetArb
open Verif.OffsetArb Verif.Spec.OffsetArb

/-- C105. A vertex whose edges do not lead back along each other is moved to a point that is at the distance from both edges, to the right for `bloat` (`m = 1`)
and to the left for `shrink` (`m = -1`), rounded to the nearest integers. A vertex in the middle of a straight edge is moved at a right angle to it. -/
theorem C105_vertex {p c n : Pt} {d m : Int} (hpc : p ≠ c) (hcn : c ≠ n) (hd : 0 < d) (hm : m = 1 ∨ m = -1) (hr : ¬ Reversed p c n) :
    ∃ x : ℝ × ℝ, AtDistance p c (m * d) x ∧ AtDistance c n (m * d) x ∧
      (Straight p c n → (x.1 - c.1) * ((c.1 : ℝ) - p.1) + (x.2 - c.2) * ((c.2 : ℝ) - p.2) = 0) ∧ RoundedTo (modifyPt p c n d m) x :=
  ⟨_, (moved_spec hpc hcn hd hm hr).1, (moved_spec hpc hcn hd hm hr).2.1, (moved_spec hpc hcn hd hm hr).2.2, modify_rounded p c n d m⟩

/-- C105. At a vertex where the boundary turns there is only one such point. -/
theorem C105_turn {p c n : Pt} {d m : Int} (hd : 0 < d) (hm : m = 1 ∨ m = -1)
    (hc : (c.1 - p.1) * (n.2 - c.2) - (c.2 - p.2) * (n.1 - c.1) ≠ 0) {x : ℝ × ℝ} (h1 : AtDistance p c (m * d) x) (h2 : AtDistance c n (m * d) x) :
    RoundedTo (modifyPt p c n d m) x := by
  have hpc : p ≠ c := by rintro rfl; apply hc; ring
  have hcn : c ≠ n := by rintro rfl; apply hc; ring
  have K := moved_spec (n := n) hpc hcn hd hm (fun h => hc h.1)
  rw [dist_unique hc h1 h2 K.1 K.2.1]
  exact modify_rounded p c n d m

/-- C105. Every vertex of a closed polygon is moved like that, and the result is closed again. -/
theorem C105_polygon {l : List Pt} {d m : Int} (hl : 2 ≤ l.length) (hd : 0 < d) (hm : m = 1 ∨ m = -1)
    (hne : ∀ i < l.length, vertex l i ≠ vertex l (i + 1)) (hr : ∀ i < l.length, ¬ Reversed (vertex l (i + l.length - 1)) (vertex l i) (vertex l (i + 1))) :
    (resizeUp (l ++ l.take 1) d m).length = l.length + 1 ∧
    (resizeUp (l ++ l.take 1) d m)[l.length]? = (resizeUp (l ++ l.take 1) d m)[0]? ∧
    ∀ i < l.length, ∃ r x, (resizeUp (l ++ l.take 1) d m)[i]? = some r ∧ RoundedTo r x ∧
      AtDistance (vertex l (i + l.length - 1)) (vertex l i) (m * d) x ∧ AtDistance (vertex l i) (vertex l (i + 1)) (m * d) x := by
  obtain ⟨a, b, c⟩ := resize_vertex hl d m
  refine ⟨a, c, fun i hi => ?_⟩
  have hp : vertex l (i + l.length - 1) ≠ vertex l i := by
    have := hne ((i + l.length - 1) % l.length) (Nat.mod_lt _ (by omega))
    rw [show vertex l ((i + l.length - 1) % l.length) = vertex l (i + l.length - 1) by simp [vertex],
      show vertex l ((i + l.length - 1) % l.length + 1) = vertex l i by
        unfold vertex
        rw [Nat.mod_add_mod, show i + l.length - 1 + 1 = i + l.length by omega, Nat.add_mod_right]] at this
    exact this
  obtain ⟨x, x1, x2, -, x3⟩ := C105_vertex hp (hne i hi) hd hm (hr i hi)
  exact ⟨_, x, b i hi, x3, x1, x2⟩

/-- C105. At a right angle between a horizontal and a vertical edge nothing is rounded: the vertex moves by exactly the distance along both axes. -/
theorem C105_right_angle {p c n : Pt} {d m : Int} (hd : 0 < d) (hm : m = 1 ∨ m = -1) (h1 : p.2 = c.2) (h2 : c.1 = n.1) (h3 : p.1 ≠ c.1) (h4 : c.2 ≠ n.2) :
    modifyPt p c n d m = (c.1 + m * d * (n.2 - c.2).sign, c.2 - m * d * (c.1 - p.1).sign) ∧
    modifyPt n c p d m = (c.1 - m * d * (n.2 - c.2).sign, c.2 + m * d * (c.1 - p.1).sign) := by
  have sg : ∀ a : Int, a.sign * |a| = a := fun a => Int.sign_mul_abs a
  have sg2 : ∀ a : Int, ((a.sign : Int) : ℝ) * |(a : ℝ)| = a := fun a => by exact_mod_cast sg a
  have ss : ∀ a : Int, a ≠ 0 → ((a.sign : Int) : ℝ) * a = |(a : ℝ)| := fun a _ => by exact_mod_cast Int.sign_mul_self_eq_abs a
  have hx : (c.1 - p.1) ≠ 0 := by omega
  have hy : (n.2 - c.2) ≠ 0 := by omega
  have q1 : ∀ a : ℝ, √(a ^ 2 + 0 ^ 2) = |a| := fun a => by rw [zero_pow two_ne_zero, add_zero, Real.sqrt_sq_eq_abs]
  have q2 : ∀ a : ℝ, √(0 ^ 2 + a ^ 2) = |a| := fun a => by rw [zero_pow two_ne_zero, zero_add, Real.sqrt_sq_eq_abs]
  have r1 : (p.2 : ℝ) = c.2 := by exact_mod_cast h1
  have r2 : (c.1 : ℝ) = n.1 := by exact_mod_cast h2
  have sx := ss _ hx
  have sy := ss _ hy
  push_cast at sx sy
  constructor
  · have K := C105_turn (x := (((c.1 + m * d * (n.2 - c.2).sign : Int) : ℝ), ((c.2 - m * d * (c.1 - p.1).sign : Int) : ℝ))) (p := p) (c := c) (n := n) hd hm
      (by rw [h1, h2, sub_self, zero_mul, sub_zero, ← h2]; exact mul_ne_zero hx hy)
      (by
        unfold AtDistance
        rw [r1, sub_self, q1]
        push_cast
        rw [← sx]; ring)
      (by
        unfold AtDistance
        rw [← r2, sub_self, q2]
        push_cast
        rw [← sy]; ring)
    exact Prod.ext (int_of_near K.1 rfl) (int_of_near K.2 rfl)
  · have K := C105_turn (x := (((c.1 - m * d * (n.2 - c.2).sign : Int) : ℝ), ((c.2 + m * d * (c.1 - p.1).sign : Int) : ℝ))) (p := n) (c := c) (n := p) hd hm
      (by
        rw [← h1, ← h2, sub_self, zero_mul, zero_sub, h1]
        exact neg_ne_zero.2 (mul_ne_zero (by omega) (by omega)))
      (by
        unfold AtDistance
        rw [← r2, sub_self, q2]
        push_cast
        rw [abs_sub_comm, ← sy]; ring)
      (by
        unfold AtDistance
        rw [r1, sub_self, q1]
        push_cast
        rw [abs_sub_comm, ← sx]; ring)
    exact Prod.ext (int_of_near K.1 rfl) (int_of_near K.2 rfl)

/-- C105. The points of a rectangle, counterclockwise: `bloat` moves its sides outwards by the distance. -/
theorem C105_rectangle {xl xh yl yh d : Int} (hx : xl < xh) (hy : yl < yh) (hd : 0 < d) :
    resizeUp [(xl, yl), (xh, yl), (xh, yh), (xl, yh), (xl, yl)] d 1 =
      [(xl - d, yl - d), (xh + d, yl - d), (xh + d, yh + d), (xl - d, yh + d), (xl - d, yl - d)] := by
  have s1 : (xh - xl).sign = 1 := Int.sign_eq_one_of_pos (by omega)
  have s2 : (yh - yl).sign = 1 := Int.sign_eq_one_of_pos (by omega)
  have s3 : (xl - xh).sign = -1 := Int.sign_eq_neg_one_of_neg (by omega)
  have s4 : (yl - yh).sign = -1 := Int.sign_eq_neg_one_of_neg (by omega)
  have m1 : (1 : Int) = 1 ∨ (1 : Int) = -1 := Or.inl rfl
  have a := (C105_right_angle (p := (xl, yl)) (c := (xh, yl)) (n := (xh, yh)) hd m1 rfl rfl (by simp; omega) (by simp; omega)).1
  have b := (C105_right_angle (p := (xl, yh)) (c := (xh, yh)) (n := (xh, yl)) hd m1 rfl rfl (by simp; omega) (by simp; omega)).2
  have c := (C105_right_angle (p := (xh, yh)) (c := (xl, yh)) (n := (xl, yl)) hd m1 rfl rfl (by simp; omega) (by simp; omega)).1
  have e := (C105_right_angle (p := (xh, yl)) (c := (xl, yl)) (n := (xl, yh)) hd m1 rfl rfl (by simp; omega) (by simp; omega)).2
  simp only [s1, s2, s3, s4] at a b c e
  simp [resizeUp, a, b, c, e]
  omega

/-- A vertex of a triangle with the sides 3, 4, 5: the point at the distance 2 outwards from the sides 3 and 5 is `(3, 4) + (2, 6)`. -/
example : modifyPt (3, 0) (3, 4) (0, 0) 2 1 = (5, 10) := by
  have K := C105_turn (p := (3, 0)) (c := (3, 4)) (n := (0, 0)) (d := 2) (m := 1) (x := (5, 10)) (by norm_num) (Or.inl rfl) (by norm_num)
    (by
      have : √(16 : ℝ) = 4 := by rw [show (16 : ℝ) = 4 ^ 2 by norm_num, Real.sqrt_sq (by norm_num)]
      norm_num [AtDistance, this])
    (by
      have : √(25 : ℝ) = 5 := by rw [show (25 : ℝ) = 5 ^ 2 by norm_num, Real.sqrt_sq (by norm_num)]
      norm_num [AtDistance, this])
  exact Prod.ext (int_of_near K.1 (by norm_num)) (int_of_near K.2 (by norm_num))

/-- The hypotheses of `C105_polygon` for the triangle. -/
example : ∀ i < [((0 : Int), (0 : Int)), (3, 0), (3, 4)].length, vertex [(0, 0), (3, 0), (3, 4)] i ≠ vertex [(0, 0), (3, 0), (3, 4)] (i + 1) ∧
    ¬ Reversed (vertex [(0, 0), (3, 0), (3, 4)] (i + 3 - 1)) (vertex [(0, 0), (3, 0), (3, 4)] i) (vertex [(0, 0), (3, 0), (3, 4)] (i + 1)) := by
  intro i hi
  simp only [List.length_cons, List.length_nil] at hi
  interval_cases i <;> simp [vertex, Reversed]

end Verif.Properties.OffsetArb
