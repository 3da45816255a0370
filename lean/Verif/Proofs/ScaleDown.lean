import Verif.Model.ScaleDown
import Verif.Spec.ScaleDown
import Verif.Proofs.WindMap
/-!
# Outlines whose vertices move by half a unit

An edge, the moved edge and the ways of its ends make up a quadrilateral within half a unit of the edge. A point outside has all of that on one side, so the
quadrilateral does not wind around it.
-/
namespace Verif.ScaleDown
open Verif Verif.Arb Verif.Spec Verif.Spec.Arb Verif.WindMap Verif.PolySet

/-- Within half a unit of the segment. -/
def Tube (ax ay bx b' x y : ℚ) : Prop :=
  ∃ t : ℚ, 0 ≤ t ∧ t ≤ 1 ∧ x - 1 / 2 ≤ ax + t * (bx - ax) ∧ ax + t * (bx - ax) ≤ x + 1 / 2 ∧ y - 1 / 2 ≤ ay + t * (b' - ay) ∧ ay + t * (b' - ay) ≤ y + 1 / 2

theorem tube_convex {ax ay bx b' x y x' y' : ℚ} (h : Tube ax ay bx b' x y) (h' : Tube ax ay bx b' x' y') {s : ℚ} (s0 : 0 ≤ s) (s1 : s ≤ 1) :
    Tube ax ay bx b' (x + s * (x' - x)) (y + s * (y' - y)) := by
  obtain ⟨t, t0, t1, a1, a2, a3, a4⟩ := h
  obtain ⟨u, u0, u1, c1, c2, c3, c4⟩ := h'
  refine ⟨t + s * (u - t), by nlinarith, by nlinarith, ?_, ?_, ?_, ?_⟩
  · nlinarith [mul_le_mul_of_nonneg_left a1 (show 0 ≤ 1 - s by linarith), mul_le_mul_of_nonneg_left c1 s0]
  · nlinarith [mul_le_mul_of_nonneg_left a2 (show 0 ≤ 1 - s by linarith), mul_le_mul_of_nonneg_left c2 s0]
  · nlinarith [mul_le_mul_of_nonneg_left a3 (show 0 ≤ 1 - s by linarith), mul_le_mul_of_nonneg_left c3 s0]
  · nlinarith [mul_le_mul_of_nonneg_left a4 (show 0 ≤ 1 - s by linarith), mul_le_mul_of_nonneg_left c4 s0]

/-- The indicator of being at or to the left of an abscissa. -/
def ind (x qx : ℚ) : Int := if x ≤ qx then 1 else 0

open Classical in
/-- Whether the convex set is below the point. -/
noncomputable def under (C : ℚ → ℚ → Prop) (qx qy : ℚ) : Int := if ∃ y, y ≤ qy ∧ C qx y then 1 else 0

/-- A convex set that does not contain the point: its segments cross the ray below the point all alike. -/
theorem X_convex {C : ℚ → ℚ → Prop} (hC : ∀ {x y x' y' s : ℚ}, C x y → C x' y' → 0 ≤ s → s ≤ 1 → C (x + s * (x' - x)) (y + s * (y' - y)))
    {qx qy : ℚ} (hq : ¬ C qx qy) {px py rx ry : ℚ} (hp : C px py) (hr : C rx ry) :
    X px py rx ry qx qy = under C qx qy * (ind px qx - ind rx qx) := by
  have main : ∀ {px py rx ry : ℚ}, C px py → C rx ry → px ≤ rx → X px py rx ry qx qy = under C qx qy * (ind px qx - ind rx qx) := by
    intro px py rx ry hp hr hle
    unfold X ind
    by_cases c : px ≤ qx ∧ qx < rx
    · have hlt : 0 < rx - px := by linarith
      have n2 : ¬ (rx ≤ qx ∧ qx < px ∧ cr px py rx ry qx qy ≤ 0) := fun h => by linarith [h.1]
      rw [if_neg n2, if_pos c.1, if_neg (not_le.2 c.2), sub_zero, mul_one]
      have hs0 : 0 ≤ (qx - px) / (rx - px) := div_nonneg (by linarith) hlt.le
      have hs1 : (qx - px) / (rx - px) ≤ 1 := by rw [div_le_one hlt]; linarith
      have h0 := hC hp hr hs0 hs1
      have hx : px + (qx - px) / (rx - px) * (rx - px) = qx := by rw [div_mul_cancel₀ _ hlt.ne']; ring
      rw [hx] at h0
      have hcr : cr px py rx ry qx qy = (rx - px) * (qy - (py + (qx - px) / (rx - px) * (ry - py))) := by
        unfold cr; field_simp; ring
      have hiff : 0 ≤ cr px py rx ry qx qy ↔ py + (qx - px) / (rx - px) * (ry - py) ≤ qy := by
        rw [hcr, mul_nonneg_iff_of_pos_left hlt]; constructor <;> intro h <;> linarith
      generalize py + (qx - px) / (rx - px) * (ry - py) = y0 at h0 hiff
      unfold under
      by_cases g : y0 ≤ qy
      · rw [if_pos ⟨c.1, c.2, hiff.2 g⟩, if_pos ⟨y0, g, h0⟩]
      · rw [if_neg (fun h => g (hiff.1 h.2.2)), if_neg]
        rintro ⟨y, hy, hCy⟩
        push Not at g
        have hd : 0 < y0 - y := by linarith
        have := hC hCy h0 (show 0 ≤ (qy - y) / (y0 - y) from div_nonneg (by linarith) hd.le) (by rw [div_le_one hd]; linarith)
        rw [div_mul_cancel₀ _ hd.ne', sub_self, mul_zero, add_zero, add_sub_cancel] at this
        exact hq this
    · rw [if_neg (fun h => c ⟨h.1, h.2.1⟩), if_neg (fun h => by linarith [h.1, h.2.1])]
      by_cases g : px ≤ qx
      · have : rx ≤ qx := by by_contra k; exact c ⟨g, not_le.1 k⟩
        rw [if_pos g, if_pos this]; ring
      · have : ¬ rx ≤ qx := by push Not at *; linarith
        rw [if_neg g, if_neg this]; ring
  rcases le_total px rx with h | h
  · exact main hp hr h
  · rw [X_swap, main hr hp h]; ring

theorem down_near (f x : Int) : (down f x : ℚ) - 1 / 2 ≤ (x : ℚ) / f ∧ (x : ℚ) / f ≤ down f x + 1 / 2 := by
  unfold down Transform.roundHalfUp
  have h1 : ((((x : ℚ) / f + 1 / 2).floor : Int) : ℚ) ≤ (x : ℚ) / f + 1 / 2 := Rat.floor_le _
  have h2 : (x : ℚ) / f + 1 / 2 < (((x : ℚ) / f + 1 / 2).floor : Int) + 1 := by
    have := Rat.lt_floor_add_one ((x : ℚ) / f + 1 / 2)
    push_cast at this
    exact this
  constructor <;> linarith

theorem down_mono {f : Int} (hf : 0 < f) {x y : Int} (h : x ≤ y) : down f x ≤ down f y := by
  unfold down Transform.roundHalfUp
  have hf' : (0 : ℚ) < f := by exact_mod_cast hf
  apply Rat.floor_monotone
  have : (x : ℚ) / f ≤ (y : ℚ) / f := div_le_div_of_nonneg_right (by exact_mod_cast h) hf'.le
  linarith

/-- What the movement of a vertex crosses. -/
def swept (f : Int) (q : ℚ × ℚ) (p : Int × Int) : Int := X (p.1 / f) (p.2 / f) (down f p.1) (down f p.2) q.1 q.2

theorem not_tube {f : Int} (hf : 0 < f) {e : Edge} {q : ℚ × ℚ} (h : ¬ Meets f (1 / 2) (1 / 2) e q) :
    ¬ Tube (e.1.1 / f) (e.1.2 / f) (e.2.1 / f) (e.2.2 / f) q.1 q.2 := by
  rintro ⟨t, t0, t1, a1, a2, a3, a4⟩
  have hf' : (f : ℚ) ≠ 0 := by exact_mod_cast hf.ne'
  refine h ⟨(e.1.1 + t * (e.2.1 - e.1.1), e.1.2 + t * (e.2.2 - e.1.2)), ⟨t, t0, t1, rfl, rfl⟩, ?_⟩
  have e1 : ((e.1.1 : ℚ) + t * (e.2.1 - e.1.1)) / f = e.1.1 / f + t * (e.2.1 / f - e.1.1 / f) := by field_simp
  have e2 : ((e.1.2 : ℚ) + t * (e.2.2 - e.1.2)) / f = e.1.2 / f + t * (e.2.2 / f - e.1.2 / f) := by field_simp
  dsimp only
  rw [e1, e2]
  exact ⟨a1, a2, a3, a4⟩

theorem X_scale {k : ℚ} (hk : 0 < k) (a b c d x y : ℚ) : X a b c d (x * k) (y * k) = X (a / k) (b / k) (c / k) (d / k) x y := by
  unfold X
  have e1 : cr a b c d (x * k) (y * k) = (k * k) * cr (a / k) (b / k) (c / k) (d / k) x y := by
    unfold cr; field_simp
  have e2 : ∀ c : ℚ, k * k * c ≤ 0 ↔ c ≤ 0 := by
    intro c
    have hk2 := mul_pos hk hk
    constructor <;> intro h <;> nlinarith
  simp only [e1, mul_nonneg_iff_of_pos_left (mul_pos hk hk), e2]
  simp only [div_le_iff₀ hk, lt_div_iff₀ hk]

/-- Moving the ends of an edge changes what it crosses by what the ends cross. -/
theorem crossing_moved {f : Int} (hf : 0 < f) {e : Edge} {q : ℚ × ℚ} (h : ¬ Meets f (1 / 2) (1 / 2) e q) :
    crossing q ((down f e.1.1, down f e.1.2), (down f e.2.1, down f e.2.2)) = crossing (q.1 * f, q.2 * f) e + (swept f q e.2 - swept f q e.1) := by
  have hf' : (0 : ℚ) < f := by exact_mod_cast hf
  have hn := not_tube hf h
  rw [crossing_X, crossing_X]
  dsimp only
  rw [X_scale hf']
  unfold swept
  generalize hC : Tube ((e.1.1 : ℚ) / f) (e.1.2 / f) (e.2.1 / f) (e.2.2 / f) = C at hn
  have conv : ∀ {x y x' y' s : ℚ}, C x y → C x' y' → 0 ≤ s → s ≤ 1 → C (x + s * (x' - x)) (y + s * (y' - y)) := by
    subst hC; intro x y x' y' s h1 h2 h3 h4; exact tube_convex h1 h2 h3 h4
  have a1 : C ((e.1.1 : ℚ) / f) (e.1.2 / f) := by
    subst hC; refine ⟨0, le_refl _, zero_le_one, ?_, ?_, ?_, ?_⟩ <;> linarith
  have b1 : C ((e.2.1 : ℚ) / f) (e.2.2 / f) := by
    subst hC; refine ⟨1, zero_le_one, le_refl _, ?_, ?_, ?_, ?_⟩ <;> linarith
  have a2 : C (down f e.1.1) (down f e.1.2) := by
    subst hC
    have := down_near f e.1.1; have := down_near f e.1.2
    refine ⟨0, le_refl _, zero_le_one, ?_, ?_, ?_, ?_⟩ <;> linarith
  have b2 : C (down f e.2.1) (down f e.2.2) := by
    subst hC
    have := down_near f e.2.1; have := down_near f e.2.2
    refine ⟨1, zero_le_one, le_refl _, ?_, ?_, ?_, ?_⟩ <;> linarith
  rw [X_convex conv hn a2 b2, X_convex conv hn a1 b1, X_convex conv hn b1 b2, X_convex conv hn a1 a2]
  ring

/-- An edge that does not run to the left. -/
theorem passes_crossing {e : Edge} (h : e.1.1 ≤ e.2.1) (q : ℚ × ℚ) (c : Int) : (if PassesBelow e q then c else 0) = c * crossing q e := by
  have h' : (e.1.1 : ℚ) ≤ e.2.1 := by exact_mod_cast h
  have n : ¬ ((e.2.1 : ℚ) ≤ q.1 ∧ q.1 < e.1.1 ∧ lineY e.1 e.2 q.1 ≤ q.2) := by rintro ⟨h1, h2, _⟩; linarith
  unfold crossing
  rw [if_neg n]
  by_cases c : PassesBelow e q
  · rw [if_pos c, if_pos (show (e.1.1 : ℚ) ≤ q.1 ∧ q.1 < e.2.1 ∧ lineY e.1 e.2 q.1 ≤ q.2 from c)]; ring
  · rw [if_neg c, if_neg (show ¬ ((e.1.1 : ℚ) ≤ q.1 ∧ q.1 < e.2.1 ∧ lineY e.1 e.2 q.1 ≤ q.2) from c)]; ring

theorem crossing_vertical {e : Edge} (h : e.1.1 = e.2.1) (q : ℚ × ℚ) : crossing q e = 0 := by
  unfold crossing
  rw [h, if_neg, if_neg] <;> (rintro ⟨h1, h2, _⟩; linarith)

theorem scale_depth {f : Int} (hf : 0 < f) {D : Data} (hd : ∀ e ∈ D, e.1.1.1 ≤ e.1.2.1) (hD : Closed D) {q : ℚ × ℚ} (h : Away f (D.map Prod.fst) q) :
    depth (scaleSet f D) q = depth D (q.1 * f, q.2 * f) := by
  have ht := closed_test hD (swept f q)
  have key : (D.map (fun e => (fun e : HE × Int => if PassesBelow e.1 q then e.2 else 0)
      (let vb := e.1.1.1 == e.1.2.1
       let e' : HE := ((down f e.1.1.1, down f e.1.1.2), (down f e.1.2.1, down f e.1.2.2))
       let va := e'.1.1 == e'.2.1
       if !vb && va then (e', e.2 * -1) else (e', e.2)))) =
      D.map (fun e => (if PassesBelow e.1 (q.1 * f, q.2 * f) then e.2 else 0) + carry e * (swept f q e.1.2 - swept f q e.1.1)) := by
    apply List.map_congr_left
    intro e he
    have hm := crossing_moved hf (h e.1 (List.mem_map.2 ⟨e, he, rfl⟩))
    have hle := hd e he
    rw [passes_crossing hle]
    dsimp only
    have hmono := down_mono hf hle
    by_cases c1 : down f e.1.1.1 = down f e.1.2.1
    · have z := crossing_vertical (e := ((down f e.1.1.1, down f e.1.1.2), (down f e.1.2.1, down f e.1.2.2))) c1 q
      have np : ¬ PassesBelow ((down f e.1.1.1, down f e.1.1.2), (down f e.1.2.1, down f e.1.2.2)) q := by
        rintro ⟨k1, k2, _⟩; dsimp only at k1 k2; rw [c1] at k1; linarith
      have : ∀ b : Bool, (if PassesBelow (if b = true then ((((down f e.1.1.1, down f e.1.1.2), (down f e.1.2.1, down f e.1.2.2)), e.2 * -1) : HE × Int)
          else (((down f e.1.1.1, down f e.1.1.2), (down f e.1.2.1, down f e.1.2.2)), e.2)).1 q then (if b = true then ((((down f e.1.1.1, down f e.1.1.2), (down f e.1.2.1, down f e.1.2.2)), e.2 * -1) : HE × Int)
          else (((down f e.1.1.1, down f e.1.1.2), (down f e.1.2.1, down f e.1.2.2)), e.2)).2 else 0) = 0 := by
        intro b; cases b <;> exact if_neg np
      rw [this]
      rw [z] at hm
      unfold carry
      by_cases c2 : e.1.1.1 = e.1.2.1
      · rw [crossing_vertical c2] at hm ⊢
        rw [if_pos c2]
        linear_combination (-e.2) * hm
      · rw [if_neg c2]
        linear_combination e.2 * hm
    · have c2 : ¬ e.1.1.1 = e.1.2.1 := fun g => c1 (by rw [g])
      have hb : (!(e.1.1.1 == e.1.2.1) && (down f e.1.1.1 == down f e.1.2.1)) = false := by simp [c1]
      rw [hb]
      simp only [Bool.false_eq_true, if_false]
      rw [passes_crossing (e := ((down f e.1.1.1, down f e.1.1.2), (down f e.1.2.1, down f e.1.2.2))) hmono, hm]
      unfold carry
      rw [if_neg c2]
      ring
  unfold Spec.Arb.depth scaleSet PolySet.scaleDown
  rw [List.map_map]
  refine Eq.trans (congrArg List.sum key) ?_
  rw [List.sum_map_add, ht, add_zero]

end Verif.ScaleDown
