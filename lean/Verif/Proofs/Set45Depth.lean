import Verif.Proofs.Set45Run
import Mathlib.Tactic.FieldSimp
/-! # The depth determines the corners; closed data has no depth outside its box -/
namespace Verif.Set45
open Verif.Deg45 Verif.Spec.Deg45

variable {C : Type} [AddCommGroup C]

theorem tot_none {D : List (Vert C)} {f : P → Bool} {w : Quad C → C} (hw : w ⟨0, 0, 0, 0⟩ = 0)
    (h : ∀ v ∈ D, v.2 ≠ ⟨0, 0, 0, 0⟩ → f v.1 = false) : tot D f w = 0 := by
  induction D with
  | nil => rfl
  | cons v D ih =>
    rw [tot_cons, ih (fun u hu => h u (List.mem_cons_of_mem _ hu)), add_zero]
    by_cases c : v.2 = ⟨0, 0, 0, 0⟩
    · rw [c, hw]; simp
    · rw [h v List.mem_cons_self c]; rfl

theorem tot_congr0 {D : List (Vert C)} {f h : P → Bool} {w : Quad C → C} (hw : w ⟨0, 0, 0, 0⟩ = 0)
    (e : ∀ v ∈ D, v.2 ≠ ⟨0, 0, 0, 0⟩ → f v.1 = h v.1) : tot D f w = tot D h w := by
  induction D with
  | nil => rfl
  | cons v D ih =>
    rw [tot_cons, tot_cons, ih (fun u hu => e u (List.mem_cons_of_mem _ hu))]
    by_cases c : v.2 = ⟨0, 0, 0, 0⟩
    · rw [c, hw]; simp
    · rw [e v List.mem_cons_self c]

/-- All vertices with a weight lie in the box. -/
def Box (lo hi : Int) (D : List (Vert C)) : Prop :=
  ∀ v ∈ D, v.2 ≠ ⟨0, 0, 0, 0⟩ → (lo ≤ v.1.1 ∧ v.1.1 ≤ hi) ∧ lo ≤ v.1.2 ∧ v.1.2 ≤ hi

theorem depth_box_le {D : List (Vert C)} (hc : Closed D) {lo hi : Int} (hb : Box lo hi D) {q : ℚ × ℚ}
    (h : q.1 < lo ∨ (hi : ℚ) ≤ q.1 ∨ q.2 < lo ∨ (hi : ℚ) ≤ q.2) : depth D q = 0 := by
  rw [depth_tot]
  rcases h with h | h | h | h
  · have : ∀ r : Int, ∀ v ∈ D, v.2 ≠ ⟨0, 0, 0, 0⟩ → reach q r v.1 = false := by
      intro r v hv hn
      have h1 : (lo : ℚ) ≤ v.1.1 := by exact_mod_cast (hb v hv hn).1.1
      unfold reach
      rw [decide_eq_false_iff_not]
      rintro ⟨h2, -⟩; linarith
    rw [tot_none rfl (this _), tot_none rfl (this _), tot_none rfl (this _)]; simp
  · have e1 := closed_downs hc (fun k => decide ((k : ℚ) ≤ q.1 + q.2))
    have e2 := closed_flats hc (fun k => decide ((k : ℚ) ≤ q.2))
    have e3 := closed_ups hc (fun k => decide ((k : ℚ) ≤ q.2 - q.1))
    have hx : ∀ v ∈ D, v.2 ≠ ⟨0, 0, 0, 0⟩ → (v.1.1 : ℚ) ≤ q.1 := by
      intro v hv hn
      have h1 : (v.1.1 : ℚ) ≤ hi := by exact_mod_cast (hb v hv hn).1.2
      linarith
    rw [tot_congr0 rfl (h := fun p => decide (((p.1 + p.2 : Int) : ℚ) ≤ q.1 + q.2)) (fun v hv hn => ?_), e1,
      tot_congr0 rfl (h := fun p => decide (((p.2 : Int) : ℚ) ≤ q.2)) (fun v hv hn => ?_), e2,
      tot_congr0 rfl (h := fun p => decide (((p.2 - p.1 : Int) : ℚ) ≤ q.2 - q.1)) (fun v hv hn => ?_), e3]
    · simp
    · have := hx v hv hn
      unfold reach; rw [decide_eq_decide]; push_cast
      constructor
      · rintro ⟨-, h2⟩; linarith
      · intro h2; exact ⟨this, by linarith⟩
    · have := hx v hv hn
      unfold reach; rw [decide_eq_decide]; push_cast
      constructor
      · rintro ⟨-, h2⟩; linarith
      · intro h2; exact ⟨this, by linarith⟩
    · have := hx v hv hn
      unfold reach; rw [decide_eq_decide]; push_cast
      constructor
      · rintro ⟨-, h2⟩; linarith
      · intro h2; exact ⟨this, by linarith⟩
  · have e1 := closed_downs hc (fun k => decide ((k : ℚ) ≤ q.1 + q.2))
    have hy : ∀ v ∈ D, v.2 ≠ ⟨0, 0, 0, 0⟩ → q.2 < v.1.2 := by
      intro v hv hn
      have h1 : (lo : ℚ) ≤ v.1.2 := by exact_mod_cast (hb v hv hn).2.1
      linarith
    rw [tot_congr0 rfl (h := fun p => decide (((p.1 + p.2 : Int) : ℚ) ≤ q.1 + q.2)) (fun v hv hn => ?_), e1,
      tot_none rfl (fun v hv hn => ?_), tot_none rfl (fun v hv hn => ?_)]
    · simp
    · have := hy v hv hn
      unfold reach; rw [decide_eq_false_iff_not]; push_cast
      rintro ⟨h1, h2⟩; linarith
    · have := hy v hv hn
      unfold reach; rw [decide_eq_false_iff_not]; push_cast
      rintro ⟨h1, h2⟩; linarith
    · have := hy v hv hn
      unfold reach; rw [decide_eq_decide]; push_cast
      constructor
      · rintro ⟨-, h2⟩; linarith
      · intro h2; exact ⟨by linarith, by linarith⟩
  · have hy : ∀ v ∈ D, v.2 ≠ ⟨0, 0, 0, 0⟩ → (v.1.2 : ℚ) ≤ q.2 := by
      intro v hv hn
      have h1 : (v.1.2 : ℚ) ≤ hi := by exact_mod_cast (hb v hv hn).2.2
      linarith
    have e3 := closed_ups hc (fun k => !decide ((k : ℚ) ≤ q.2 - q.1))
    have ea : tot D (fun p => decide ((p.1 : ℚ) ≤ q.1)) Quad.p = tot D (reach q 1) Quad.p := by
      rw [tot_split D (fun p => decide ((p.1 : ℚ) ≤ q.1)) (fun p => decide (((p.2 - p.1 : Int) : ℚ) ≤ q.2 - q.1))]
      have : tot D (fun p => decide ((p.1 : ℚ) ≤ q.1) && !decide (((p.2 - p.1 : Int) : ℚ) ≤ q.2 - q.1)) Quad.p = 0 := by
        rw [← e3]
        refine tot_congr0 rfl (fun v hv hn => ?_)
        have := hy v hv hn
        rw [Bool.eq_iff_iff]
        simp only [Bool.and_eq_true, decide_eq_true_eq, Bool.not_eq_true', decide_eq_false_iff_not]
        push_cast
        constructor
        · exact fun h => h.2
        · intro h; exact ⟨by linarith, h⟩
      rw [this, add_zero]
      refine tot_congr _ (fun v _ => ?_)
      unfold reach
      rw [Bool.eq_iff_iff]
      simp only [Bool.and_eq_true, decide_eq_true_eq]
      push_cast
      constructor
      · rintro ⟨h1, h2⟩; exact ⟨h1, by linarith⟩
      · rintro ⟨h1, h2⟩; exact ⟨h1, by linarith⟩
    have eb : ∀ r : Int, r ≤ 0 → ∀ w : Quad C → C, w ⟨0, 0, 0, 0⟩ = 0 → tot D (reach q r) w = tot D (fun p => decide ((p.1 : ℚ) ≤ q.1)) w := by
      intro r hr w hw
      refine tot_congr0 hw (fun v hv hn => ?_)
      have := hy v hv hn
      unfold reach; rw [decide_eq_decide]
      constructor
      · exact fun h => h.1
      · intro h1
        have hr' : (r : ℚ) ≤ 0 := by exact_mod_cast hr
        have := mul_nonpos_of_nonpos_of_nonneg hr' (sub_nonneg.2 h1)
        exact ⟨h1, by linarith⟩
    rw [eb (-1) (by norm_num) Quad.n rfl, eb 0 (by norm_num) Quad.z rfl, ← ea]
    have := closed_points hc (fun p => decide ((p.1 : ℚ) ≤ q.1))
    rw [tot_add, tot_add] at this
    show tot D _ (fun q => q.n) + tot D _ (fun q => q.z) + tot D _ (fun q => q.p) = 0
    rw [this]
    exact closed_verts hc (fun a => decide ((a : ℚ) ≤ q.1))

theorem depth_box {D : List (Vert C)} (hc : Closed D) {lo hi : Int} (hb : Box lo hi D) {q : ℚ × ℚ}
    (h : q.1 < lo ∨ (hi : ℚ) < q.1 ∨ q.2 < lo ∨ (hi : ℚ) < q.2) : depth D q = 0 :=
  depth_box_le hc hb (by
    rcases h with h | h | h | h
    · exact Or.inl h
    · exact Or.inr (Or.inl (le_of_lt h))
    · exact Or.inr (Or.inr (Or.inl h))
    · exact Or.inr (Or.inr (Or.inr (le_of_lt h))))

/-! ### Corners -/

/-- A point of the grid of eighths. -/
def e8 (a b : Int) : ℚ × ℚ := ((a : ℚ) / 8, (b : ℚ) / 8)

theorem reach8 (a b r : Int) (p : P) : reach (e8 a b) r p = decide (8 * p.1 ≤ a ∧ 8 * p.2 + r * (a - 8 * p.1) ≤ b) := by
  unfold reach e8
  rw [decide_eq_decide]
  simp only
  have h1 : ((p.1 : ℚ) ≤ (a : ℚ) / 8) ↔ 8 * p.1 ≤ a := by
    rw [le_div_iff₀ (by norm_num)]
    constructor
    · intro h; have : ((8 * p.1 : Int) : ℚ) ≤ a := by push_cast; linarith
      exact_mod_cast this
    · intro h; have : ((8 * p.1 : Int) : ℚ) ≤ a := by exact_mod_cast h
      push_cast at this; linarith
  have h2 : ((p.2 : ℚ) + r * ((a : ℚ) / 8 - p.1) ≤ (b : ℚ) / 8) ↔ 8 * p.2 + r * (a - 8 * p.1) ≤ b := by
    rw [le_div_iff₀ (by norm_num)]
    have e : ((p.2 : ℚ) + r * ((a : ℚ) / 8 - p.1)) * 8 = ((8 * p.2 + r * (a - 8 * p.1) : Int) : ℚ) := by push_cast; ring
    rw [e]
    exact_mod_cast Iff.rfl
  rw [h1, h2]

theorem tot_or {D : List (Vert C)} {f g h : P → Bool} (w : Quad C → C) (e : ∀ p, f p = (g p || h p)) (d : ∀ p, g p = true → h p = false) :
    tot D f w = tot D g w + tot D h w := by
  rw [tot_split D f g]
  congr 1
  · refine tot_congr _ (fun v _ => ?_); rw [e]; cases g v.1 <;> simp
  · refine tot_congr _ (fun v _ => ?_); rw [e]
    have := d v.1
    cases hg : g v.1 with
    | false => simp
    | true => rw [this hg]; rfl

/-- The weight of a slope at a point. -/
def Quad.at (r : Int) (q : Quad C) : C := if r = -1 then q.n else if r = 0 then q.z else q.p

theorem at_n : (Quad.at (-1) : Quad C → C) = Quad.n := by funext q; simp [Quad.at]
theorem at_z : (Quad.at 0 : Quad C → C) = Quad.z := by funext q; simp [Quad.at]
theorem at_p : (Quad.at 1 : Quad C → C) = Quad.p := by funext q; simp [Quad.at]

/-- Across the line of slope `r` through `(X, Y)`, to the right and to the left of the point. -/
theorem jump_at (D : List (Vert C)) (X Y r s : Int) (hr : r = -1 ∨ r = 0 ∨ r = 1) (hs : s = -1 ∨ s = 0 ∨ s = 1) (w : Quad C → C) :
    (tot D (reach (e8 (8 * X + 2) (8 * Y + 2 * r)) s) w - tot D (reach (e8 (8 * X + 2) (8 * Y + 2 * r - 1)) s) w) -
    (tot D (reach (e8 (8 * X - 2) (8 * Y - 2 * r)) s) w - tot D (reach (e8 (8 * X - 2) (8 * Y - 2 * r - 1)) s) w) =
    if s = r then tot D (fun p => decide (p = (X, Y))) w else 0 := by
  have hE : ∀ p : P, p = (X, Y) ↔ p.1 = X ∧ p.2 = Y := fun p => Prod.ext_iff
  by_cases c : s = r
  · rw [if_pos c, c]
    have h1 : tot D (reach (e8 (8 * X + 2) (8 * Y + 2 * r)) r) w = tot D (reach (e8 (8 * X + 2) (8 * Y + 2 * r - 1)) r) w +
        tot D (fun p => decide (p.1 ≤ X ∧ p.2 - r * p.1 = Y - r * X)) w := by
      refine tot_or w (fun p => ?_) (fun p => ?_)
      · rw [reach8, reach8, Bool.eq_iff_iff]
        simp only [Bool.or_eq_true, decide_eq_true_eq]
        rcases hr with rfl | rfl | rfl <;> omega
      · rw [reach8]
        simp only [decide_eq_true_eq, decide_eq_false_iff_not]
        rcases hr with rfl | rfl | rfl <;> omega
    have h2 : tot D (reach (e8 (8 * X - 2) (8 * Y - 2 * r)) r) w = tot D (reach (e8 (8 * X - 2) (8 * Y - 2 * r - 1)) r) w +
        tot D (fun p => decide (p.1 ≤ X - 1 ∧ p.2 - r * p.1 = Y - r * X)) w := by
      refine tot_or w (fun p => ?_) (fun p => ?_)
      · rw [reach8, reach8, Bool.eq_iff_iff]
        simp only [Bool.or_eq_true, decide_eq_true_eq]
        rcases hr with rfl | rfl | rfl <;> omega
      · rw [reach8]
        simp only [decide_eq_true_eq, decide_eq_false_iff_not]
        rcases hr with rfl | rfl | rfl <;> omega
    have h3 : tot D (fun p => decide (p.1 ≤ X ∧ p.2 - r * p.1 = Y - r * X)) w =
        tot D (fun p => decide (p.1 ≤ X - 1 ∧ p.2 - r * p.1 = Y - r * X)) w + tot D (fun p => decide (p = (X, Y))) w := by
      refine tot_or w (fun p => ?_) (fun p => ?_)
      · rw [Bool.eq_iff_iff]
        simp only [Bool.or_eq_true, decide_eq_true_eq, hE]
        rcases hr with rfl | rfl | rfl <;> omega
      · simp only [decide_eq_true_eq, decide_eq_false_iff_not, hE]
        omega
    rw [h1, h2, h3]; abel
  · rw [if_neg c]
    have h1 : tot D (reach (e8 (8 * X + 2) (8 * Y + 2 * r)) s) w = tot D (reach (e8 (8 * X + 2) (8 * Y + 2 * r - 1)) s) w := by
      refine tot_congr _ (fun v _ => ?_)
      rw [reach8, reach8, decide_eq_decide]
      rcases hr with rfl | rfl | rfl <;> rcases hs with rfl | rfl | rfl <;> omega
    have h2 : tot D (reach (e8 (8 * X - 2) (8 * Y - 2 * r)) s) w = tot D (reach (e8 (8 * X - 2) (8 * Y - 2 * r - 1)) s) w := by
      refine tot_congr _ (fun v _ => ?_)
      rw [reach8, reach8, decide_eq_decide]
      rcases hr with rfl | rfl | rfl <;> rcases hs with rfl | rfl | rfl <;> omega
    rw [h1, h2]; simp

/-- The weights at a point, from the depth around it. -/
theorem corner (D : List (Vert C)) (X Y r : Int) (hr : r = -1 ∨ r = 0 ∨ r = 1) :
    tot D (fun p => decide (p = (X, Y))) (Quad.at r) =
    (depth D (e8 (8 * X + 2) (8 * Y + 2 * r)) - depth D (e8 (8 * X + 2) (8 * Y + 2 * r - 1))) -
    (depth D (e8 (8 * X - 2) (8 * Y - 2 * r)) - depth D (e8 (8 * X - 2) (8 * Y - 2 * r - 1))) := by
  have hn := jump_at D X Y r (-1) hr (by simp) Quad.n
  have hz := jump_at D X Y r 0 hr (by simp) Quad.z
  have hp := jump_at D X Y r 1 hr (by simp) Quad.p
  simp only [depth_tot]
  have e : tot D (fun p => decide (p = (X, Y))) (Quad.at r) =
      (if (-1 : Int) = r then tot D (fun p => decide (p = (X, Y))) Quad.n else 0) +
      (if (0 : Int) = r then tot D (fun p => decide (p = (X, Y))) Quad.z else 0) +
      (if (1 : Int) = r then tot D (fun p => decide (p = (X, Y))) Quad.p else 0) := by
    rcases hr with rfl | rfl | rfl <;> simp [at_n, at_z, at_p]
  rw [e, ← hn, ← hz, ← hp]
  abel

/-- Equal depths have equal corners. -/
theorem corners_eq {D E : List (Vert C)} (hD : Closed D) (hE : Closed E) (h : ∀ q, depth D q = depth E q) (p : P) :
    (tot D (fun a => decide (a = p)) Quad.n = tot E (fun a => decide (a = p)) Quad.n ∧
      tot D (fun a => decide (a = p)) Quad.z = tot E (fun a => decide (a = p)) Quad.z) ∧
    tot D (fun a => decide (a = p)) Quad.p = tot E (fun a => decide (a = p)) Quad.p ∧
      tot D (fun a => decide (a = p)) Quad.v = tot E (fun a => decide (a = p)) Quad.v := by
  have k : ∀ r, r = -1 ∨ r = 0 ∨ r = 1 → tot D (fun a => decide (a = p)) (Quad.at r) = tot E (fun a => decide (a = p)) (Quad.at r) := by
    intro r hr
    have h1 := corner D p.1 p.2 r hr
    have h2 := corner E p.1 p.2 r hr
    simp only [h] at h1
    exact h1.trans h2.symm
  have kn : tot D (fun a => decide (a = p)) Quad.n = tot E (fun a => decide (a = p)) Quad.n := by have := k (-1) (by simp); rwa [at_n] at this
  have kz : tot D (fun a => decide (a = p)) Quad.z = tot E (fun a => decide (a = p)) Quad.z := by have := k 0 (by simp); rwa [at_z] at this
  have kp : tot D (fun a => decide (a = p)) Quad.p = tot E (fun a => decide (a = p)) Quad.p := by have := k 1 (by simp); rwa [at_p] at this
  refine ⟨⟨kn, kz⟩, kp, ?_⟩
  rw [← hD.point p, ← hE.point p, tot_add, tot_add, tot_add, tot_add]
  show tot D _ Quad.n + tot D _ Quad.z + tot D _ Quad.p = tot E _ Quad.n + tot E _ Quad.z + tot E _ Quad.p
  rw [kn, kz, kp]

theorem tot_at {D : List (Vert C)} (h : D.Pairwise (fun v w => PLt v.1 w.1)) {v : Vert C} (hv : v ∈ D) (w : Quad C → C) :
    tot D (fun a => decide (a = v.1)) w = w v.2 := by
  induction D with
  | nil => simp at hv
  | cons u D ih =>
    obtain ⟨h1, h2⟩ := List.pairwise_cons.1 h
    have hlt : ∀ a b : P, PLt a b → a ≠ b := fun a b hab e => by rw [e] at hab; unfold PLt at hab; omega
    rcases List.mem_cons.1 hv with rfl | hv
    · rw [tot_cons]
      rw [tot_congr (h := fun _ => false)]
      · simp [tot]
      · intro x hx
        have := hlt _ _ (h1 x hx)
        simpa using fun e => this e.symm
    · rw [tot_cons, ih h2 hv]
      have := hlt _ _ (h1 v hv)
      simp [this]

/-- Where there is no depth around a vertex it has no weights. -/
theorem box_of_depth {D : List (Vert C)} (hc : Closed D) (hs : D.Pairwise (fun v w => PLt v.1 w.1)) {lo hi : Int}
    (h : ∀ q : ℚ × ℚ, (q.1 < lo ∨ (hi : ℚ) < q.1 ∨ q.2 < lo ∨ (hi : ℚ) < q.2) → depth D q = 0) : Box lo hi D := by
  intro v hv hn
  by_contra hout
  apply hn
  have hk : ∀ r, r = -1 ∨ r = 0 ∨ r = 1 → Quad.at r v.2 = 0 := by
    intro r hr
    rw [← tot_at hs hv (Quad.at r), corner D v.1.1 v.1.2 r hr]
    have hz : ∀ a b : Int, 8 * v.1.1 - 2 ≤ a → a ≤ 8 * v.1.1 + 2 → 8 * v.1.2 - 3 ≤ b → b ≤ 8 * v.1.2 + 2 → depth D (e8 a b) = 0 := by
      intro a b h1 h2 h3 h4
      apply h
      unfold e8
      simp only
      have hd : ∀ (m k : Int), 8 * m < k → (m : ℚ) < (k : ℚ) / 8 := by
        intro m k hmk
        rw [lt_div_iff₀ (by norm_num)]
        have : ((8 * m : Int) : ℚ) < k := by exact_mod_cast hmk
        push_cast at this; linarith
      have hd' : ∀ (m k : Int), k < 8 * m → (k : ℚ) / 8 < m := by
        intro m k hmk
        rw [div_lt_iff₀ (by norm_num)]
        have : (k : ℚ) < ((8 * m : Int) : ℚ) := by exact_mod_cast hmk
        push_cast at this; linarith
      by_cases c1 : v.1.1 < lo
      · left; exact hd' _ _ (by omega)
      by_cases c2 : hi < v.1.1
      · right; left; exact hd _ _ (by omega)
      by_cases c3 : v.1.2 < lo
      · right; right; left; exact hd' _ _ (by omega)
      · right; right; right; exact hd _ _ (by omega)
    rw [hz _ _ (by omega) (by omega) (by omega) (by omega), hz _ _ (by omega) (by omega) (by omega) (by omega),
      hz _ _ (by omega) (by omega) (by omega) (by omega), hz _ _ (by omega) (by omega) (by omega) (by omega)]
    simp
  have hn0 : v.2.n = 0 := by have := hk (-1) (by simp); rwa [at_n] at this
  have hz0 : v.2.z = 0 := by have := hk 0 (by simp); rwa [at_z] at this
  have hp0 : v.2.p = 0 := by have := hk 1 (by simp); rwa [at_p] at this
  have hv0 : v.2.v = 0 := by
    have := hc.point v.1
    rw [tot_at hs hv, tot_at hs hv, hn0, hz0, hp0] at this
    rw [← this]; simp
  rcases hq : v.2 with ⟨a, b, c, d⟩
  rw [hq] at hn0 hz0 hp0 hv0
  simp only at hn0 hz0 hp0 hv0
  rw [hn0, hz0, hp0, hv0]

/-- No diagonal appears on a line that no diagonal of the source lies on. -/
theorem grid_of_depth {C' : Type} [AddCommGroup C'] {D : List (Vert C)} {E : List (Vert C')} {f : C' → C} (hs : D.Pairwise (fun v w => PLt v.1 w.1))
    (hd : ∀ q, depth D q = f (depth E q)) (hE : OnGrid E) : OnGrid D := by
  intro v hv hn
  by_contra hodd
  have hz : ∀ r : Int, (r = -1 ∨ r = 1) → Quad.at r v.2 = 0 := by
    intro r hr
    have key : ∀ (a b : Int), a = 8 * v.1.1 + 2 ∧ b = 8 * v.1.2 + 2 * r ∨ a = 8 * v.1.1 - 2 ∧ b = 8 * v.1.2 - 2 * r →
        depth E (e8 a b) = depth E (e8 a (b - 1)) := by
      intro a b hab
      rw [depth_tot, depth_tot]
      have hw : ∀ (s : Int) (w : Quad C' → C'), (s = -1 ∨ s = 0 ∨ s = 1) → w ⟨0, 0, 0, 0⟩ = 0 →
          (∀ u ∈ E, w u.2 ≠ 0 → s ≠ 0 → (u.1.1 + u.1.2) % 2 = 0) → tot E (reach (e8 a b) s) w = tot E (reach (e8 a (b - 1)) s) w := by
        intro s w hss _ hu
        unfold tot
        congr 1
        refine List.map_congr_left (fun u huE => ?_)
        by_cases cw : w u.2 = 0
        · rw [cw]; simp
        · have h2 := hu u huE cw
          have : reach (e8 a b) s u.1 = reach (e8 a (b - 1)) s u.1 := by
            rw [reach8, reach8, decide_eq_decide]
            rcases hss with rfl | rfl | rfl
            · have := h2 (by norm_num)
              rcases hab with ⟨rfl, rfl⟩ | ⟨rfl, rfl⟩ <;> rcases hr with rfl | rfl <;> omega
            · rcases hab with ⟨rfl, rfl⟩ | ⟨rfl, rfl⟩ <;> rcases hr with rfl | rfl <;> omega
            · have := h2 (by norm_num)
              rcases hab with ⟨rfl, rfl⟩ | ⟨rfl, rfl⟩ <;> rcases hr with rfl | rfl <;> omega
          rw [this]
      rw [hw (-1) Quad.n (by simp) rfl (fun u hu h _ => hE u hu (Or.inl h)), hw 0 Quad.z (by simp) rfl (fun u hu h h' => absurd rfl h'),
        hw 1 Quad.p (by simp) rfl (fun u hu h _ => hE u hu (Or.inr h))]
    rw [← tot_at hs hv (Quad.at r), corner D v.1.1 v.1.2 r (by omega), hd, hd, hd, hd, key _ _ (Or.inl ⟨rfl, rfl⟩), key _ _ (Or.inr ⟨rfl, rfl⟩)]
    simp
  have h1 := hz (-1) (Or.inl rfl)
  have h2 := hz 1 (Or.inr rfl)
  rw [at_n] at h1
  rw [at_p] at h2
  rcases hn with h | h
  · exact h h1
  · exact h h2

end Verif.Set45
