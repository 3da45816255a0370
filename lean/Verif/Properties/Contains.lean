import Mathlib.Order.WithBot
import Mathlib.Data.Prod.Lex
import Verif.Proofs.Contains
/-!
# C31, C32, C34: point-in-polygon and the slope predicates under it

Specification: `Spec/Contains.lean` (boundary points, even-odd crossing count).
-/
namespace Verif.Properties.Contains
open Verif.Machine Verif.Segment Verif.Spec Verif.Contains

/-! ## C34 -/

/-- The slope of the line from `p` to `q`; vertical lines have the greatest slope. -/
def slope (p q : Int × Int) : WithTop ℚ :=
  if q.1 = p.1 then ⊤ else ((((q.2 : ℚ) - p.2) / ((q.1 : ℚ) - p.1) : ℚ) : WithTop ℚ)

/-- C34: `equal_slope` is exact collinearity of the three points, for all 32-bit coordinates; no
signed intermediate overflows. -/
theorem C34_equal_slope {p a b : Int × Int} (hp : P32 p) (ha : P32 a) (hb : P32 b) :
    ∃ r, equalSlope p a b = some r ∧ (r = true ↔ cross p a p b = 0) := by
  refine ⟨_, equalSlope_eq hp ha hb, ?_⟩
  rw [decide_eq_true_eq]
  unfold cross
  constructor <;> intro h <;> linarith

/-- C34: `less_slope` is the exact comparison of the slopes of the lines from `p` to `a` and from
`p` to `b`, for all 32-bit coordinates. -/
theorem C34_less_slope {p a b : Int × Int} (hp : P32 p) (ha : P32 a) (hb : P32 b) :
    ∃ r, lessSlope p a b = some r ∧ (r = true ↔ slope p a < slope p b) := by
  refine ⟨_, lessSlope_eq hp ha hb, ?_⟩
  rw [decide_eq_true_eq]
  unfold slope
  by_cases h1 : a.1 = p.1
  · simp [h1]
  have z1 : a.1 - p.1 ≠ 0 := by omega
  by_cases h2 : b.1 = p.1
  · simp only [h1, h2, if_true, if_false]
    exact ⟨fun _ => WithTop.coe_lt_top _, fun _ => ⟨z1, Or.inl (by omega)⟩⟩
  · have z2 : b.1 - p.1 ≠ 0 := by omega
    simp only [h1, h2, if_false, WithTop.coe_lt_coe, ne_eq, z1, z2, not_false_eq_true, true_and, false_or]
    have q1 : ((a.1 : ℚ) - p.1) ≠ 0 := by exact_mod_cast z1
    have q2 : ((b.1 : ℚ) - p.1) ≠ 0 := by exact_mod_cast z2
    rw [← sub_neg (a := ((a.2 : ℚ) - p.2) / _), div_sub_div _ _ q1 q2, div_neg_iff, ← mul_neg_iff]
    constructor
    · intro h
      have : ((((b.1 - p.1) * (a.2 - p.2) - (a.1 - p.1) * (b.2 - p.2)) * ((a.1 - p.1) * (b.1 - p.1)) : Int) : ℚ) < 0 := by exact_mod_cast h
      push_cast at this
      linarith
    · intro h
      have : ((((b.1 - p.1) * (a.2 - p.2) - (a.1 - p.1) * (b.2 - p.2)) * ((a.1 - p.1) * (b.1 - p.1)) : Int) : ℚ) < 0 := by
        push_cast; linarith
      exact_mod_cast this

/-- C34: over the closed horizontal span of an edge that is not vertical, `on_above_or_below` is 0 on
the line, 1 above it and -1 below it, for all 32-bit coordinates. -/
theorem C34_on_above_or_below {p a b : Int × Int} (hp : P32 p) (ha : P32 a) (hb : P32 b) (hab : a.1 ≠ b.1)
    (h1 : min a.1 b.1 ≤ p.1) (h2 : p.1 ≤ max a.1 b.1) :
    ∃ r, onAboveOrBelow p a b = some r ∧ (r = 0 ↔ lineY a b p.1 = p.2) ∧ (r = 1 ↔ lineY a b p.1 < p.2) ∧
      (r = -1 ↔ (p.2 : ℚ) < lineY a b p.1) := by
  refine ⟨_, onAboveOrBelow_eq hp ha hb hab h1 h2, ?_⟩
  obtain ⟨l1, l2⟩ := lt_lineY (p := p) hab
  have z : det p a b * (b.1 - a.1) = 0 ↔ det p a b = 0 := by rw [mul_eq_zero]; omega
  refine ⟨by rw [Int.sign_eq_zero_iff_zero, z, l2], by rw [Int.sign_eq_one_iff_pos, l1], ?_⟩
  rw [Int.sign_eq_neg_one_iff_neg]
  have l3 : (p.2 : ℚ) < lineY a b p.1 ↔ ¬ lineY a b p.1 < p.2 ∧ ¬ lineY a b p.1 = p.2 := by
    rw [not_lt]
    exact ⟨fun h => ⟨h.le, ne_of_gt h⟩, fun h => lt_of_le_of_ne h.1 (Ne.symm h.2)⟩
  rw [l3, l1, l2, ← z]
  omega

/-- C34: `less_point` is the lexicographic order, and `between` is strict betweenness in it. -/
theorem C34_less_point_between (p a b : Int × Int) :
    (lessPoint a b = true ↔ toLex a < toLex b) ∧
    (Contains.between p a b = true ↔ min (toLex a) (toLex b) < toLex p ∧ toLex p < max (toLex a) (toLex b)) := by
  have lp : ∀ a b : Int × Int, lessPoint a b = true ↔ toLex a < toLex b := fun a b => by
    rw [lessPoint_iff, Prod.Lex.toLex_lt_toLex]
  refine ⟨lp a b, ?_⟩
  unfold Contains.between
  split_ifs with h
  · rw [Bool.and_eq_true, lp, lp, min_eq_left ((lp _ _).mp h).le, max_eq_right ((lp _ _).mp h).le]
    exact and_comm
  · rw [lp, not_lt] at h
    rw [Bool.and_eq_true, lp, lp, min_eq_right h, max_eq_left h]
    exact and_comm

-- extreme corners: the products are near 2^64
example : equalSlope (-2 ^ 31, -2 ^ 31) (2 ^ 31 - 1, 2 ^ 31 - 1) (2 ^ 31 - 2, 2 ^ 31 - 2) = some true ∧
    equalSlope (-2 ^ 31, -2 ^ 31) (2 ^ 31 - 1, 2 ^ 31 - 1) (2 ^ 31 - 1, 2 ^ 31 - 2) = some false ∧
    lessSlope (-2 ^ 31, -2 ^ 31) (2 ^ 31 - 1, 2 ^ 31 - 2) (2 ^ 31 - 1, 2 ^ 31 - 1) = some true ∧
    onAboveOrBelow (0, 5) (10, 20) (-10, -20) = some 1 := by decide +kernel
example : P32 (-2 ^ 31, -2 ^ 31) ∧ P32 (2 ^ 31 - 1, 2 ^ 31 - 1) := by simp [P32, I32]

/-! ## C31 -/

/-- C31: `contains(polygon, point, touch)` is `touch` on the boundary and otherwise the even-odd
crossing parity, for every vertex list with 32-bit coordinates and at least two different vertices
(self-intersecting polygons, repeated vertices and spikes included). -/
theorem C31_contains {P : List (Int × Int)} {p : Int × Int} (hP : ∀ v ∈ P, P32 v) (hp : P32 p)
    (h2 : ∃ u ∈ P, ∃ v ∈ P, u ≠ v) (touch : Bool) :
    ∃ r, contains P p touch = some r ∧
      (r = true ↔ (OnBoundary P p ∧ touch = true) ∨ (¬ OnBoundary P p ∧ OddCrossings P p)) := by
  obtain ⟨u, hu, v, hv, huv⟩ := h2
  match P, hP with
  | [], _ => simp at hu
  | [a], _ => simp at hu hv; exact absurd (hu.trans hv.symm) huv
  | a :: c :: r, hP =>
    have hne : ∃ d ∈ c :: r, d ≠ a := by
      by_contra hc
      push Not at hc
      have : ∀ w ∈ a :: c :: r, w = a := fun w hw => by
        rcases List.mem_cons.mp hw with rfl | hw
        · rfl
        · exact hc w hw
      exact huv ((this u hu).trans (this v hv).symm)
    refine ⟨_, containsGo_eq hp (hP a List.mem_cons_self) touch (c :: r) a 0 (hP a List.mem_cons_self)
      (fun d hd => hP d (List.mem_cons_of_mem _ hd)), ?_⟩
    rw [← edges_path, sum_cb]
    by_cases hb : OnBoundary (a :: c :: r) p
    · rw [if_pos (touch_nonzero hne hb)]
      simp [hb]
    · rw [if_neg (fun ⟨e, he, _, h⟩ => hb ⟨e, he, h⟩)]
      simp only [hb, false_and, not_false_eq_true, true_and, false_or, decide_eq_true_eq, zero_add]
      unfold OddCrossings
      omega

/-- C31: a polygon all of whose vertices coincide (or with fewer than two vertices) contains nothing. -/
theorem C31_contains_degenerate {P : List (Int × Int)} (hP : ∀ v ∈ P, P32 v) (h1 : ∀ u ∈ P, ∀ v ∈ P, u = v)
    (p : Int × Int) (touch : Bool) : contains P p touch = some false := by
  match P, hP with
  | [], _ => rfl
  | [a], _ => rfl
  | a :: c :: r, hP =>
    have hall : ∀ d ∈ c :: r, d = a := fun d hd => h1 d (List.mem_cons_of_mem _ hd) a List.mem_cons_self
    have key : ∀ (r : List (Int × Int)) n, (∀ d ∈ r, d = a) → containsGo p a touch a r n = some (decide (n % 2 ≠ 0)) := by
      intro r
      induction r with
      | nil => intro n _; simp [containsGo]
      | cons d r ih =>
        intro n h
        have := h d List.mem_cons_self
        subst this
        simp only [containsGo, if_true]
        exact ih n (fun e he => h e (List.mem_cons_of_mem _ he))
    exact (key _ 0 hall).trans rfl

/-- C31, violation: in the degenerate case the touching flag is ignored: a polygon whose two
vertices coincide does not `contain` its own boundary point with touching considered. -/
theorem C31_contains_degenerate_violated :
    OnBoundary [(3, 4), (3, 4)] (3, 4) ∧ contains [(3, 4), (3, 4)] (3, 4) true = some false := by
  refine ⟨⟨((3, 4), (3, 4)), by decide, 0, le_refl _, by norm_num, by norm_num, by norm_num⟩, by decide +kernel⟩

/-- C31: `contains(polygon_with_holes, point, touch)`: the outer boundary contains the point and no
hole contains it with the opposite treatment of touching. -/
theorem C31_contains_holes {P : List (Int × Int)} {H : List (List (Int × Int))} {p : Int × Int}
    (hP : ∀ v ∈ P, P32 v) (hH : ∀ Q ∈ H, ∀ v ∈ Q, P32 v) (hp : P32 p) (h2 : ∃ u ∈ P, ∃ v ∈ P, u ≠ v)
    (h2H : ∀ Q ∈ H, ∃ u ∈ Q, ∃ v ∈ Q, u ≠ v) (touch : Bool) :
    ∃ r, containsHoles P H p touch = some r ∧
      (r = true ↔ ((OnBoundary P p ∧ touch = true) ∨ (¬ OnBoundary P p ∧ OddCrossings P p)) ∧
        ∀ Q ∈ H, (OnBoundary Q p ∧ touch = true) ∨ (¬ OnBoundary Q p ∧ ¬ OddCrossings Q p)) := by
  obtain ⟨r, hr, hr'⟩ := C31_contains hP hp h2 touch
  have fold : ∀ (H : List (List (Int × Int))) (b : Bool), (∀ Q ∈ H, ∀ v ∈ Q, P32 v) → (∀ Q ∈ H, ∃ u ∈ Q, ∃ v ∈ Q, u ≠ v) →
      ∃ s, H.foldlM (fun inside Q => if inside then do return !(← contains Q p (!touch)) else return false) b = some s ∧
        (s = true ↔ b = true ∧ ∀ Q ∈ H, (OnBoundary Q p ∧ touch = true) ∨ (¬ OnBoundary Q p ∧ ¬ OddCrossings Q p)) := by
    intro H
    induction H with
    | nil => intro b _ _; exact ⟨b, rfl, by simp⟩
    | cons Q H ih =>
      intro b q1 q2
      obtain ⟨t, ht, ht'⟩ := C31_contains (q1 Q List.mem_cons_self) hp (q2 Q List.mem_cons_self) (!touch)
      obtain ⟨s, hs, hs'⟩ := ih (if b then !t else false) (fun R hR => q1 R (List.mem_cons_of_mem _ hR)) (fun R hR => q2 R (List.mem_cons_of_mem _ hR))
      refine ⟨s, ?_, ?_⟩
      · rw [List.foldlM_cons, ← hs, ht]
        cases b <;> rfl
      · rw [hs']
        simp only [List.mem_cons, forall_eq_or_imp]
        cases b
        · simp
        · cases t <;> cases touch <;> simp at ht' ⊢ <;> tauto
  obtain ⟨s, hs, hs'⟩ := fold H true hH h2H
  unfold containsHoles
  rw [hr]
  cases r
  · refine ⟨false, rfl, ?_⟩
    exact ⟨fun h => absurd h (by simp), fun h => hr'.mpr h.1⟩
  · refine ⟨s, hs, ?_⟩
    rw [hs']
    exact ⟨fun h => ⟨hr'.mp rfl, h.2⟩, fun h => ⟨rfl, h.2⟩⟩

-- a self-intersecting bow tie with a repeated vertex
example : contains [(0, 0), (10, 10), (10, 10), (10, 0), (0, 10)] (2, 5) true = some true ∧
    contains [(0, 0), (10, 10), (10, 10), (10, 0), (0, 10)] (5, 8) true = some false ∧
    contains [(0, 0), (10, 10), (10, 10), (10, 0), (0, 10)] (5, 5) true = some true ∧
    contains [(0, 0), (10, 10), (10, 10), (10, 0), (0, 10)] (5, 5) false = some false ∧
    containsHoles [(0, 0), (10, 0), (10, 10), (0, 10)] [[(2, 2), (8, 2), (5, 8)]] (5, 5) true = some false ∧
    containsHoles [(0, 0), (10, 0), (10, 10), (0, 10)] [[(2, 2), (8, 2), (5, 8)]] (5, 2) true = some true := by decide +kernel
example : OddCrossings [(0, 0), (10, 10), (10, 0), (0, 10)] (2, 5) ∧ ¬ OddCrossings [(0, 0), (10, 10), (10, 0), (0, 10)] (5, 8) := by
  unfold OddCrossings
  decide +kernel

/-! ## C32 -/

/-- C32: `contains(polygon_90, point, touch)` is `touch` on the boundary and otherwise the crossing
parity, for every rectilinear polygon whose edges alternate and are not empty. -/
theorem C32_contains_90 {P : List (Int × Int)} (hA : Alternating P) (hz : ∀ e ∈ edges P, e.1 ≠ e.2)
    (p : Int × Int) (touch : Bool) :
    contains90 P p touch = true ↔ (OnBoundary P p ∧ touch = true) ∨ (¬ OnBoundary P p ∧ OddCrossingsLeft P p) := by
  rw [contains90_eq hA hz]
  split_ifs with h <;> simp [h]

/-- C32: the parity of crossings along the leftward ray and along the downward ray are the same off
the boundary, so the Manhattan and the general function return the same. -/
theorem C32_agrees_with_general {P : List (Int × Int)} (hA : Alternating P) (hz : ∀ e ∈ edges P, e.1 ≠ e.2)
    (hP : ∀ v ∈ P, P32 v) (h2 : ∃ u ∈ P, ∃ v ∈ P, u ≠ v) {p : Int × Int} (hp : P32 p) (touch : Bool) :
    contains P p touch = some (contains90 P p touch) := by
  obtain ⟨r, hr, hr'⟩ := C31_contains hP hp h2 touch
  rw [hr]
  congr 1
  rw [Bool.eq_iff_iff, hr', C32_contains_90 hA hz]
  by_cases hb : OnBoundary P p
  · simp [hb]
  · rw [parity_agree (alt_rect' hA) p hb]

/-- C32: with holes. -/
theorem C32_contains_90_holes {P : List (Int × Int)} {H : List (List (Int × Int))} (hA : Alternating P)
    (hz : ∀ e ∈ edges P, e.1 ≠ e.2) (hH : ∀ Q ∈ H, Alternating Q ∧ ∀ e ∈ edges Q, e.1 ≠ e.2) (p : Int × Int) (touch : Bool) :
    containsHoles90 P H p touch = true ↔
      ((OnBoundary P p ∧ touch = true) ∨ (¬ OnBoundary P p ∧ OddCrossingsLeft P p)) ∧
        ∀ Q ∈ H, (OnBoundary Q p ∧ touch = true) ∨ (¬ OnBoundary Q p ∧ ¬ OddCrossingsLeft Q p) := by
  unfold containsHoles90
  rw [Bool.and_eq_true, C32_contains_90 hA hz, Bool.not_eq_true', List.any_eq_false]
  refine and_congr_right (fun _ => forall₂_congr fun Q hQ => ?_)
  rw [C32_contains_90 (hH Q hQ).1 (hH Q hQ).2]
  cases touch <;> simp <;> tauto

/-- C32, violation: with a zero-length edge, which the compact coordinates `0,0,5,0,10,10` of a
`polygon_90_data` produce, a point far outside is reported as contained. -/
theorem C32_zero_edge_violated :
    Alternating [(0, 0), (5, 0), (5, 0), (10, 0), (10, 10), (0, 10)] ∧
    contains90 [(0, 0), (5, 0), (5, 0), (10, 0), (10, 10), (0, 10)] (20, 0) true = true ∧
    ¬ OddCrossingsLeft [(0, 0), (5, 0), (5, 0), (10, 0), (10, 10), (0, 10)] (20, 0) ∧
    ¬ OnBoundary [(0, 0), (5, 0), (5, 0), (10, 0), (10, 10), (0, 10)] (20, 0) := by
  have hA : Alternating [(0, 0), (5, 0), (5, 0), (10, 0), (10, 10), (0, 10)] := ⟨by decide, Or.inl (by decide)⟩
  refine ⟨hA, by decide +kernel, by unfold OddCrossingsLeft; decide +kernel, ?_⟩
  rw [onBoundary_iff (alt_rect' hA)]
  unfold onE
  decide +kernel

/-- C32, violation: with two vertical edges in a row the vertex between them is not recognised as
a boundary point. -/
theorem C32_collinear_vertex_violated :
    OnBoundary [(0, 0), (10, 0), (10, 10), (0, 10), (0, 5)] (0, 5) ∧
    contains90 [(0, 0), (10, 0), (10, 10), (0, 10), (0, 5)] (0, 5) false = true := by
  refine ⟨⟨((0, 5), (0, 0)), by decide, 0, le_refl _, by norm_num, by norm_num, by norm_num⟩, by decide +kernel⟩

-- a self-touching alternating polygon, with points on rays through its vertices
example : Alternating [(0, 0), (20, 0), (20, 10), (10, 10), (10, 5), (5, 5), (5, 10), (0, 10)] ∧
    contains90 [(0, 0), (20, 0), (20, 10), (10, 10), (10, 5), (5, 5), (5, 10), (0, 10)] (15, 5) false = true ∧
    contains90 [(0, 0), (20, 0), (20, 10), (10, 10), (10, 5), (5, 5), (5, 10), (0, 10)] (7, 7) false = false ∧
    contains90 [(0, 0), (20, 0), (20, 10), (10, 10), (10, 5), (5, 5), (5, 10), (0, 10)] (25, 10) true = false ∧
    contains90 [(0, 0), (20, 0), (20, 10), (10, 10), (10, 5), (5, 5), (5, 10), (0, 10)] (10, 7) true = true :=
  ⟨⟨by decide, Or.inl (by decide)⟩, by decide +kernel⟩

end Verif.Properties.Contains
