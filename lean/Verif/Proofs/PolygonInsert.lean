import Verif.Proofs.Polygon
import Mathlib.Algebra.BigOperators.Intervals
import Mathlib.Algebra.BigOperators.Ring.Finset
import Mathlib.Order.Interval.Finset.Defs
import Mathlib.Data.Int.Interval
import Mathlib.Algebra.Order.BigOperators.Group.Finset
/-! # Helper lemmas: inserting a Manhattan polygon into a polygon set -/
namespace Verif.Polygon
open Verif.BooleanOp Verif.Set90 Verif.Isotropy Verif.Machine Verif.Spec

/-- Consecutive triples of a path. -/
def trip {α : Type*} : List α → List (α × α × α)
  | a :: b :: c :: r => (a, b, c) :: trip (b :: c :: r)
  | _ => []

theorem polyGo_eq (o : Nat) (m : Int) (first second a b c : Int × Int) (r : List (Int × Int))
    (h : (c :: r).getLast? ≠ some first) :
    polyGo o m first second a b c r =
      (trip (a :: b :: c :: r ++ [first, second])).map (fun t => evalPts o m t.1 t.2.1 t.2.2) := by
  induction r generalizing a b c with
  | nil =>
    have hc : first ≠ c := by simpa [eq_comm] using h
    simp [polyGo, polyEnd, trip, hc]
  | cons d r ih =>
    simp only [polyGo, List.cons_append, trip, List.map_cons] at *
    rw [ih b c d (by simpa using h)]

/-- The count `evaluate_` gives to the middle of three points. -/
def cnt (t : (Int × Int) × (Int × Int) × (Int × Int)) : Int :=
  if t.2.1 = t.2.2 then 0 else if t.1.1 ≠ t.2.1.1 then -1 else if t.1.2 ≠ t.2.1.2 then 1 else 0

/-- Quadrant indicator. -/
def qd (x y : Int) (p : Int × Int) : Int := if p.1 ≤ x ∧ p.2 ≤ y then 1 else 0

theorem cover_trip (o : Nat) (ho : o = HORIZONTAL ∨ o = VERTICAL) (m : Int) (T : List ((Int × Int) × (Int × Int) × (Int × Int)))
    (x y : Int) :
    (if o = VERTICAL then coverZ (T.map (fun t => evalPts o m t.1 t.2.1 t.2.2)) x y
      else coverZ (T.map (fun t => evalPts o m t.1 t.2.1 t.2.2)) y x) =
    m * (T.map (fun t => cnt t * qd x y t.2.1)).sum := by
  induction T with
  | nil => simp [coverZ]
  | cons t T ih =>
    rw [List.map_cons, List.map_cons, List.sum_cons, mul_add, ← ih]
    rcases ho with rfl | rfl
    · rw [if_neg (by decide), if_neg (by decide)]
      simp only [coverZ, List.map_cons, List.sum_cons, add_left_inj, evalPts, pget, perpendicular, HORIZONTAL, qd, cnt]
      simp only [if_true]
      by_cases h1 : t.2.1.1 ≤ x <;> by_cases h2 : t.2.1.2 ≤ y <;> simp [h1, h2, mul_comm]
    · rw [if_pos rfl, if_pos rfl]
      simp only [coverZ, List.map_cons, List.sum_cons, add_left_inj, evalPts, pget, perpendicular, HORIZONTAL, VERTICAL, qd, cnt]
      by_cases h1 : t.2.1.1 ≤ x <;> by_cases h2 : t.2.1.2 ≤ y <;> simp [h1, h2, mul_comm]

/-- Winding contribution of an edge on integer cells. -/
def wE (x y : Int) (e : (Int × Int) × (Int × Int)) : Int :=
  if e.1.2 = e.2.2 ∧ e.1.2 ≤ y then (if e.1.1 ≤ x then 1 else 0) - (if e.2.1 ≤ x then 1 else 0) else 0

theorem windEdge_eq (q : ℚ × ℚ) (e : (Int × Int) × (Int × Int)) : windEdge q e = wE ⌊q.1⌋ ⌊q.2⌋ e := by
  simp only [windEdge, wE, ← Int.le_floor, ← Int.floor_lt]
  split_ifs <;> first | rfl | omega

theorem wind_eq (P : List (Int × Int)) (q : ℚ × ℚ) : wind P q = ((edges P).map (wE ⌊q.1⌋ ⌊q.2⌋)).sum := by
  rw [wind]; congr 1; apply List.map_congr_left; intro e _; exact windEdge_eq q e

/-- Alternation along a path of vertices. -/
def AltL : Bool → List (Int × Int) → Prop
  | h, a :: b :: r => (if h then a.2 = b.2 else a.1 = b.1) ∧ AltL (!h) (b :: r)
  | _, _ => True

/-- The potential of an edge. -/
def pot (x y : Int) (h : Bool) (a b : Int × Int) : Int :=
  (if h then qd x y a else 0) + (if a = b then (if h then -1 else 1) * qd x y b else 0)

theorem step (x y : Int) (h : Bool) (a b c : Int × Int) (h1 : if h then a.2 = b.2 else a.1 = b.1)
    (h2 : if (!h) then b.2 = c.2 else b.1 = c.1) (h3 : ¬ (a = b ∧ b = c)) :
    cnt (a, b, c) * qd x y b = wE x y (a, b) + pot x y (!h) b c - pot x y h a b := by
  obtain ⟨a1, a2⟩ := a
  obtain ⟨b1, b2⟩ := b
  obtain ⟨c1, c2⟩ := c
  cases h
  · simp only [Bool.false_eq_true, if_false] at h1
    simp only [Bool.not_false, if_true] at h2
    subst h1 h2
    simp only [cnt, wE, pot, Prod.mk.injEq, true_and, and_true, ne_eq, not_true, if_false, Bool.not_false, if_true,
      Bool.false_eq_true, sub_self, ite_self] at *
    by_cases e1 : a2 = b2 <;> by_cases e2 : a1 = c1 <;> simp [e1, e2] at h3 ⊢
  · simp only [if_true] at h1
    simp only [Bool.not_true, Bool.false_eq_true, if_false] at h2
    subst h1 h2
    simp only [cnt, wE, pot, qd, Prod.mk.injEq, true_and, and_true, ne_eq, not_true, if_false, Bool.not_true, if_true,
      Bool.false_eq_true] at *
    by_cases e1 : a1 = b1 <;> by_cases e2 : a2 = c2 <;> by_cases e3 : a2 ≤ y <;> simp [e1, e2, e3] at h3 ⊢
    all_goals (split_ifs <;> first | rfl | omega)

/-- Potential of the last edge of a path. -/
def potEnd (x y : Int) : Bool → List (Int × Int) → Int
  | h, [a, b] => pot x y h a b
  | h, _ :: b :: c :: r => potEnd x y (!h) (b :: c :: r)
  | _, _ => 0

/-- Winding sum of all edges of a path but the last. -/
def wSum (x y : Int) : List (Int × Int) → Int
  | a :: b :: c :: r => wE x y (a, b) + wSum x y (b :: c :: r)
  | _ => 0

theorem trip_sum (x y : Int) (h : Bool) (a b : Int × Int) (r : List (Int × Int)) (h1 : AltL h (a :: b :: r))
    (h2 : ∀ t ∈ trip (a :: b :: r), ¬ (t.1 = t.2.1 ∧ t.2.1 = t.2.2)) :
    ((trip (a :: b :: r)).map (fun t => cnt t * qd x y t.2.1)).sum =
      wSum x y (a :: b :: r) + potEnd x y h (a :: b :: r) - pot x y h a b := by
  induction r generalizing a b h with
  | nil => simp [trip, wSum, potEnd]
  | cons c r ih =>
    obtain ⟨e1, e2, e3⟩ := h1
    have := ih (!h) b c ⟨e2, e3⟩ (fun t ht => h2 t (by simp [trip, ht]))
    simp only [trip, List.map_cons, List.sum_cons, wSum, potEnd]
    rw [this, step x y h a b c e1 e2 (h2 (a, b, c) (by simp [trip]))]
    ring

theorem potEnd_concat (x y : Int) (h : Bool) (L : List (Int × Int)) (u v : Int × Int) :
    potEnd x y h (L ++ [u, v]) = pot x y (xor h (decide (L.length % 2 = 1))) u v := by
  induction L generalizing h with
  | nil => simp [potEnd]
  | cons a L ih =>
    have key : potEnd x y h (a :: L ++ [u, v]) = potEnd x y (!h) (L ++ [u, v]) := by
      rcases L with _ | ⟨b, _ | ⟨c, L⟩⟩ <;> rfl
    rw [key, ih]
    congr 1
    rw [List.length_cons]
    rcases Nat.mod_two_eq_zero_or_one L.length with e | e
    · rw [e, show (L.length + 1) % 2 = 1 by omega]; cases h <;> rfl
    · rw [e, show (L.length + 1) % 2 = 0 by omega]; cases h <;> rfl

theorem wSum_concat (x y : Int) (L : List (Int × Int)) (u v : Int × Int) :
    wSum x y (L ++ [u, v]) = ((pairs (L ++ [u])).map (wE x y)).sum := by
  induction L with
  | nil => rfl
  | cons a L ih =>
    rcases L with _ | ⟨b, L⟩
    · simp [wSum, pairs]
    · have e1 : wSum x y (a :: b :: L ++ [u, v]) = wE x y (a, b) + wSum x y (b :: L ++ [u, v]) := by
        rcases L with _ | ⟨c, L⟩ <;> rfl
      rw [e1, ih]; rfl

theorem altFrom_path (h : Bool) (L : List (Int × Int)) : AltFrom h (pairs L) ↔ AltL h L := by
  match L with
  | [] => simp [pairs, AltFrom, AltL]
  | [a] => simp [pairs, AltFrom, AltL]
  | a :: b :: r => simp only [pairs, AltFrom, AltL]; rw [altFrom_path]

theorem altL_concat (h : Bool) (L : List (Int × Int)) (u v : Int × Int) (h1 : AltL h (L ++ [u]))
    (h2 : if xor h (decide (L.length % 2 = 1)) then u.2 = v.2 else u.1 = v.1) : AltL h (L ++ [u, v]) := by
  induction L generalizing h with
  | nil => simpa [AltL] using h2
  | cons a L ih =>
    have key (w : List (Int × Int)) : AltL h (a :: L ++ u :: w) ↔
        (if h then a.2 = ((L ++ [u]).head (by simp)).2 else a.1 = ((L ++ [u]).head (by simp)).1) ∧ AltL (!h) (L ++ u :: w) := by
      rcases L with _ | ⟨b, L⟩ <;> rfl
    have h1' := (key []).mp h1
    refine (key [v]).mpr ⟨h1'.1, ih (!h) h1'.2 ?_⟩
    rw [List.length_cons] at h2
    rcases Nat.mod_two_eq_zero_or_one L.length with e | e
    · rw [show (L.length + 1) % 2 = 1 by omega] at h2; rw [e]; cases h <;> simpa using h2
    · rw [show (L.length + 1) % 2 = 0 by omega] at h2; rw [e]; cases h <;> simpa using h2

theorem zip_trip {α : Type*} (a b : α) (r : List α) (u v : α) :
    (a :: b :: r).zip ((b :: r ++ [u]).zip (r ++ [u, v])) = trip (a :: b :: r ++ [u, v]) := by
  induction r generalizing a b with
  | nil => rfl
  | cons c r ih =>
    simp only [List.cons_append, List.zip_cons_cons, trip] at *
    rw [ih]

/-- The sum over the visited triples is the winding number. -/
theorem trip_wind (x y : Int) (a b : Int × Int) (r : List (Int × Int)) (halt : Alternating (a :: b :: r))
    (hns : NoStutter (a :: b :: r)) :
    ((trip (a :: b :: r ++ [a, b])).map (fun t => cnt t * qd x y t.2.1)).sum = ((edges (a :: b :: r)).map (wE x y)).sum := by
  obtain ⟨hev, halt⟩ := halt
  have hmod : (a :: b :: r).length % 2 = 0 := by
    obtain ⟨k, hk⟩ := hev; omega
  have h2 : ∀ t ∈ trip (a :: b :: r ++ [a, b]), ¬ (t.1 = t.2.1 ∧ t.2.1 = t.2.2) := by
    have := hns.1
    rw [show (a :: b :: r).rotate 1 = b :: r ++ [a] by simp, show (a :: b :: r).rotate 2 = r ++ [a, b] by simp,
      zip_trip] at this
    exact this
  have main (h : Bool) (hh : AltFrom h (edges (a :: b :: r))) :
      ((trip (a :: b :: r ++ [a, b])).map (fun t => cnt t * qd x y t.2.1)).sum = ((edges (a :: b :: r)).map (wE x y)).sum := by
    rw [edges_cons, altFrom_path] at hh
    have hL : AltL h (a :: b :: r ++ [a, b]) := by
      apply altL_concat _ _ _ _ hh
      rw [hmod]
      have := hh.1
      cases h <;> simpa using this
    have := trip_sum x y h a b (r ++ [a, b]) hL h2
    rw [edges_cons]
    simp only [List.cons_append] at *
    rw [this]
    rw [← List.cons_append, ← List.cons_append, potEnd_concat, wSum_concat, hmod]
    simp
  rcases halt with h | h
  · exact main true h
  · exact main false h

theorem polyVertices_eq (P : List (Int × Int)) (o : Nat) (hole : Bool) (h4 : 4 ≤ P.length) (hns : NoStutter P) :
    ∃ a b r, P = a :: b :: r ∧ polyVertices P o hole = (trip (a :: b :: r ++ [a, b])).map
      (fun t => evalPts o ((if winding90 P = LOW then -1 else 1) * (if hole then -1 else 1)) t.1 t.2.1 t.2.2) := by
  match P, h4 with
  | a :: b :: c :: d :: r, _ =>
    refine ⟨a, b, c :: d :: r, rfl, ?_⟩
    rw [polyVertices, polyGo_eq _ _ _ _ _ _ _ _ (by simpa using hns.2)]
    cases hole <;> simp

theorem polyVertices_cover (P : List (Int × Int)) (o : Nat) (ho : o = HORIZONTAL ∨ o = VERTICAL) (hole : Bool)
    (h4 : 4 ≤ P.length) (halt : Alternating P) (hns : NoStutter P) (x y : Int) :
    (if o = VERTICAL then coverZ (polyVertices P o hole) x y else coverZ (polyVertices P o hole) y x) =
      (if winding90 P = LOW then -1 else 1) * (if hole then -1 else 1) * ((edges P).map (wE x y)).sum := by
  obtain ⟨a, b, r, rfl, e⟩ := polyVertices_eq P o hole h4 hns
  rw [e, cover_trip o ho, trip_wind x y a b r halt hns]

theorem polyVertices_ne (P : List (Int × Int)) (o : Nat) (hole : Bool) (h4 : 4 ≤ P.length) : polyVertices P o hole ≠ [] := by
  match P, h4 with
  | a :: b :: c :: d :: r, _ => simp [polyVertices, polyGo]

theorem insertPoly_eq (s : PSet) (P : List (Int × Int)) (hole : Bool) (h4 : 4 ≤ P.length) :
    s.insertPoly P hole = ⟨s.orient, s.data ++ polyVertices P s.orient hole, true, true⟩ := by
  rw [PSet.insertPoly, insertIter_eq _ _ _ (polyVertices_ne _ _ _ h4), if_pos rfl]

theorem insertPoly_depth (s : PSet) (hs : s.orient = HORIZONTAL ∨ s.orient = VERTICAL) (P : List (Int × Int)) (hole : Bool)
    (h4 : 4 ≤ P.length) (halt : Alternating P) (hns : NoStutter P) (q : ℚ × ℚ) :
    depth (s.insertPoly P hole) q = depth s q +
      (if winding90 P = LOW then -1 else 1) * (if hole then -1 else 1) * wind P q := by
  rw [insertPoly_eq _ _ _ h4, depth_def, depth_def, wind_eq, ← polyVertices_cover P s.orient hs hole h4 halt hns]
  simp only [coverZ_append]
  split_ifs <;> rfl

/-! ### far away the winding number vanishes -/

theorem altFrom_rect {h : Bool} {E : List ((Int × Int) × (Int × Int))} (ha : AltFrom h E) :
    ∀ e ∈ E, e.1.1 = e.2.1 ∨ e.1.2 = e.2.2 := by
  induction E generalizing h with
  | nil => simp
  | cons e E ih =>
    intro f hf
    rcases List.mem_cons.mp hf with rfl | hf
    · have := ha.1; cases h <;> simp at this
      · exact Or.inl this
      · exact Or.inr this
    · exact ih ha.2 f hf

theorem alternating_rect {P : List (Int × Int)} (h : Alternating P) : Rectilinear P := by
  rcases h.2 with h | h <;> exact altFrom_rect h

/-- For rectilinear edges the winding contribution does not need the test for a horizontal edge. -/
theorem wE_rect (x y : Int) (e : (Int × Int) × (Int × Int)) (h : e.1.1 = e.2.1 ∨ e.1.2 = e.2.2) :
    wE x y e = if e.1.2 ≤ y then (if e.1.1 ≤ x then 1 else 0) - (if e.2.1 ≤ x then 1 else 0) else 0 := by
  unfold wE
  rcases h with h | h
  · rw [h]; simp
  · simp [h]

theorem wsum_far_x (P : List (Int × Int)) (x y : Int) (hx : ∀ p ∈ P, p.1 ≤ x) : ((edges P).map (wE x y)).sum = 0 := by
  apply List.sum_eq_zero
  intro z hz
  obtain ⟨e, he, rfl⟩ := List.mem_map.mp hz
  have h := List.of_mem_zip he
  have h1 := hx _ h.1
  have h2 := hx _ (List.mem_rotate.mp h.2)
  simp [wE, h1, h2]

theorem wsum_far_y (P : List (Int × Int)) (hr : Rectilinear P) (x y : Int) (hy : ∀ p ∈ P, p.2 ≤ y) :
    ((edges P).map (wE x y)).sum = 0 := by
  have := edges_telescope (fun p : Int × Int => if p.1 ≤ x then (-1 : Int) else 0) P
  rw [← this]
  congr 1
  apply List.map_congr_left
  intro e he
  have h1 := hy _ (List.of_mem_zip he).1
  rw [wE_rect x y e (hr e he), if_pos h1]
  split_ifs <;> rfl

theorem exists_bound (L : List Int) : ∃ B : Int, ∀ z ∈ L, z ≤ B := by
  induction L with
  | nil => exact ⟨0, by simp⟩
  | cons a L ih =>
    obtain ⟨B, hB⟩ := ih
    refine ⟨max a B, ?_⟩
    intro z hz
    rcases List.mem_cons.mp hz with rfl | hz
    · exact le_max_left _ _
    · exact le_trans (hB z hz) (le_max_right _ _)

theorem polyVertices_closed (P : List (Int × Int)) (o : Nat) (ho : o = HORIZONTAL ∨ o = VERTICAL) (hole : Bool)
    (h4 : 4 ≤ P.length) (halt : Alternating P) (hns : NoStutter P) : Closed (polyVertices P o hole) := by
  obtain ⟨X, hX⟩ := exists_bound (P.map Prod.fst)
  obtain ⟨Y, hY⟩ := exists_bound (P.map Prod.snd)
  have hX' : ∀ p ∈ P, p.1 ≤ X := fun p hp => hX _ (List.mem_map_of_mem hp)
  have hY' : ∀ p ∈ P, p.2 ≤ Y := fun p hp => hY _ (List.mem_map_of_mem hp)
  have c := polyVertices_cover P o ho hole h4 halt hns
  have hx (x y : Int) (h : X ≤ x) := wsum_far_x P x y (fun p hp => le_trans (hX' p hp) h)
  have hy (x y : Int) (h : Y ≤ y) := wsum_far_y P (alternating_rect halt) x y (fun p hp => le_trans (hY' p hp) h)
  rcases ho with rfl | rfl
  · simp only [if_neg (show HORIZONTAL ≠ VERTICAL by decide)] at c
    refine closed_of_cover ⟨Y, fun a y h => ?_⟩ ⟨X, fun a y h => ?_⟩
    · rw [c y a, hy y a h, mul_zero]
    · rw [c y a, hx y a h, mul_zero]
  · simp only [if_true] at c
    refine closed_of_cover ⟨X, fun a y h => ?_⟩ ⟨Y, fun a y h => ?_⟩
    · rw [c a y, hx a y h, mul_zero]
    · rw [c a y, hy a y h, mul_zero]

theorem mem_trip {α : Type*} {L : List α} {t : α × α × α} (h : t ∈ trip L) : t.2.1 ∈ L := by
  match L with
  | [] => simp [trip] at h
  | [a] => simp [trip] at h
  | [a, b] => simp [trip] at h
  | a :: b :: c :: r =>
    simp only [trip, List.mem_cons] at h
    rcases h with rfl | h
    · simp
    · exact List.mem_cons_of_mem _ (mem_trip h)

theorem insertPoly_valid {umin umax : Int} {s : PSet} (hs : Valid umin umax s) (P : List (Int × Int)) (hole : Bool)
    (h4 : 4 ≤ P.length) (halt : Alternating P) (hns : NoStutter P)
    (hr : ∀ p ∈ P, umin ≤ p.1 ∧ p.1 ≤ umax ∧ umin ≤ p.2 ∧ p.2 ≤ umax) : Valid umin umax (s.insertPoly P hole) := by
  rw [insertPoly_eq _ _ _ h4]
  refine ⟨hs.orient, by simp, by simp, closed_append hs.closed (polyVertices_closed P _ hs.orient _ h4 halt hns), ?_⟩
  intro v hv
  rcases List.mem_append.mp hv with hv | hv
  · exact hs.range v hv
  · obtain ⟨a, b, r, rfl, e⟩ := polyVertices_eq P s.orient hole h4 hns
    rw [e] at hv
    obtain ⟨t, ht, rfl⟩ := List.mem_map.mp hv
    have hm : t.2.1 ∈ a :: b :: r := by
      have := mem_trip ht
      simp only [List.cons_append, List.mem_cons, List.mem_append, List.not_mem_nil, or_false] at this ⊢
      tauto
    have := hr _ hm
    rcases hs.orient with ho | ho <;> simp only [evalPts, pget, perpendicular, ho, HORIZONTAL, VERTICAL] <;> simp <;> omega

/-! ### the area is the sum of the winding number over the unit cells -/

theorem sum_ge (lo hi h : Int) (h1 : lo ≤ h) (h2 : h ≤ hi) : ∑ y ∈ Finset.Ico lo hi, (if h ≤ y then (1 : Int) else 0) = hi - h := by
  rw [← Finset.sum_filter]
  have : (Finset.Ico lo hi).filter (fun y => h ≤ y) = Finset.Ico h hi := by
    ext y; simp only [Finset.mem_filter, Finset.mem_Ico]; omega
  rw [this]; simp; omega

theorem wE_cells (e : (Int × Int) × (Int × Int)) (he : e.1.1 = e.2.1 ∨ e.1.2 = e.2.2) (lo hi : Int)
    (h1 : lo ≤ e.1.1 ∧ e.1.1 ≤ hi ∧ lo ≤ e.1.2 ∧ e.1.2 ≤ hi) (h2 : lo ≤ e.2.1 ∧ e.2.1 ≤ hi ∧ lo ≤ e.2.2 ∧ e.2.2 ≤ hi) :
    ∑ x ∈ Finset.Ico lo hi, ∑ y ∈ Finset.Ico lo hi, wE x y e = (hi - e.1.2) * (e.2.1 - e.1.1) := by
  have h (x y : Int) : wE x y e = ((if e.1.1 ≤ x then 1 else 0) - (if e.2.1 ≤ x then 1 else 0)) * (if e.1.2 ≤ y then 1 else 0) := by
    rw [wE_rect x y e he]; split_ifs <;> rfl
  simp only [h, ← Finset.mul_sum, ← Finset.sum_mul, Finset.sum_sub_distrib]
  rw [sum_ge _ _ _ h1.1 h1.2.1, sum_ge _ _ _ h2.1 h2.2.1, sum_ge _ _ _ h1.2.2.1 h1.2.2.2]
  ring

theorem cells_area (P : List (Int × Int)) (hr : Rectilinear P) (lo hi : Int)
    (hb : ∀ p ∈ P, lo ≤ p.1 ∧ p.1 ≤ hi ∧ lo ≤ p.2 ∧ p.2 ≤ hi) :
    ∑ x ∈ Finset.Ico lo hi, ∑ y ∈ Finset.Ico lo hi, ((edges P).map (wE x y)).sum = -area90 P := by
  have hmem : ∀ e ∈ edges P, (e.1.1 = e.2.1 ∨ e.1.2 = e.2.2) ∧ e.1 ∈ P ∧ e.2 ∈ P := fun e he =>
    ⟨hr e he, (List.of_mem_zip he).1, List.mem_rotate.mp (List.of_mem_zip he).2⟩
  have h1 : ∑ x ∈ Finset.Ico lo hi, ∑ y ∈ Finset.Ico lo hi, ((edges P).map (wE x y)).sum =
      ((edges P).map (fun e => (hi - e.1.2) * (e.2.1 - e.1.1))).sum := by
    revert hmem
    generalize edges P = E
    intro hmem
    induction E with
    | nil => simp
    | cons e E ih =>
      simp only [List.map_cons, List.sum_cons, Finset.sum_add_distrib]
      rw [ih (fun f hf => hmem f (by simp [hf]))]
      obtain ⟨a, b, c⟩ := hmem e (by simp)
      rw [wE_cells e a lo hi (hb _ b) (hb _ c)]
  have h2 := two_area90 P hr
  have h3 := edges_telescope (fun q : Int × Int => q.1 * q.2 - 2 * hi * q.1) P
  rw [shoelace] at h2
  have key : 2 * ((edges P).map (fun e => (hi - e.1.2) * (e.2.1 - e.1.1))).sum =
      ((edges P).map (fun e => e.1.1 * e.2.2 - e.2.1 * e.1.2)).sum -
      ((edges P).map (fun e : (Int × Int) × (Int × Int) => (fun q : Int × Int => q.1 * q.2 - 2 * hi * q.1) e.2 -
        (fun q : Int × Int => q.1 * q.2 - 2 * hi * q.1) e.1)).sum := by
    revert hmem
    generalize edges P = E
    intro hmem
    induction E with
    | nil => rfl
    | cons e E ih =>
      simp only [List.map_cons, List.sum_cons, mul_add] at *
      rw [ih (fun f hf => hmem f (by simp [hf]))]
      have : 2 * ((hi - e.1.2) * (e.2.1 - e.1.1)) = e.1.1 * e.2.2 - e.2.1 * e.1.2 -
          (e.2.1 * e.2.2 - 2 * hi * e.2.1 - (e.1.1 * e.1.2 - 2 * hi * e.1.1)) := by
        rcases (hmem e (by simp)).1 with h | h <;> rw [h] <;> ring
      rw [this]; ring
  rw [h3, sub_zero] at key
  rw [h1]
  linarith

theorem box_exists (P : List (Int × Int)) (x y : Int) :
    ∃ lo hi : Int, (∀ p ∈ P, lo ≤ p.1 ∧ p.1 ≤ hi ∧ lo ≤ p.2 ∧ p.2 ≤ hi) ∧ x ∈ Finset.Ico lo hi ∧ y ∈ Finset.Ico lo hi := by
  obtain ⟨B, hB⟩ := exists_bound (P.map (fun p => |p.1|) ++ P.map (fun p => |p.2|) ++ [|x|, |y|])
  refine ⟨-B, B + 1, ?_, ?_, ?_⟩
  · intro p hp
    have h1 := hB |p.1| (by simp only [List.mem_append]; exact Or.inl (Or.inl (List.mem_map.mpr ⟨p, hp, rfl⟩)))
    have h2 := hB |p.2| (by simp only [List.mem_append]; exact Or.inl (Or.inr (List.mem_map.mpr ⟨p, hp, rfl⟩)))
    rw [abs_le] at h1 h2; omega
  · have := abs_le.mp (hB |x| (by simp)); rw [Finset.mem_Ico]; omega
  · have := abs_le.mp (hB |y| (by simp)); rw [Finset.mem_Ico]; omega

/-- If the winding number is nowhere negative then the polygon is listed counter-clockwise, or winds nowhere. -/
theorem sign_of_nonneg (P : List (Int × Int)) (hr : Rectilinear P) (h : ∀ q, 0 ≤ wind P q) (q : ℚ × ℚ) :
    (if winding90 P = LOW then (-1 : Int) else 1) * wind P q = |wind P q| := by
  rw [abs_of_nonneg (h q)]
  unfold winding90
  by_cases ha : area90 P < 0
  · rw [if_pos ha, if_neg (by decide), one_mul]
  · rw [if_neg ha, if_pos rfl]
    have hz (x y : Int) : 0 ≤ ((edges P).map (wE x y)).sum := by
      have := h (x, y); rw [wind_eq] at this; simpa using this
    obtain ⟨lo, hi, hb, hx, hy⟩ := box_exists P ⌊q.1⌋ ⌊q.2⌋
    have hs := cells_area P hr lo hi hb
    have h1 : ((edges P).map (wE ⌊q.1⌋ ⌊q.2⌋)).sum ≤ -area90 P := by
      rw [← hs]
      refine le_trans ?_ (Finset.single_le_sum (fun x _ => Finset.sum_nonneg (fun y _ => hz x y)) hx)
      exact Finset.single_le_sum (f := fun y => ((edges P).map (wE ⌊q.1⌋ y)).sum) (fun y _ => hz _ y) hy
    have h2 := h q
    rw [wind_eq] at *
    omega

theorem sign_of_nonpos (P : List (Int × Int)) (hr : Rectilinear P) (h : ∀ q, wind P q ≤ 0) (q : ℚ × ℚ) :
    (if winding90 P = LOW then (-1 : Int) else 1) * wind P q = |wind P q| := by
  rw [abs_of_nonpos (h q)]
  unfold winding90
  by_cases ha : area90 P < 0
  · exfalso
    obtain ⟨lo, hi, hb, -, -⟩ := box_exists P 0 0
    have hs := cells_area P hr lo hi hb
    have : ∑ x ∈ Finset.Ico lo hi, ∑ y ∈ Finset.Ico lo hi, ((edges P).map (wE x y)).sum ≤ 0 := by
      apply Finset.sum_nonpos; intro x _
      apply Finset.sum_nonpos; intro y _
      have := h (x, y); rw [wind_eq] at this; simpa using this
    omega
  · rw [if_neg ha, if_pos rfl]; ring

theorem wind_perm {P Q : List (Int × Int)} (h : (edges P).Perm (edges Q)) (q : ℚ × ℚ) : wind P q = wind Q q :=
  (h.map _).sum_eq

theorem wind_reverse (P : List (Int × Int)) (q : ℚ × ℚ) : wind P.reverse q = -wind P q := by
  rw [wind, ((edges_reverse P).map _).sum_eq, wind, List.map_map]
  generalize edges P = E
  induction E with
  | nil => rfl
  | cons e E ih =>
    simp only [List.map_cons, List.sum_cons, Function.comp] at *
    rw [ih, windEdge_eq, windEdge_eq, neg_add]
    congr 1
    simp only [wE, Prod.swap]
    by_cases h : e.1.2 = e.2.2
    · rw [h]; split_ifs <;> simp
    · rw [if_neg (fun hh => h hh.1.symm), if_neg (fun hh => h hh.1)]; rfl

end Verif.Polygon

namespace Verif.Polygon
open Verif.BooleanOp Verif.Set90 Verif.Isotropy Verif.Machine Verif.Spec

/-! ### explicit closing vertex -/

theorem polyGo_close (o : Nat) (m : Int) (first second a b c : Int × Int) (r : List (Int × Int))
    (h : (c :: r).getLast? ≠ some first) :
    polyGo o m first second a b c (r ++ [first]) = polyGo o m first second a b c r := by
  induction r generalizing a b c with
  | nil =>
    have hc : first ≠ c := by simpa [eq_comm] using h
    simp [polyGo, polyEnd, hc]
  | cons d r ih =>
    simp only [polyGo, List.cons_append] at *
    rw [ih b c d (by simpa using h)]

theorem area90_close (p : Int × Int) (r : List (Int × Int)) : area90 (p :: r ++ [p]) = area90 (p :: r) := by
  rw [List.cons_append, area90, area90, areaGo_eq, areaGo_eq]
  have : p :: (r ++ [p]) ++ [p] = (p :: r) ++ [p, p] := by simp
  rw [this, pairs_concat]
  simp [areaTerm]

theorem polyVertices_close (p : Int × Int) (r : List (Int × Int)) (o : Nat) (hole : Bool) (h4 : 4 ≤ (p :: r).length)
    (hl : (p :: r).getLast? ≠ some p) : polyVertices (p :: r ++ [p]) o hole = polyVertices (p :: r) o hole := by
  match r, h4 with
  | b :: c :: d :: r, _ =>
    have hw : winding90 (p :: b :: c :: d :: r ++ [p]) = winding90 (p :: b :: c :: d :: r) := by
      rw [winding90, area90_close, winding90]
    simp only [List.cons_append] at hw
    simp only [polyVertices, List.cons_append]
    simp only [hw]
    rw [← List.cons_append, polyGo_close]
    simpa using hl

/-! ### polygons with holes -/

/-- Coverage of vertices as seen by a set of orientation `o`. -/
def coverO (o : Nat) (L : List V) (x y : Int) : Int := if o = VERTICAL then coverZ L x y else coverZ L y x

theorem coverO_append (o : Nat) (L M : List V) (x y : Int) : coverO o (L ++ M) x y = coverO o L x y + coverO o M x y := by
  unfold coverO; split_ifs <;> rw [coverZ_append]

/-- What one boundary adds to the coverage. -/
def polyTerm (P : List (Int × Int)) (x y : Int) : Int :=
  if P.length < 4 then 0 else (if winding90 P = LOW then -1 else 1) * ((edges P).map (wE x y)).sum

theorem polyVertices_short (P : List (Int × Int)) (o : Nat) (hole : Bool) (h : P.length < 4) : polyVertices P o hole = [] := by
  match P with
  | [] => rfl
  | [_] => rfl
  | [_, _] => rfl
  | [_, _, _] => rfl
  | _ :: _ :: _ :: _ :: _ => simp at h; omega

theorem polyVertices_coverO (P : List (Int × Int)) (o : Nat) (ho : o = HORIZONTAL ∨ o = VERTICAL) (hole : Bool)
    (hg : P.length < 4 ∨ Alternating P ∧ NoStutter P) (x y : Int) :
    coverO o (polyVertices P o hole) x y = (if hole then -1 else 1) * polyTerm P x y := by
  by_cases h : P.length < 4
  · rw [polyVertices_short _ _ _ h, polyTerm, if_pos h]; simp [coverO, coverZ]
  · obtain ⟨h1, h2⟩ := hg.resolve_left h
    rw [coverO, polyVertices_cover P o ho hole (by omega) h1 h2, polyTerm, if_neg h]; ring

theorem zero_coverO (o : Nat) (L : List V) (x y : Int) : coverO o (⟨0, 0, 0⟩ :: L) x y = coverO o L x y := by
  simp [coverO, coverZ]

theorem holes_coverO (o : Nat) (ho : o = HORIZONTAL ∨ o = VERTICAL) (hole : Bool) (H : List (List (Int × Int)))
    (hg : ∀ P ∈ H, P.length < 4 ∨ Alternating P ∧ NoStutter P) (x y : Int) :
    coverO o (holesVertices o hole H) x y = (if hole then -1 else 1) * (H.map (fun P => polyTerm P x y)).sum := by
  induction H with
  | nil => simp [holesVertices, coverO, coverZ]
  | cons P H ih =>
    have h1 := polyVertices_coverO P o ho hole (hg P (by simp)) x y
    have h2 := ih (fun Q hQ => hg Q (by simp [hQ]))
    have h0 : coverO o [] x y = 0 := by simp [coverO, coverZ]
    revert h1 h2
    generalize (if hole = true then (-1 : Int) else 1) = σ
    intro h1 h2
    simp only [holesVertices, List.map_cons, List.sum_cons, mul_add]
    split_ifs with e1 e2
    · rw [e1] at h1; subst e2; rw [← h1]; simp [coverO, coverZ]
    · rw [e1] at h1; rw [zero_coverO, h2, ← h1, h0, zero_add]
    · rw [coverO_append, h1, h2]

theorem polyHoles_coverO (o : Nat) (ho : o = HORIZONTAL ∨ o = VERTICAL) (hole : Bool) (P : List (Int × Int))
    (H : List (List (Int × Int))) (hp : P.length < 4 ∨ Alternating P ∧ NoStutter P)
    (hg : ∀ Q ∈ H, Q.length < 4 ∨ Alternating Q ∧ NoStutter Q) (x y : Int) :
    coverO o (polyHolesVertices P H o hole) x y =
      (if hole then -1 else 1) * (polyTerm P x y - (H.map (fun Q => polyTerm Q x y)).sum) := by
  have h1 := polyVertices_coverO P o ho hole hp x y
  have h2 := holes_coverO o ho (!hole) H hg x y
  have h0 : coverO o [] x y = 0 := by simp [coverO, coverZ]
  have h3 : (if (!hole) then (-1 : Int) else 1) = -(if hole then -1 else 1) := by cases hole <;> rfl
  rw [h3] at h2
  clear h3
  revert h1 h2
  generalize (if hole = true then (-1 : Int) else 1) = σ
  intro h1 h2
  simp only [polyHolesVertices]
  split_ifs with e1 e2
  · rw [e1] at h1; subst e2; rw [mul_sub, ← h1]; simp [coverO, coverZ]
  · rw [e1] at h1; rw [zero_coverO, h2, mul_sub, ← h1, h0]; ring
  · rw [coverO_append, h1, h2]; ring

theorem insertPolyHoles_eq (s : PSet) (P : List (Int × Int)) (H : List (List (Int × Int))) (hole : Bool)
    (h : polyHolesVertices P H s.orient hole ≠ []) :
    s.insertPolyHoles P H hole = ⟨s.orient, s.data ++ polyHolesVertices P H s.orient hole, true, true⟩ := by
  rw [PSet.insertPolyHoles, insertIter_eq _ _ _ h, if_pos rfl]

theorem depth_coverO (s : PSet) (q : ℚ × ℚ) : depth s q = coverO s.orient s.data ⌊q.1⌋ ⌊q.2⌋ := depth_def s q

theorem insertPolyHoles_depth (s : PSet) (hs : s.orient = HORIZONTAL ∨ s.orient = VERTICAL) (P : List (Int × Int))
    (H : List (List (Int × Int))) (hole : Bool) (hp : P.length < 4 ∨ Alternating P ∧ NoStutter P)
    (hg : ∀ Q ∈ H, Q.length < 4 ∨ Alternating Q ∧ NoStutter Q) (q : ℚ × ℚ) :
    depth (s.insertPolyHoles P H hole) q = depth s q +
      (if hole then -1 else 1) * (polyTerm P ⌊q.1⌋ ⌊q.2⌋ - (H.map (fun Q => polyTerm Q ⌊q.1⌋ ⌊q.2⌋)).sum) := by
  rw [← polyHoles_coverO s.orient hs hole P H hp hg]
  by_cases h : polyHolesVertices P H s.orient hole = []
  · rw [h, PSet.insertPolyHoles, h, PSet.insertIter, if_pos rfl]; simp [coverO, coverZ]
  · rw [insertPolyHoles_eq _ _ _ _ h, depth_coverO, depth_coverO, coverO_append]

theorem polyVertices_closed' (P : List (Int × Int)) (o : Nat) (ho : o = HORIZONTAL ∨ o = VERTICAL) (hole : Bool)
    (hg : P.length < 4 ∨ Alternating P ∧ NoStutter P) : Closed (polyVertices P o hole) := by
  by_cases h : P.length < 4
  · rw [polyVertices_short _ _ _ h]; exact ⟨fun _ => rfl, fun _ => rfl⟩
  · obtain ⟨h1, h2⟩ := hg.resolve_left h
    exact polyVertices_closed P o ho hole (by omega) h1 h2

theorem closed_zero {L : List V} (h : Closed L) : Closed (⟨0, 0, 0⟩ :: L) :=
  ⟨fun a => by simpa using h.1 a, fun b => by simpa using h.2 b⟩

theorem holes_closed (o : Nat) (ho : o = HORIZONTAL ∨ o = VERTICAL) (hole : Bool) (H : List (List (Int × Int)))
    (hg : ∀ P ∈ H, P.length < 4 ∨ Alternating P ∧ NoStutter P) : Closed (holesVertices o hole H) := by
  induction H with
  | nil => exact closed_nil
  | cons P H ih =>
    have h2 := ih (fun Q hQ => hg Q (by simp [hQ]))
    simp only [holesVertices]
    split_ifs with e1 e2
    · exact closed_nil
    · exact closed_zero h2
    · exact closed_append (polyVertices_closed' P o ho hole (hg P (by simp))) h2

theorem polyHoles_closed (o : Nat) (ho : o = HORIZONTAL ∨ o = VERTICAL) (hole : Bool) (P : List (Int × Int))
    (H : List (List (Int × Int))) (hp : P.length < 4 ∨ Alternating P ∧ NoStutter P)
    (hg : ∀ Q ∈ H, Q.length < 4 ∨ Alternating Q ∧ NoStutter Q) : Closed (polyHolesVertices P H o hole) := by
  have h2 := holes_closed o ho (!hole) H hg
  simp only [polyHolesVertices]
  split_ifs with e1 e2
  · exact closed_nil
  · exact closed_zero h2
  · exact closed_append (polyVertices_closed' P o ho hole hp) h2

theorem polyVertices_range {umin umax : Int} (P : List (Int × Int)) (o : Nat) (ho : o = HORIZONTAL ∨ o = VERTICAL) (hole : Bool)
    (hg : P.length < 4 ∨ Alternating P ∧ NoStutter P) (hr : PtsIn umin umax P) : InRange umin umax (polyVertices P o hole) := by
  intro v hv
  by_cases h : P.length < 4
  · rw [polyVertices_short _ _ _ h] at hv; simp at hv
  · obtain ⟨a, b, r, rfl, e⟩ := polyVertices_eq P o hole (by omega) (hg.resolve_left h).2
    rw [e] at hv
    obtain ⟨t, ht, rfl⟩ := List.mem_map.mp hv
    have hm : t.2.1 ∈ a :: b :: r := by
      have := mem_trip ht
      simp only [List.cons_append, List.mem_cons, List.mem_append, List.not_mem_nil, or_false] at this ⊢
      tauto
    have := hr _ hm
    rcases ho with ho | ho <;> simp only [evalPts, pget, perpendicular, ho, HORIZONTAL, VERTICAL] <;> simp <;> omega

theorem inRange_append {umin umax : Int} {L M : List V} (h1 : InRange umin umax L) (h2 : InRange umin umax M) :
    InRange umin umax (L ++ M) := fun v hv => (List.mem_append.mp hv).elim (h1 v) (h2 v)

theorem inRange_zero {umin umax : Int} {L : List V} (h0 : umin ≤ 0 ∧ 0 ≤ umax) (h1 : InRange umin umax L) :
    InRange umin umax (⟨0, 0, 0⟩ :: L) := by
  intro v hv
  rcases List.mem_cons.mp hv with rfl | hv
  · exact ⟨h0.1, h0.2, h0.1, h0.2⟩
  · exact h1 v hv

theorem holes_range {umin umax : Int} (o : Nat) (ho : o = HORIZONTAL ∨ o = VERTICAL) (hole : Bool) (H : List (List (Int × Int)))
    (h0 : umin ≤ 0 ∧ 0 ≤ umax) (hg : ∀ P ∈ H, P.length < 4 ∨ Alternating P ∧ NoStutter P)
    (hr : ∀ P ∈ H, PtsIn umin umax P) : InRange umin umax (holesVertices o hole H) := by
  induction H with
  | nil => intro v hv; simp [holesVertices] at hv
  | cons P H ih =>
    have h2 := ih (fun Q hQ => hg Q (by simp [hQ])) (fun Q hQ => hr Q (by simp [hQ]))
    simp only [holesVertices]
    split_ifs with e1 e2
    · intro v hv; simp at hv
    · exact inRange_zero h0 h2
    · exact inRange_append (polyVertices_range P o ho hole (hg P (by simp)) (hr P (by simp))) h2

theorem insertPolyHoles_valid {umin umax : Int} {s : PSet} (hs : Valid umin umax s) (P : List (Int × Int))
    (H : List (List (Int × Int))) (hole : Bool) (h0 : umin ≤ 0 ∧ 0 ≤ umax) (hp : P.length < 4 ∨ Alternating P ∧ NoStutter P)
    (hg : ∀ Q ∈ H, Q.length < 4 ∨ Alternating Q ∧ NoStutter Q)
    (hr : PtsIn umin umax P) (hrh : ∀ Q ∈ H, PtsIn umin umax Q) : Valid umin umax (s.insertPolyHoles P H hole) := by
  by_cases h : polyHolesVertices P H s.orient hole = []
  · rw [PSet.insertPolyHoles, h, PSet.insertIter, if_pos rfl]; exact hs
  · rw [insertPolyHoles_eq _ _ _ _ h]
    refine ⟨hs.orient, by simp, by simp, closed_append hs.closed (polyHoles_closed _ hs.orient _ _ _ hp hg), ?_⟩
    refine inRange_append hs.range ?_
    have h2 := holes_range s.orient hs.orient (!hole) H h0 hg hrh
    simp only [polyHolesVertices]
    split_ifs with e1 e2
    · intro v hv; simp at hv
    · exact inRange_zero h0 h2
    · exact inRange_append (polyVertices_range P _ hs.orient hole hp hr) h2

theorem insertPoly_depth_short (s : PSet) (P : List (Int × Int)) (hole : Bool) (h : P.length < 4) : s.insertPoly P hole = s := by
  rw [PSet.insertPoly, polyVertices_short _ _ _ h, PSet.insertIter, if_pos rfl]

/-! ### compact encoding -/

theorem expandGo_two (fx : Int) (p : Int × Int) (x y : Int) (r : List Int) :
    expandGo fx p (x :: y :: r) HORIZONTAL = p :: (x, p.2) :: expandGo fx (x, y) r HORIZONTAL := rfl

theorem expandGo_nil (fx : Int) (p : Int × Int) (h : p.1 ≠ fx) : expandGo fx p [] HORIZONTAL = [p, (fx, p.2)] := by
  simp [expandGo, h]

theorem compactGo_two (p q : Int × Int) (r : List (Int × Int)) :
    compactGo (p :: q :: r) HORIZONTAL = p.1 :: q.2 :: compactGo r HORIZONTAL := rfl

/-- The last `x` of a list of coordinate pairs, `d` if there is none. -/
def lastX : Int → List Int → Int
  | _, x :: _ :: r => lastX x r
  | d, _ => d

theorem compact_expandGo (fx : Int) (p : Int × Int) (r : List Int) (hev : r.length % 2 = 0) (hl : lastX p.1 r ≠ fx) :
    compactGo (expandGo fx p r HORIZONTAL) HORIZONTAL = p.1 :: p.2 :: r := by
  match r with
  | [] => rw [expandGo_nil _ _ hl]; rfl
  | [x] => simp at hev
  | x :: y :: r =>
    rw [expandGo_two, compactGo_two, compact_expandGo fx (x, y) r (by simp at hev; omega) hl]

theorem expandGo_length (fx : Int) (p : Int × Int) (r : List Int) (hev : r.length % 2 = 0) (hl : lastX p.1 r ≠ fx) :
    (expandGo fx p r HORIZONTAL).length = r.length + 2 := by
  match r with
  | [] => rw [expandGo_nil _ _ hl]; rfl
  | [x] => simp at hev
  | x :: y :: r =>
    rw [expandGo_two, List.length_cons, List.length_cons, expandGo_length fx (x, y) r (by simp at hev; omega) hl]; rfl

theorem expandGo_head (fx : Int) (p : Int × Int) (r : List Int) (o : Nat) : ∃ t, expandGo fx p r o = p :: t := by
  cases r <;> exact ⟨_, rfl⟩

theorem expandGo_alt (fx fy : Int) (p : Int × Int) (r : List Int) (hev : r.length % 2 = 0) (hl : lastX p.1 r ≠ fx) :
    AltL true (expandGo fx p r HORIZONTAL ++ [(fx, fy)]) := by
  match r with
  | [] => rw [expandGo_nil _ _ hl]; simp [AltL]
  | [x] => simp at hev
  | x :: y :: r =>
    have ih := expandGo_alt fx fy (x, y) r (by simp at hev; omega) hl
    obtain ⟨t, ht⟩ := expandGo_head fx (x, y) r HORIZONTAL
    rw [expandGo_two]
    rw [ht] at ih ⊢
    simp only [List.cons_append, AltL] at ih ⊢
    exact ⟨by simp, by simp, by simpa using ih⟩

/-- Expanding what was compacted, along a path. -/
theorem expand_compactGo (fx fy : Int) (p q : Int × Int) (r : List (Int × Int)) (hev : r.length % 2 = 0)
    (ha : AltL true (p :: q :: r ++ [(fx, fy)])) (hl : lastX p.1 (compactGo r HORIZONTAL) ≠ fx) :
    expandGo fx p (compactGo r HORIZONTAL) HORIZONTAL = p :: q :: r := by
  match r with
  | [] =>
    rw [compactGo, expandGo_nil _ _ hl]
    simp [AltL] at ha
    rw [ha.1]
    simp [← ha.2]
  | [x] => simp at hev
  | p' :: q' :: r =>
    simp only [List.cons_append, AltL] at ha
    obtain ⟨h1, h2, h3⟩ := ha
    have h1 : p.2 = q.2 := by simpa using h1
    have h2 : q.1 = p'.1 := by simpa using h2
    rw [compactGo_two, expandGo_two]
    have h4 : p'.2 = q'.2 := by simpa using h3.1
    have ih := expand_compactGo fx fy p' q' r (by simp at hev; omega) (by simpa [AltL] using h3) (by simpa [compactGo_two, lastX] using hl)
    have e : (p'.1, q'.2) = p' := by rw [← h4]
    have e2 : (p'.1, p.2) = q := by rw [← h2, h1]
    rw [e, e2, ih]

/-! ### is_45 -/

/-- An edge is axis parallel or diagonal. -/
theorem bad45_iff (a b : Int × Int) :
    bad45 a b = false ↔ b.1 - a.1 = 0 ∨ b.2 - a.2 = 0 ∨ |b.1 - a.1| = |b.2 - a.2| := by
  simp only [bad45, Bool.and_eq_false_iff, bne_eq_false_iff_eq]
  rw [or_assoc]
  refine or_congr_right (or_congr_right ?_)
  rw [Int.abs_eq_natAbs, Int.abs_eq_natAbs]
  exact Int.ofNat_inj.symm

theorem is45Go_iff (first prev : Int × Int) (r : List (Int × Int)) :
    is45Go first prev r = true ↔ ∀ e ∈ pairs (prev :: r ++ [first]), bad45 e.1 e.2 = false := by
  induction r generalizing prev with
  | nil => simp [is45Go, pairs]
  | cons p r ih =>
    simp only [is45Go, List.cons_append, pairs, List.mem_cons, forall_eq_or_imp] at *
    rw [← ih p]
    cases bad45 prev p <;> simp

end Verif.Polygon
