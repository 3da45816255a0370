import Verif.Model.Resize45
import Verif.Spec.Resize45
import Mathlib.Tactic
/-! Corners of resized 45-degree polygons. -/
namespace Verif.Resize45
open Verif.Spec.Resize45

theorem td {n d z : Int} (h : n = d * z) (hd : d ≠ 0) : n.tdiv d = z := by
  rw [h]; exact Int.mul_tdiv_cancel_left z hd

theorem td1 (a : Int) : a.tdiv 1 = a := by simp
theorem tdn (a : Int) : a.tdiv (-1) = -a := by simp

/-- Two directions are not parallel. -/
def NP (k1 k2 : Nat) : Prop := (vec k1).1 * (vec k2).2 - (vec k1).2 * (vec k2).1 ≠ 0

theorem crossing_exact {k1 k2 : Nat} (h1 : k1 < 8) (h2 : k2 < 8) (hn : NP k1 k2) {p1 p2 z : Pt}
    (z1 : (z.1 - p1.1) * (vec k1).2 = (z.2 - p1.2) * (vec k1).1) (z2 : (z.1 - p2.1) * (vec k2).2 = (z.2 - p2.2) * (vec k2).1) :
    crossing p1 k1 p2 k2 = some z := by
  obtain ⟨x, y⟩ := z
  obtain ⟨a1, b1⟩ := p1
  obtain ⟨a2, b2⟩ := p2
  unfold NP at hn
  interval_cases k1 <;> interval_cases k2 <;> simp only [vec] at hn z1 z2 <;> first
    | (exfalso; revert hn; decide)
    | (simp only [crossing, vec, td1, tdn]
       norm_num
       try simp only [td1, tdn]
       try first
         | omega
         | (constructor <;> first | omega | exact td (by omega) (by norm_num) | (rw [neg_eq_iff_eq_neg]; exact td (by omega) (by norm_num))))

theorem crossing_parallel {k1 k2 : Nat} (h1 : k1 < 8) (h2 : k2 < 8) (hn : ¬ NP k1 k2) (p1 p2 : Pt) : crossing p1 k1 p2 k2 = none := by
  unfold NP at hn
  interval_cases k1 <;> interval_cases k2 <;> first
    | (exfalso; revert hn; decide)
    | rfl

/-- Both lines meet in a lattice point. -/
theorem meet {k1 k2 : Nat} (h1 : k1 < 8) (h2 : k2 < 8) (hn : NP k1 k2) {m : Int} (hm : m = 1 ∨ m = -1) (b u : Int) (v : Pt) :
    ∃ z : Pt, (z.1 - (bloatVertex b u (normalDir k1 m) v).1) * (vec k1).2 = (z.2 - (bloatVertex b u (normalDir k1 m) v).2) * (vec k1).1 ∧
      (z.1 - (bloatVertex b u (normalDir k2 m) v).1) * (vec k2).2 = (z.2 - (bloatVertex b u (normalDir k2 m) v).2) * (vec k2).1 ∧
      (0 ≤ u → u ≤ b → b ≤ 2 * u → 0 < m * ((vec k1).1 * (vec k2).2 - (vec k1).2 * (vec k2).1) →
        0 ≤ (z.1 - (bloatVertex b u (normalDir k1 m) v).1) * (vec k1).1 + (z.2 - (bloatVertex b u (normalDir k1 m) v).2) * (vec k1).2 ∧
        0 ≤ ((bloatVertex b u (normalDir k2 m) v).1 - z.1) * (vec k2).1 + ((bloatVertex b u (normalDir k2 m) v).2 - z.2) * (vec k2).2) := by
  obtain ⟨x, y⟩ := v
  set D1 : Pt := ((bloatVertex b u (normalDir k1 m) (x, y)).1 - x, (bloatVertex b u (normalDir k1 m) (x, y)).2 - y) with hD1
  set D2 : Pt := ((bloatVertex b u (normalDir k2 m) (x, y)).1 - x, (bloatVertex b u (normalDir k2 m) (x, y)).2 - y) with hD2
  refine ⟨if (k1 + k2) % 2 = 0 then (x + D1.1 + D2.1, y + D1.2 + D2.2) else
    (x + ((vec k2).1 * (vec k1).2 - (vec k2).2 * (vec k1).1) * ((D1.1 * (vec k1).2 - D1.2 * (vec k1).1) * (vec k2).1 - (D2.1 * (vec k2).2 - D2.2 * (vec k2).1) * (vec k1).1),
     y + ((vec k2).1 * (vec k1).2 - (vec k2).2 * (vec k1).1) * ((D1.1 * (vec k1).2 - D1.2 * (vec k1).1) * (vec k2).2 - (D2.1 * (vec k2).2 - D2.2 * (vec k2).1) * (vec k1).2)), ?_⟩
  rw [hD1, hD2]
  clear_value D1 D2
  unfold NP at hn
  rcases hm with rfl | rfl <;> interval_cases k1 <;> interval_cases k2 <;> first
    | (exfalso; revert hn; decide)
    | (simp [bloatVertex, normalDir, vec]; try omega)

/-- An edge is a multiple of its direction. -/
theorem edge_vec {p q : Pt} (h : Is45 p q) : edgeDir p q < 8 ∧ ∃ n : Int, 0 < n ∧ q = (p.1 + n * (vec (edgeDir p q)).1, p.2 + n * (vec (edgeDir p q)).2) := by
  obtain ⟨a, b⟩ := p
  obtain ⟨c, d⟩ := q
  obtain ⟨hne, h⟩ := h
  simp only [ne_eq, Prod.mk.injEq, not_and] at hne h
  unfold edgeDir
  simp only
  split_ifs <;> refine ⟨by norm_num, ?_⟩ <;> simp only [vec, Prod.mk.injEq]
  · exact ⟨d - b, by omega, by omega, by omega⟩
  · exact ⟨b - d, by omega, by omega, by omega⟩
  · exact ⟨c - a, by omega, by omega, by omega⟩
  · exact ⟨a - c, by omega, by omega, by omega⟩
  · exact ⟨c - a, by omega, by omega, by omega⟩
  · exact ⟨a - c, by omega, by omega, by omega⟩
  · exact ⟨c - a, by omega, by omega, by omega⟩
  · exact ⟨a - c, by omega, by omega, by omega⟩

/-- Moving a vertex along the normal of an edge. -/
theorem bloat_offset {p q : Pt} (h : Is45 p q) {m : Int} (hm : m = 1 ∨ m = -1) (b u : Int) (v : Pt) :
    bloatVertex b u (normalDir (edgeDir p q) m) v = offset p q b u m v := by
  obtain ⟨a, e⟩ := p
  obtain ⟨c, d⟩ := q
  obtain ⟨x, y⟩ := v
  obtain ⟨hne, h⟩ := h
  simp only [ne_eq, Prod.mk.injEq, not_and] at hne h
  unfold edgeDir offset
  simp only
  split_ifs <;> rcases hm with rfl | rfl
  all_goals
    first
    | (have s1 : (d - e).sign = 0 := by rw [Int.sign_eq_zero_iff_zero]; omega)
    | (have s1 : (d - e).sign = 1 := by rw [Int.sign_eq_one_iff_pos]; omega)
    | (have s1 : (d - e).sign = -1 := by rw [Int.sign_eq_neg_one_iff_neg]; omega)
    | skip
    first
    | (have s2 : (c - a).sign = 0 := by rw [Int.sign_eq_zero_iff_zero]; omega)
    | (have s2 : (c - a).sign = 1 := by rw [Int.sign_eq_one_iff_pos]; omega)
    | (have s2 : (c - a).sign = -1 := by rw [Int.sign_eq_neg_one_iff_neg]; omega)
    | skip
    first
    | (exfalso; omega)
    | (rw [s1, s2]
       simp [bloatVertex, normalDir]
       try omega)

/-- The cross and inner product of directions. -/
def dcross (k1 k2 : Nat) : Int := (vec k1).1 * (vec k2).2 - (vec k1).2 * (vec k2).1
def ddot (k1 k2 : Nat) : Int := (vec k1).1 * (vec k2).1 + (vec k1).2 * (vec k2).2

theorem diff_lt {k1 k2 : Nat} (h1 : k1 < 8) (h2 : k2 < 8) (hn : NP k1 k2) {m : Int} (hm : m = 1 ∨ m = -1) :
    (if m < 0 then (k2 + 8 - k1) % 8 else (k1 + 8 - k2) % 8) < 4 ↔ m * dcross k1 k2 < 0 := by
  unfold NP at hn
  rcases hm with rfl | rfl <;> interval_cases k1 <;> interval_cases k2 <;> first
    | (exfalso; revert hn; decide)
    | decide

theorem acute_iff {k1 k2 : Nat} (h1 : k1 < 8) (h2 : k2 < 8) {m : Int} (hm : m = 1 ∨ m = -1) (hn : 0 < m * dcross k1 k2) :
    ((k1 : Int) + m * 3) % 8 = k2 ↔ ddot k1 k2 < 0 := by
  rcases hm with rfl | rfl <;> interval_cases k1 <;> interval_cases k2 <;> first
    | (exfalso; revert hn; decide)
    | decide

theorem mul_sign {k x : Int} (hk : 0 < k) : (k * x < 0 ↔ x < 0) ∧ (0 < k * x ↔ 0 < x) ∧ (k * x = 0 ↔ x = 0) ∧ (0 ≤ k * x ↔ 0 ≤ x) :=
  ⟨by constructor <;> intro h <;> nlinarith, by constructor <;> intro h <;> nlinarith, by simp [hk.ne'], by constructor <;> intro h <;> nlinarith⟩

/-- The products of the edges have the signs of the products of their directions. -/
theorem lift {a v c : Pt} (h1 : Is45 a v) (h2 : Is45 v c) : ∃ n, 0 < n ∧ cross a v v c = n * dcross (edgeDir a v) (edgeDir v c) ∧
    dot a v v c = n * ddot (edgeDir a v) (edgeDir v c) := by
  obtain ⟨_, n1, p1, e1⟩ := edge_vec h1
  obtain ⟨_, n2, p2, e2⟩ := edge_vec h2
  refine ⟨n1 * n2, mul_pos p1 p2, ?_, ?_⟩
  · have x1 := congrArg Prod.fst e1
    have y1 := congrArg Prod.snd e1
    have x2 := congrArg Prod.fst e2
    have y2 := congrArg Prod.snd e2
    simp only at x1 y1 x2 y2
    simp only [cross, dcross]
    rw [show v.1 - a.1 = n1 * (vec (edgeDir a v)).1 by omega, show v.2 - a.2 = n1 * (vec (edgeDir a v)).2 by omega,
      show c.1 - v.1 = n2 * (vec (edgeDir v c)).1 by omega, show c.2 - v.2 = n2 * (vec (edgeDir v c)).2 by omega]
    ring
  · have x1 := congrArg Prod.fst e1
    have y1 := congrArg Prod.snd e1
    have x2 := congrArg Prod.fst e2
    have y2 := congrArg Prod.snd e2
    simp only at x1 y1 x2 y2
    simp only [dot, ddot]
    rw [show v.1 - a.1 = n1 * (vec (edgeDir a v)).1 by omega, show v.2 - a.2 = n1 * (vec (edgeDir a v)).2 by omega,
      show c.1 - v.1 = n2 * (vec (edgeDir v c)).1 by omega, show c.2 - v.2 = n2 * (vec (edgeDir v c)).2 by omega]
    ring

theorem edge_step {p q : Pt} (h : Is45 p q) : ∃ n : Int, 0 < n ∧ q.1 - p.1 = n * (vec (edgeDir p q)).1 ∧ q.2 - p.2 = n * (vec (edgeDir p q)).2 := by
  obtain ⟨_, n, hn, e⟩ := edge_vec h
  have x1 := congrArg Prod.fst e
  have y1 := congrArg Prod.snd e
  simp only at x1 y1
  exact ⟨n, hn, by omega, by omega⟩

/-- Inner corners get nothing when a polygon grows. -/
theorem vertex_inner (fd) {a v c : Pt} (h1 : Is45 a v) (h2 : Is45 v c) {mult : Int} (hm : mult = 1 ∨ mult = -1) (ht : mult * cross a v v c < 0) {r : Int}
    (hr : 0 < r) (rounding corner) : vertexPieces fd a v c r rounding corner mult = some [] := by
  obtain ⟨n, hn, hc, _⟩ := lift h1 h2
  have hd : mult * dcross (edgeDir a v) (edgeDir v c) < 0 := by
    rw [hc] at ht
    have : n * (mult * dcross (edgeDir a v) (edgeDir v c)) < 0 := by linarith [ht, show mult * (n * dcross (edgeDir a v) (edgeDir v c)) = n * (mult * dcross (edgeDir a v) (edgeDir v c)) by ring]
    exact (mul_sign hn).1.1 this
  have hnp : NP (edgeDir a v) (edgeDir v c) := by
    intro h; unfold dcross at hd; rw [h] at hd; omega
  have hlt := (diff_lt (edge_vec h1).1 (edge_vec h2).1 hnp hm).2 hd
  unfold vertexPieces
  simp only
  rw [if_pos ⟨hlt, hr⟩]

/-- All other corners. -/
theorem vertex_outer (fd) {a v c : Pt} (h1 : Is45 a v) (h2 : Is45 v c) {mult side r : Int} (hm : mult = 1 ∨ mult = -1) (hs : side = 1 ∨ side = -1)
    (ht : 0 < side * cross a v v c) (hr : side = mult ∨ r ≤ 0) {rounding} (hro : rounding ≠ .sqrt1over2) (corner) :
    let b := |r|
    let u := diagDist fd rounding b
    let e1 := offset a v b u side v
    let e2 := offset v c b u side v
    (corner = .orthogonal → dot a v v c < 0 → vertexPieces fd a v c r rounding corner mult = some [.rect e1 e2]) ∧
    (¬ (corner = .orthogonal ∧ dot a v v c < 0) → ∃ x, vertexPieces fd a v c r rounding corner mult = some [.poly [e1, v, e2, x]] ∧
      cross e1 x a v = 0 ∧ cross e2 x v c = 0 ∧ (0 ≤ u → u ≤ b → b ≤ 2 * u → 0 ≤ dot e1 x a v ∧ 0 ≤ dot x e2 v c)) := by
  intro b u e1 e2
  obtain ⟨n, hn, hc, hdt⟩ := lift h1 h2
  have hd : 0 < side * dcross (edgeDir a v) (edgeDir v c) := by
    rw [hc] at ht
    have : 0 < n * (side * dcross (edgeDir a v) (edgeDir v c)) := by linarith [ht, show side * (n * dcross (edgeDir a v) (edgeDir v c)) = n * (side * dcross (edgeDir a v) (edgeDir v c)) by ring]
    exact (mul_sign hn).2.1.1 this
  have hnp : NP (edgeDir a v) (edgeDir v c) := by
    intro h; unfold dcross at hd; rw [h] at hd; omega
  have hlt := diff_lt (edge_vec h1).1 (edge_vec h2).1 hnp hm
  have hac := acute_iff (edge_vec h1).1 (edge_vec h2).1 hs hd
  have hds : dot a v v c < 0 ↔ ddot (edgeDir a v) (edgeDir v c) < 0 := by rw [hdt]; exact (mul_sign hn).1
  have hside : (if (if mult < 0 then (edgeDir v c + 8 - edgeDir a v) % 8 else (edgeDir a v + 8 - edgeDir v c) % 8) < 4 then mult * -1 else mult) = side := by
    by_cases hh : mult * dcross (edgeDir a v) (edgeDir v c) < 0
    · rw [if_pos (hlt.2 hh)]
      rcases hm with rfl | rfl <;> rcases hs with rfl | rfl <;> omega
    · rw [if_neg (fun h => hh (hlt.1 h))]
      rcases hm with rfl | rfl <;> rcases hs with rfl | rfl <;> omega
  have hno : ¬ ((if mult < 0 then (edgeDir v c + 8 - edgeDir a v) % 8 else (edgeDir a v + 8 - edgeDir v c) % 8) < 4 ∧ r > 0) := by
    rintro ⟨h, hp⟩
    rcases hr with rfl | hr
    · have := hlt.1 h; omega
    · omega
  have hE1 : bloatVertex b u (normalDir (edgeDir a v) side) v = e1 := bloat_offset h1 hs b u v
  have hE2 : bloatVertex b u (normalDir (edgeDir v c) side) v = e2 := bloat_offset h2 hs b u v
  have key : vertexPieces fd a v c r rounding corner mult =
      if dot a v v c < 0 ∧ corner = .orthogonal then some [.rect e1 e2] else quad e1 v e2 (edgeDir a v) (edgeDir v c) := by
    unfold vertexPieces
    simp only
    rw [if_neg hno, if_neg hro, hside, ← hE1, ← hE2]
    simp only [hac, hds]
    rfl
  constructor
  · intro ho hneg
    rw [key, if_pos ⟨hneg, ho⟩]
  · intro ho
    rw [key, if_neg (fun h => ho ⟨h.2, h.1⟩)]
    obtain ⟨z, z1, z2, z3⟩ := meet (edge_vec h1).1 (edge_vec h2).1 hnp hs b u v
    rw [hE1] at z1 z3
    rw [hE2] at z2 z3
    obtain ⟨n1, p1, x1, y1⟩ := edge_step h1
    obtain ⟨n2, p2, x2, y2⟩ := edge_step h2
    refine ⟨z, ?_, ?_, ?_, ?_⟩
    · unfold quad
      rw [crossing_exact (edge_vec h1).1 (edge_vec h2).1 hnp z1 z2]
    · unfold cross; rw [x1, y1]; linear_combination n1 * z1
    · unfold cross; rw [x2, y2]; linear_combination n2 * z2
    · intro hu0 hub hbu
      obtain ⟨g1, g2⟩ := z3 hu0 hub hbu hd
      unfold dot
      rw [x1, y1, x2, y2]
      constructor
      · have := mul_nonneg p1.le g1; linarith
      · have := mul_nonneg p2.le g2; linarith

/-- Lines in different directions always have a crossing. -/
theorem crossing_some {k1 k2 : Nat} (h1 : k1 < 8) (h2 : k2 < 8) (hn : NP k1 k2) (p1 p2 : Pt) : ∃ z, crossing p1 k1 p2 k2 = some z := by
  unfold NP at hn
  interval_cases k1 <;> interval_cases k2 <;> first
    | (exfalso; revert hn; decide)
    | exact ⟨_, rfl⟩

theorem quad_some {k1 k2 : Nat} (h1 : k1 < 8) (h2 : k2 < 8) (hn : NP k1 k2) (e1 v e2 : Pt) : ∃ l, quad e1 v e2 k1 k2 = some l := by
  obtain ⟨z, hz⟩ := crossing_some h1 h2 hn e1 e2
  unfold quad; rw [hz]; exact ⟨_, rfl⟩

theorem np_of {a v c : Pt} (h1 : Is45 a v) (h2 : Is45 v c) (ht : cross a v v c ≠ 0) : NP (edgeDir a v) (edgeDir v c) := by
  obtain ⟨n, hn, hc, _⟩ := lift h1 h2
  intro h
  apply ht
  rw [hc]; unfold dcross; rw [h, mul_zero]

theorem ite_some {c : Prop} [Decidable c] {x y : Option (List Piece)} (hx : ∃ l, x = some l) (hy : ∃ l, y = some l) : ∃ l, (if c then x else y) = some l := by
  split_ifs
  · exact hx
  · exact hy

theorem vertex_some (fd) {a v c : Pt} (h1 : Is45 a v) (h2 : Is45 v c) (ht : cross a v v c ≠ 0) (mult r : Int) (rounding corner) :
    ∃ l, vertexPieces fd a v c r rounding corner mult = some l := by
  have hq := fun x y z => quad_some (edge_vec h1).1 (edge_vec h2).1 (np_of h1 h2 ht) x y z
  unfold vertexPieces
  simp only
  repeat' first
    | exact ⟨_, rfl⟩
    | exact hq _ _ _
    | apply ite_some

/-- A vertex in the middle of a straight edge when the polygon shrinks. -/
theorem vertex_straight (fd) {a v c : Pt} (h1 : Is45 a v) (h2 : Is45 v c) (ht : cross a v v c = 0) (hd : 0 < dot a v v c) {mult r : Int} (hm : mult = 1 ∨ mult = -1)
    (hr : r ≤ 0)
    {rounding corner} (hro : rounding ≠ .sqrt1over2) : vertexPieces fd a v c r rounding corner mult = none := by
  obtain ⟨n, hn, hc, hdt⟩ := lift h1 h2
  have hz : dcross (edgeDir a v) (edgeDir v c) = 0 := by rw [hc] at ht; exact (mul_sign hn).2.2.1.1 ht
  have hp : 0 < ddot (edgeDir a v) (edgeDir v c) := by rw [hdt] at hd; exact (mul_sign hn).2.1.1 hd
  have heq : edgeDir a v = edgeDir v c := by
    have h8 := (edge_vec h1).1
    have h9 := (edge_vec h2).1
    revert hz hp
    generalize edgeDir a v = k1 at h8 ⊢
    generalize edgeDir v c = k2 at h9 ⊢
    interval_cases k1 <;> interval_cases k2 <;> decide
  unfold vertexPieces
  simp only
  rw [if_neg (by omega), if_neg hro]
  rw [if_neg (by
    rintro ⟨h, _⟩
    rw [heq] at h
    have h9 := (edge_vec h2).1
    rcases hm with rfl | rfl <;> split_ifs at h <;> omega)]
  unfold quad
  rw [crossing_parallel (edge_vec h1).1 (edge_vec h2).1 (by unfold NP; unfold dcross at hz; exact fun h => h hz)]

end Verif.Resize45
