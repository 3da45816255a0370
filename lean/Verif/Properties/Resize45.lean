import Verif.Proofs.ResizeCorner45
/-!
# C104: resizing polygons with edges at multiples of 45 degrees

When a polygon is resized by `r`, pieces are added to it (or cut off): a band along every edge and a piece at every corner. `covers P z` says that the point
`z` is in the piece `P`.
-/
namespace Verif.Properties.Resize45
open Verif.Resize45 Verif.Spec.Resize45

abbrev Pt := Int × Int

/-- The direction the edges move at a corner and the corner piece that follows from it: a quadrilateral of the vertex, its offsets from both edges and the
point where the moved edges cross, or the rectangle of both offsets. -/
def CornerPiece (a v c : Pt) (b u side : Int) (P : Piece) : Prop :=
  0 < side * cross a v v c ∧
    ((dot a v v c < 0 ∧ P = .rect (offset a v b u side v) (offset v c b u side v)) ∨
      ∃ x, P = .poly [offset a v b u side v, v, offset v c b u side v, x] ∧ cross (offset a v b u side v) x a v = 0 ∧ cross (offset v c b u side v) x v c = 0)

/-- C104: the band along an edge is the set of points between its ends and at most the resizing distance away. -/
theorem C104_band (fd : Rounding → Int → Int) {p q : Pt} (h : Is45 p q) {r : Int} {rounding : Rounding} (hro : rounding ≠ .sqrt1over2) (corner : Corner)
    (hu : 0 < diagDist fd rounding |r|) (z : Pt) :
    covers (edgePiece fd p q r rounding corner) z ↔ InBand p q |r| (diagDist fd rounding |r|) z :=
  band fd h hro corner hu z

/-- C104: a corner the moved edges lead away from gets nothing. -/
theorem C104_inner_corner (fd : Rounding → Int → Int) {a v c : Pt} (h1 : Is45 a v) (h2 : Is45 v c) {mult : Int} (hm : mult = 1 ∨ mult = -1)
    (ht : mult * cross a v v c < 0) {r : Int} (hr : 0 < r) (rounding : Rounding) (corner : Corner) :
    vertexPieces fd a v c r rounding corner mult = some [] :=
  vertex_inner fd h1 h2 hm ht hr rounding corner

/-- C104: any other corner gets the quadrilateral up to the point where both moved edges cross, which is exact and lies ahead on the first moved edge and
behind on the second one; with the option for it, a sharp corner gets a rectangle. -/
theorem C104_outer_corner (fd : Rounding → Int → Int) {a v c : Pt} (h1 : Is45 a v) (h2 : Is45 v c) {mult side r : Int} (hm : mult = 1 ∨ mult = -1)
    (hs : side = 1 ∨ side = -1) (ht : 0 < side * cross a v v c) (hr : side = mult ∨ r ≤ 0) {rounding : Rounding} (hro : rounding ≠ .sqrt1over2)
    (corner : Corner) :
    let b := |r|
    let u := diagDist fd rounding b
    let e1 := offset a v b u side v
    let e2 := offset v c b u side v
    (corner = .orthogonal → dot a v v c < 0 → vertexPieces fd a v c r rounding corner mult = some [.rect e1 e2]) ∧
    (¬ (corner = .orthogonal ∧ dot a v v c < 0) → ∃ x, vertexPieces fd a v c r rounding corner mult = some [.poly [e1, v, e2, x]] ∧
      cross e1 x a v = 0 ∧ cross e2 x v c = 0 ∧ (0 ≤ u → u ≤ b → b ≤ 2 * u → 0 ≤ dot e1 x a v ∧ 0 ≤ dot x e2 v c)) :=
  vertex_outer fd h1 h2 hm hs ht hr hro corner

/-- C104: with exact arithmetic, the step of a diagonal edge along each axis is between half the distance and the distance; only a distance of one that is
rounded down is lost. -/
theorem C104_diagonal_step {b : Int} (hb : 1 ≤ b) {rounding : Rounding} (hr : rounding ≠ .sqrt1over2) (h2 : rounding = .undersize → 2 ≤ b) :
    0 < diagDist exactDiag rounding b ∧ diagDist exactDiag rounding b ≤ b ∧ b ≤ 2 * diagDist exactDiag rounding b :=
  exact_bounds hb hr h2

/-- C104: that step is the distance divided by the square root of two, rounded as asked for: to the next integer, up or down. -/
theorem C104_rounding {b : Int} (hb : 0 ≤ b) :
    (2 * (exactDiag .undersize b) ^ 2 ≤ b ^ 2 ∧ b ^ 2 < 2 * (exactDiag .undersize b + 1) ^ 2) ∧
    (2 * (exactDiag .oversize b - 1) ^ 2 ≤ b ^ 2 ∧ b ^ 2 < 2 * (exactDiag .oversize b) ^ 2) ∧
    ((2 * exactDiag .closest b - 1) ^ 2 ≤ 2 * b ^ 2 + 1 ∧ 2 * b ^ 2 < (2 * exactDiag .closest b + 1) ^ 2) := by
  obtain ⟨n, rfl⟩ := Int.eq_ofNat_of_zero_le hb
  have s1 := Nat.sqrt_le' (n * n / 2)
  have s2 := Nat.lt_succ_sqrt' (n * n / 2)
  have t1 := Nat.sqrt_le' (2 * n * n)
  have t2 := Nat.lt_succ_sqrt' (2 * n * n)
  have hdiv : n * n / 2 * 2 ≤ n * n ∧ n * n < n * n / 2 * 2 + 2 := by omega
  simp only [exactDiag, Int.toNat_natCast]
  generalize n * n / 2 = m at *
  generalize Nat.sqrt m = s at *
  generalize Nat.sqrt (2 * n * n) = t at *
  have hn : ((n : Int)) ^ 2 = ((n * n : Nat) : Int) := by push_cast; ring
  simp only [Nat.succ_eq_add_one] at s2 t2
  refine ⟨⟨?_, ?_⟩, ⟨?_, ?_⟩, ?_, ?_⟩
  · rw [hn]; have : 2 * s ^ 2 ≤ n * n := by omega
    exact_mod_cast this
  · rw [hn]; have : n * n < 2 * (s + 1) ^ 2 := by omega
    exact_mod_cast this
  · rw [hn]; have : 2 * s ^ 2 ≤ n * n := by omega
    push_cast; rw [show ((s : Int) + 1 - 1) = s by ring]
    exact_mod_cast this
  · rw [hn]; have : n * n < 2 * (s + 1) ^ 2 := by omega
    push_cast
    exact_mod_cast this
  · have hc : 2 * ((t + 1) / 2) ≤ t + 1 := by omega
    generalize (t + 1) / 2 = c at *
    have hz : (t : Int) ^ 2 ≤ 2 * (n : Int) ^ 2 := by
      have : ((t ^ 2 : Nat) : Int) ≤ ((2 * n * n : Nat) : Int) := by exact_mod_cast t1
      push_cast at this; nlinarith
    rcases Nat.eq_zero_or_pos c with rfl | hp
    · push_cast; nlinarith
    · have : (2 * (c : Int) - 1) ≤ t := by omega
      have h0 : 0 ≤ 2 * (c : Int) - 1 := by omega
      nlinarith
  · have hc : t ≤ 2 * ((t + 1) / 2) := by omega
    generalize (t + 1) / 2 = c at *
    have hz : 2 * (n : Int) ^ 2 < ((t : Int) + 1) ^ 2 := by
      have : ((2 * n * n : Nat) : Int) < (((t + 1) ^ 2 : Nat) : Int) := by exact_mod_cast t2
      push_cast at this; nlinarith
    have : (t : Int) + 1 ≤ 2 * (c : Int) + 1 := by omega
    have h0 : 0 ≤ (t : Int) + 1 := by omega
    nlinarith

/-- C104: a polygon of 45-degree edges that has no straight corner, resized by any amount: the pieces cover the band of every edge, every piece is the band of an
edge or the piece of a corner, and the corners at which the moved edges part have one. -/
theorem C104_resize (fd : Rounding → Int → Int) {pts : List Pt} (h : Corners45 pts) (cw : Bool) {r : Int} {rounding : Rounding} (hro : rounding ≠ .sqrt1over2)
    {corner : Corner} (hc : corner ≠ .unfilled) (hole : Bool) (hu : 0 < diagDist fd rounding |r|) :
    ∃ L, sizing fd pts cw r rounding corner hole = some L ∧
      (∀ i < pts.length, ∀ z, InBand (at' pts i) (at' pts (i + 1)) |r| (diagDist fd rounding |r|) z → ∃ P ∈ L, covers P z) ∧
      (∀ P ∈ L, ∃ i < pts.length, (∀ z, covers P z ↔ InBand (at' pts i) (at' pts (i + 1)) |r| (diagDist fd rounding |r|) z) ∨
        ∃ side, (side = 1 ∨ side = -1) ∧ CornerPiece (at' pts i) (at' pts (i + 1)) (at' pts (i + 2)) |r| (diagDist fd rounding |r|) side P) ∧
      ∀ i < pts.length, ∀ side, (side = 1 ∨ side = -1) → 0 < side * cross (at' pts i) (at' pts (i + 1)) (at' pts (i + 1)) (at' pts (i + 2)) →
        (side = (if cw then -1 else 1) ∨ (if hole then -r else r) ≤ 0) →
        ∃ P ∈ L, CornerPiece (at' pts i) (at' pts (i + 1)) (at' pts (i + 2)) |r| (diagDist fd rounding |r|) side P := by
  obtain ⟨L, hL, hm⟩ := sizing_spec fd h cw r rounding hc hole
  have habs : |(if hole then -r else r)| = |r| := by split_ifs <;> simp
  have hmult : (if cw then (-1 : Int) else 1) = 1 ∨ (if cw then (-1 : Int) else 1) = -1 := by split_ifs <;> simp
  have hu' : 0 < diagDist fd rounding |(if hole then -r else r)| := by rwa [habs]
  have hout : ∀ i side, (side = 1 ∨ side = -1) → 0 < side * cross (at' pts i) (at' pts (i + 1)) (at' pts (i + 1)) (at' pts (i + 2)) →
      (side = (if cw then -1 else 1) ∨ (if hole then -r else r) ≤ 0) →
      ∃ P, vertexPieces fd (at' pts i) (at' pts (i + 1)) (at' pts (i + 2)) (if hole then -r else r) rounding corner (if cw then -1 else 1) = some [P] ∧
        CornerPiece (at' pts i) (at' pts (i + 1)) (at' pts (i + 2)) |r| (diagDist fd rounding |r|) side P := by
    intro i side hs ht hr
    have hv := vertex_outer fd (corners_ok h i).1 (corners_ok h (i + 1)).1 hmult hs ht hr hro corner
    simp only [habs] at hv
    obtain ⟨g1, g2⟩ := hv
    by_cases ha : corner = .orthogonal ∧ dot (at' pts i) (at' pts (i + 1)) (at' pts (i + 1)) (at' pts (i + 2)) < 0
    · exact ⟨_, g1 ha.1 ha.2, ht, Or.inl ⟨ha.2, rfl⟩⟩
    · obtain ⟨x, k1, k2, k3, _⟩ := g2 ha
      exact ⟨_, k1, ht, Or.inr ⟨x, rfl, k2, k3⟩⟩
  refine ⟨L, hL, ?_, ?_, ?_⟩
  · intro i hi z hz
    refine ⟨_, (hm _).2 ⟨i, hi, Or.inl rfl⟩, ?_⟩
    rw [band fd (corners_ok h i).1 hro corner hu', habs]
    exact hz
  · intro P hP
    obtain ⟨i, hi, hP⟩ := (hm P).1 hP
    refine ⟨i, hi, ?_⟩
    rcases hP with rfl | ⟨l, hl, hPl⟩
    · left
      intro z
      rw [band fd (corners_ok h i).1 hro corner hu', habs]
    · right
      have hcr := (corners_ok h i).2
      obtain ⟨side, hs, ht⟩ : ∃ side : Int, (side = 1 ∨ side = -1) ∧ 0 < side * cross (at' pts i) (at' pts (i + 1)) (at' pts (i + 1)) (at' pts (i + 2)) := by
        rcases lt_or_gt_of_ne hcr with g | g
        · exact ⟨-1, Or.inr rfl, by omega⟩
        · exact ⟨1, Or.inl rfl, by omega⟩
      refine ⟨side, hs, ?_⟩
      by_cases hr : side = (if cw then -1 else 1) ∨ (if hole then -r else r) ≤ 0
      · obtain ⟨Q, q1, q2⟩ := hout i side hs ht hr
        rw [hl] at q1
        cases q1
        rw [List.mem_singleton] at hPl
        rw [hPl]; exact q2
      · exfalso
        push Not at hr
        have hcc : Is45 (at' pts (i + 1)) (at' pts (i + 2)) := (corners_ok h (i + 1)).1
        have := vertex_inner fd (corners_ok h i).1 hcc hmult (by
          have hne := hr.1
          rcases hs with rfl | rfl <;> rcases hmult with e | e <;> rw [e] at hne ⊢ <;> first | exact absurd rfl hne | omega) hr.2 rounding corner
        rw [hl] at this
        cases this
        exact absurd hPl (by simp)
  · intro i hi side hs ht hr
    obtain ⟨P, q1, q2⟩ := hout i side hs ht hr
    exact ⟨P, (hm P).2 ⟨i, hi, Or.inr ⟨_, q1, by simp⟩⟩, q2⟩

/-- C104: the points a resized polygon gains or loses. With the corners filled up to the crossing of the moved edges, the pieces cover exactly the bands along
the edges and the regions at the corners where the moved edges part: the convex corners of a growing outline, all corners if it shrinks. -/
theorem C104_region (fd : Rounding → Int → Int) {pts : List Pt} (h : Corners45 pts) (cw : Bool) {r : Int} {rounding : Rounding} (hro : rounding ≠ .sqrt1over2)
    (hole : Bool) (hu : 0 < diagDist fd rounding |r|) (hub : diagDist fd rounding |r| ≤ |r|) (hbu : |r| ≤ 2 * diagDist fd rounding |r|) :
    ∃ L, sizing fd pts cw r rounding .intersection hole = some L ∧ ∀ z, (∃ P ∈ L, covers P z) ↔
      ∃ i < pts.length, InBand (at' pts i) (at' pts (i + 1)) |r| (diagDist fd rounding |r|) z ∨
        ∃ side, (side = 1 ∨ side = -1) ∧ 0 < side * cross (at' pts i) (at' pts (i + 1)) (at' pts (i + 1)) (at' pts (i + 2)) ∧
          (side = (if cw then -1 else 1) ∨ (if hole then -r else r) ≤ 0) ∧
          InCorner (at' pts i) (at' pts (i + 1)) (at' pts (i + 2)) |r| (diagDist fd rounding |r|) side z := by
  obtain ⟨L, hL, hm⟩ := sizing_spec fd h cw r rounding (corner := .intersection) (by decide) hole
  have habs : |(if hole then -r else r)| = |r| := by split_ifs <;> simp
  have hmult : (if cw then (-1 : Int) else 1) = 1 ∨ (if cw then (-1 : Int) else 1) = -1 := by split_ifs <;> simp
  have hu' : 0 < diagDist fd rounding |(if hole then -r else r)| := by rwa [habs]
  have hnext : ∀ i, Is45 (at' pts (i + 1)) (at' pts (i + 2)) := fun i => (corners_ok h (i + 1)).1
  have hout : ∀ i side, (side = 1 ∨ side = -1) → 0 < side * cross (at' pts i) (at' pts (i + 1)) (at' pts (i + 1)) (at' pts (i + 2)) →
      (side = (if cw then -1 else 1) ∨ (if hole then -r else r) ≤ 0) →
      ∃ P, vertexPieces fd (at' pts i) (at' pts (i + 1)) (at' pts (i + 2)) (if hole then -r else r) rounding .intersection (if cw then -1 else 1) = some [P] ∧
        ∀ z, covers P z ↔ InCorner (at' pts i) (at' pts (i + 1)) (at' pts (i + 2)) |r| (diagDist fd rounding |r|) side z := by
    intro i side hs ht hr
    have hv := vertex_outer fd (corners_ok h i).1 (hnext i) hmult hs ht hr hro .intersection
    simp only [habs] at hv
    obtain ⟨x, k1, k2, k3, k4⟩ := hv.2 (by simp)
    obtain ⟨k5, k6⟩ := k4 hu.le hub hbu
    exact ⟨_, k1, quad_region (corners_ok h i).1 (hnext i) hs ht hu hub k2 k3 k5 k6⟩
  refine ⟨L, hL, fun z => ?_⟩
  constructor
  · rintro ⟨P, hP, hz⟩
    obtain ⟨i, hi, hP⟩ := (hm P).1 hP
    refine ⟨i, hi, ?_⟩
    rcases hP with rfl | ⟨l, hl, hPl⟩
    · left
      rw [band fd (corners_ok h i).1 hro .intersection hu', habs] at hz
      exact hz
    · right
      obtain ⟨side, hs, ht⟩ : ∃ side : Int, (side = 1 ∨ side = -1) ∧ 0 < side * cross (at' pts i) (at' pts (i + 1)) (at' pts (i + 1)) (at' pts (i + 2)) := by
        rcases lt_or_gt_of_ne (corners_ok h i).2 with g | g
        · exact ⟨-1, Or.inr rfl, by omega⟩
        · exact ⟨1, Or.inl rfl, by omega⟩
      by_cases hr : side = (if cw then -1 else 1) ∨ (if hole then -r else r) ≤ 0
      · obtain ⟨Q, q1, q2⟩ := hout i side hs ht hr
        rw [hl] at q1
        cases q1
        rw [List.mem_singleton] at hPl
        rw [hPl] at hz
        exact ⟨side, hs, ht, hr, (q2 z).1 hz⟩
      · exfalso
        push Not at hr
        have := vertex_inner fd (corners_ok h i).1 (hnext i) hmult (by
          have hne := hr.1
          rcases hs with rfl | rfl <;> rcases hmult with e | e <;> rw [e] at hne ⊢ <;> first | exact absurd rfl hne | omega) hr.2 rounding .intersection
        rw [hl] at this
        cases this
        exact absurd hPl (by simp)
  · rintro ⟨i, hi, hz | ⟨side, hs, ht, hr, hz⟩⟩
    · refine ⟨_, (hm _).2 ⟨i, hi, Or.inl rfl⟩, ?_⟩
      rw [band fd (corners_ok h i).1 hro .intersection hu', habs]
      exact hz
    · obtain ⟨P, q1, q2⟩ := hout i side hs ht hr
      exact ⟨P, (hm P).2 ⟨i, hi, Or.inr ⟨_, q1, by simp⟩⟩, (q2 z).2 hz⟩

/-- C104: with the corners left open only the bands along the edges are covered; straight and reversed corners do no harm then. -/
theorem C104_unfilled (fd : Rounding → Int → Int) {pts : List Pt} (h3 : 3 ≤ pts.length) (h : ∀ i < pts.length, Is45 (at' pts i) (at' pts (i + 1))) (cw : Bool)
    {r : Int} {rounding : Rounding} (hro : rounding ≠ .sqrt1over2) (hole : Bool) (hu : 0 < diagDist fd rounding |r|) :
    ∃ L, sizing fd pts cw r rounding .unfilled hole = some L ∧ ∀ z, (∃ P ∈ L, covers P z) ↔
      ∃ i < pts.length, InBand (at' pts i) (at' pts (i + 1)) |r| (diagDist fd rounding |r|) z := by
  have hne : at' pts (pts.length - 1) ≠ at' pts 0 := by
    have := (h (pts.length - 1) (by omega)).1
    rw [show pts.length - 1 + 1 = pts.length by omega] at this
    rw [show at' pts 0 = at' pts pts.length by unfold at'; simp]
    exact this
  have habs : |(if hole then -r else r)| = |r| := by split_ifs <;> simp
  have hu' : 0 < diagDist fd rounding |(if hole then -r else r)| := by rwa [habs]
  unfold sizing
  simp only [if_true, if_neg (show ¬ pts.length < 3 by omega), mul_neg, mul_one]
  obtain ⟨L, hL, hm⟩ := gather_some (f := fun c => some [edgePiece fd c.1 c.2.1 (if hole then -r else r) rounding .unfilled]) (cs := corners pts)
    (fun c _ => ⟨_, rfl⟩)
  refine ⟨L, hL, fun z => ?_⟩
  constructor
  · rintro ⟨P, hP, hz⟩
    obtain ⟨c, hc, l, hl, hPl⟩ := (hm P).1 hP
    obtain ⟨i, hi, rfl⟩ := (mem_corners h3 hne).1 hc
    cases hl
    rw [List.mem_singleton] at hPl
    subst hPl
    refine ⟨i, hi, ?_⟩
    rw [band fd (h i hi) hro .unfilled hu', habs] at hz
    exact hz
  · rintro ⟨i, hi, hz⟩
    refine ⟨_, (hm _).2 ⟨_, (mem_corners h3 hne).2 ⟨i, hi, rfl⟩, _, rfl, by simp; rfl⟩, ?_⟩
    rw [band fd (h i hi) hro .unfilled hu', habs]
    exact hz

/-- C104: no option makes resizing such a polygon divide by zero. -/
theorem C104_defined (fd : Rounding → Int → Int) {pts : List Pt} (h : Corners45 pts) (cw : Bool) (r : Int) (rounding : Rounding) {corner : Corner}
    (hc : corner ≠ .unfilled) (hole : Bool) : sizing fd pts cw r rounding corner hole ≠ none := by
  obtain ⟨L, hL, _⟩ := sizing_spec fd h cw r rounding hc hole
  rw [hL]; simp

/-- C104 fails for vertices in the middle of a straight edge: shrinking a polygon divides by zero there, whatever the amount. -/
theorem C104_straight_corner_violated (fd : Rounding → Int → Int) :
    (∀ a v c : Pt, Is45 a v → Is45 v c → cross a v v c = 0 → 0 < dot a v v c → ∀ mult r : Int, (mult = 1 ∨ mult = -1) → r < 0 →
      ∀ rounding corner, rounding ≠ .sqrt1over2 → vertexPieces fd a v c r rounding corner mult = none) ∧
    ∀ r < 0, sizing fd [(0, 0), (5, 0), (10, 0), (10, 10), (0, 10)] false r .closest .intersection false = none := by
  have hg : ∀ a v c : Pt, Is45 a v → Is45 v c → cross a v v c = 0 → 0 < dot a v v c → ∀ mult r : Int, (mult = 1 ∨ mult = -1) → r < 0 →
      ∀ rounding corner, rounding ≠ .sqrt1over2 → vertexPieces fd a v c r rounding corner mult = none :=
    fun a v c h1 h2 ht hd mult r hm hr rounding corner hro => vertex_straight fd h1 h2 ht hd hm hr.le hro
  refine ⟨hg, fun r hr => ?_⟩
  have := hg (0, 0) (5, 0) (10, 0) (by decide) (by decide) (by decide) (by decide) 1 r (Or.inl rfl) hr .closest .intersection (by decide)
  have hcs : (if [((0 : Int), (0 : Int)), (5, 0), (10, 0), (10, 10), (0, 10)].length < 3 then [] else corners [(0, 0), (5, 0), (10, 0), (10, 10), (0, 10)]) =
      ((0, 0), (5, 0), (10, 0)) :: (corners [(0, 0), (5, 0), (10, 0), (10, 10), (0, 10)]).tail := by decide
  unfold sizing
  simp only [hcs, gather, Bool.false_eq_true, if_false, reduceCtorEq, this]

/-- C104 fails for the option that moves diagonal edges by half the square root of two: of two corners that mirror each other, one is filled and the other one
is not. The triangle is its own mirror image at `x = 10`, and so are the points `(-5, -3)` and `(25, -3)`. -/
theorem C104_half_corner_violated : Corners45 [(0, 0), (20, 0), (10, 10)] ∧
    ∃ L, sizing exactDiag [(0, 0), (20, 0), (10, 10)] false 4 .sqrt1over2 .intersection false = some L ∧
      (∃ P ∈ L, covers P (-5, -3)) ∧ ∀ P ∈ L, ¬ covers P (25, -3) := by
  refine ⟨by decide, [.rect (0, -4) (20, 4), .poly [(20, -4), (20, 0), (20, -4), (20, -4)], .poly [(20, -4), (24, 0), (10, 14), (6, 10)],
    .poly [(14, 10), (10, 14), (-4, 0), (0, -4)], .poly [(0, 4), (0, 0), (0, -4), (-8, -4)]], by decide +kernel, by decide +kernel, by decide +kernel⟩

/-- A hexagon with an inner corner and diagonal edges: it meets the hypotheses, and its pieces when it grows by 4. -/
example : Corners45 [(0, 0), (20, 0), (30, 10), (20, 20), (10, 10), (0, 20)] ∧ 0 < diagDist exactDiag .closest |4| ∧ diagDist exactDiag .closest |4| ≤ |4| ∧ |4| ≤ 2 * diagDist exactDiag .closest |4| ∧
    sizing exactDiag [(0, 0), (20, 0), (30, 10), (20, 20), (10, 10), (0, 20)] false 4 .closest .intersection false =
      some [.rect (0, -4) (20, 4), .poly [(20, -4), (20, 0), (23, -3), (22, -4)],
        .poly [(17, 3), (23, -3), (33, 7), (27, 13)], .poly [(33, 7), (30, 10), (33, 13), (36, 10)],
        .poly [(23, 23), (17, 17), (27, 7), (33, 13)], .poly [(23, 23), (20, 20), (17, 23), (20, 26)],
        .poly [(7, 13), (13, 7), (23, 17), (17, 23)],
        .poly [(3, 23), (-3, 17), (7, 7), (13, 13)], .poly [(3, 23), (0, 20), (-4, 20), (-4, 30)],
        .rect (-4, 20) (4, 0), .poly [(-4, 0), (0, 0), (0, -4), (-4, -4)]] := by
  decide +kernel

end Verif.Properties.Resize45
