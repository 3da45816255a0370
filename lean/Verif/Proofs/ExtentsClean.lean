import Verif.Spec.Extents
import Verif.Model.Extents
import Verif.Proofs.FormColor
import Verif.Proofs.ArbTouch
import Verif.Proofs.N45Manh
import Verif.Proofs.Polygon
import Verif.Proofs.PolySet
import Verif.Proofs.Contains
/-!
# The points covered by clean edges and the ends of the edges
-/
namespace Verif.ArbForm
open Verif.Arb Verif.ArbMerge Verif.Contains Verif.Spec Verif.Spec.Arb

/-- The two sides of a clean edge differ. -/
theorem Clean.sides {D : List V} (c : Clean D) {a : V} (ha : a ∈ D) : lv (evs D) a.1 0 ≠ rv (evs D) a.1 0 := by
  have hk := c.S_key ha
  have hu := c.unit a ha
  unfold lv rv
  by_cases h : a.1.1.1 = a.1.2.1
  · rw [if_pos h, if_pos h]
    have h1 := wsum_top c.good (Has.evs ha) h 0
    have h2 := lwr c.good a.1.2 0
    omega
  · rw [if_neg h, if_neg h]
    omega

/-- Near every end of a clean edge there is a covered point. -/
theorem Clean.near {D : List V} (c : Clean D) {v : Pt} (hv : Vertex (evs D) v) {ε : ℚ} (hε : 0 < ε) :
    ∃ p, Within ε p ((v.1 : ℚ), (v.2 : ℚ)) ∧ 0 < depth D p := by
  obtain ⟨e, he, h⟩ := hv
  obtain ⟨w, hw⟩ := has_evs.1 he
  have hon : OnEdge e ((v.1 : ℚ), (v.2 : ℚ)) := by
    rcases h with h | h
    · refine ⟨0, le_refl _, zero_le_one, ?_, ?_⟩ <;> rw [h] <;> simp
    · refine ⟨1, zero_le_one, le_refl _, ?_, ?_⟩ <;> rw [h] <;> simp
  obtain ⟨⟨p, p1, p2⟩, r, r1, r2⟩ := side_near c.good he hon hε
  have hs := c.sides hw
  have hp := p2 0
  have hr := r2 0
  rw [layer_evs] at hp hr
  dsimp only at hs
  rw [← hp, ← hr] at hs
  rcases c.d01 p with g | g
  · rcases c.d01 r with g' | g'
    · omega
    · exact ⟨r, r1, by omega⟩
  · exact ⟨p, p1, by omega⟩

/-- Covered points lie in every rectangle that contains the ends of the edges. -/
theorem Clean.inside {D : List V} (c : Clean D) {xl yl xh yh : Int} (hb : ∀ v, Vertex (evs D) v → (xl ≤ v.1 ∧ v.1 ≤ xh) ∧ yl ≤ v.2 ∧ v.2 ≤ yh)
    {q : ℚ × ℚ} (hq : depth D q ≠ 0) : ((xl : ℚ) ≤ q.1 ∧ q.1 ≤ xh) ∧ (yl : ℚ) ≤ q.2 ∧ q.2 ≤ yh := by
  have hd : depth D q = S (evs D) 0 (fun e => RSpan ⌊q.1⌋ e ∧ Y e q.1 ≤ q.2) := by rw [← depth_layer, layer_evs]
  have e1 : ∀ e, Has (evs D) e → ((xl ≤ e.1.1 ∧ e.1.1 ≤ xh) ∧ yl ≤ e.1.2 ∧ e.1.2 ≤ yh) ∧ (xl ≤ e.2.1 ∧ e.2.1 ≤ xh) ∧ yl ≤ e.2.2 ∧ e.2.2 ≤ yh :=
    fun e he => ⟨hb _ ⟨e, he, Or.inl rfl⟩, hb _ ⟨e, he, Or.inr rfl⟩⟩
  have sp : ∀ e : HE, RSpan ⌊q.1⌋ e → (e.1.1 : ℚ) ≤ q.1 ∧ q.1 < e.2.1 := fun e h => ⟨Int.le_floor.1 h.1, Int.floor_lt.1 h.2⟩
  have key : ∃ e, Has (evs D) e ∧ RSpan ⌊q.1⌋ e ∧ Y e q.1 ≤ q.2 := by
    by_contra hn
    push Not at hn
    apply hq
    rw [hd]
    apply S_zero
    rintro ev hev ⟨h1, h2⟩
    exact absurd h2 (not_le.2 (hn ev.1 (mem_evs hev) h1))
  obtain ⟨e, he, hs, hy⟩ := key
  obtain ⟨⟨⟨b1, b2⟩, b3, b4⟩, ⟨b5, b6⟩, b7, b8⟩ := e1 e he
  obtain ⟨s1, s2⟩ := sp e hs
  obtain ⟨y1, y2⟩ := Y_between hs.nv s1 s2.le
  have i1 : (xl : ℚ) ≤ e.1.1 := by exact_mod_cast b1
  have i2 : (e.2.1 : ℚ) ≤ xh := by exact_mod_cast b6
  have i3 : (yl : ℚ) ≤ ((min e.1.2 e.2.2 : Int) : ℚ) := by exact_mod_cast le_min b3 b7
  refine ⟨⟨by linarith, by linarith⟩, by linarith, ?_⟩
  by_contra hn
  push Not at hn
  apply hq
  rw [hd, S_congr (Q := LSpan (⌊q.1⌋ + 1)), total_zero c.good]
  intro ev hev
  constructor
  · rintro ⟨⟨h1, h2⟩, _⟩
    exact ⟨by omega, by omega⟩
  · rintro ⟨h1, h2⟩
    have hr : RSpan ⌊q.1⌋ ev.1 := ⟨by omega, by omega⟩
    refine ⟨hr, ?_⟩
    obtain ⟨t1, t2⟩ := sp ev.1 hr
    obtain ⟨_, z2⟩ := Y_between hr.nv t1 t2.le
    have := e1 ev.1 (mem_evs hev)
    have : ((max ev.1.1.2 ev.1.2.2 : Int) : ℚ) ≤ yh := by exact_mod_cast max_le this.1.2.2 this.2.2.2
    linarith

/-- A rectangle is the tight box of a list of points. -/
structure Hull (L : List (Int × Int)) (r : Rectangle.Rect) : Prop where
  box : ∀ v ∈ L, (r.h.lo ≤ v.1 ∧ v.1 ≤ r.h.hi) ∧ r.v.lo ≤ v.2 ∧ v.2 ≤ r.v.hi
  xl : ∃ v ∈ L, v.1 = r.h.lo
  xh : ∃ v ∈ L, v.1 = r.h.hi
  yl : ∃ v ∈ L, v.2 = r.v.lo
  yh : ∃ v ∈ L, v.2 = r.v.hi

/-- The ends of the edges lie in every rectangle that contains the covered points. -/
theorem Clean.limit {D : List V} (c : Clean D) {x1 y1 x2 y2 : ℚ} (hb : ∀ q : ℚ × ℚ, 0 < depth D q → (x1 ≤ q.1 ∧ q.1 ≤ x2) ∧ y1 ≤ q.2 ∧ q.2 ≤ y2)
    {v : Pt} (hv : Vertex (evs D) v) : (x1 ≤ v.1 ∧ (v.1 : ℚ) ≤ x2) ∧ y1 ≤ v.2 ∧ (v.2 : ℚ) ≤ y2 := by
  have : ∀ ε : ℚ, 0 < ε → (x1 ≤ v.1 + ε ∧ (v.1 : ℚ) ≤ x2 + ε) ∧ y1 ≤ v.2 + ε ∧ (v.2 : ℚ) ≤ y2 + ε := by
    intro ε hε
    obtain ⟨p, ⟨p1, p2⟩, p3⟩ := c.near hv hε
    obtain ⟨⟨g1, g2⟩, g3, g4⟩ := hb p p3
    rw [abs_lt] at p1 p2
    dsimp only at p1 p2
    refine ⟨⟨?_, ?_⟩, ?_, ?_⟩ <;> linarith
  exact ⟨⟨le_of_forall_pos_le_add fun ε hε => (this ε hε).1.1, le_of_forall_pos_le_add fun ε hε => (this ε hε).1.2⟩,
    le_of_forall_pos_le_add fun ε hε => (this ε hε).2.1, le_of_forall_pos_le_add fun ε hε => (this ε hε).2.2⟩

theorem Clean.extents {D : List V} (c : Clean D) {L : List (Int × Int)} (hL : ∀ v, v ∈ L ↔ Vertex (evs D) v) {r : Rectangle.Rect} (h : Hull L r) :
    IsExtents (fun q => 0 < depth D q) r.h.lo r.v.lo r.h.hi r.v.hi := by
  refine ⟨fun q hq => c.inside (fun v hv => h.box v ((hL v).2 hv)) (by omega), fun x1 y1 x2 y2 hb => ?_⟩
  have key : ∀ v ∈ L, (x1 ≤ v.1 ∧ (v.1 : ℚ) ≤ x2) ∧ y1 ≤ v.2 ∧ (v.2 : ℚ) ≤ y2 := fun v hv => c.limit hb ((hL v).1 hv)
  obtain ⟨v1, m1, a1⟩ := h.xl
  obtain ⟨v2, m2, a2⟩ := h.xh
  obtain ⟨v3, m3, a3⟩ := h.yl
  obtain ⟨v4, m4, a4⟩ := h.yh
  rw [← a1, ← a2, ← a3, ← a4]
  exact ⟨⟨(key v1 m1).1.1, (key v2 m2).1.2⟩, (key v3 m3).2.1, (key v4 m4).2.2⟩

/-- Clean edges cover something. -/
theorem Clean.covers {D : List V} (c : Clean D) (hne : D ≠ []) : ∃ q, 0 < depth D q := by
  obtain ⟨a, ha⟩ := List.exists_mem_of_ne_nil D hne
  obtain ⟨p, -, h⟩ := c.near (v := a.1.1) ⟨a.1, Has.evs ha, Or.inl rfl⟩ one_pos
  exact ⟨p, h⟩

/-- The winding number is zero outside a rectangle that contains the vertices. -/
theorem wind_inside {P : List (Int × Int)} {xl yl xh yh : Int} (hb : ∀ v ∈ P, (xl ≤ v.1 ∧ v.1 ≤ xh) ∧ yl ≤ v.2 ∧ v.2 ≤ yh) {q : ℚ × ℚ}
    (hq : windAt P q ≠ 0) : ((xl : ℚ) ≤ q.1 ∧ q.1 ≤ xh) ∧ (yl : ℚ) ≤ q.2 ∧ q.2 ≤ yh := by
  have bd : ∀ a b : Int × Int, a ∈ P → b ∈ P → (a.1 : ℚ) ≤ q.1 → q.1 < b.1 →
      ((xl : ℚ) ≤ q.1 ∧ q.1 ≤ xh) ∧ (yl : ℚ) ≤ lineY a b q.1 ∧ lineY a b q.1 ≤ yh ∧ lineY b a q.1 = lineY a b q.1 := by
    intro a b ha hb' h1 h2
    have hlt : a.1 < b.1 := by exact_mod_cast lt_of_le_of_lt h1 h2
    obtain ⟨y1, y2⟩ := Y_between (e := (a, b)) hlt h1 h2.le
    have i1 := hb a ha
    have i2 := hb b hb'
    have j1 : (xl : ℚ) ≤ a.1 := by exact_mod_cast i1.1.1
    have j2 : (b.1 : ℚ) ≤ xh := by exact_mod_cast i2.1.2
    have j3 : (yl : ℚ) ≤ ((min a.2 b.2 : Int) : ℚ) := by exact_mod_cast le_min i1.2.1 i2.2.1
    have j4 : ((max a.2 b.2 : Int) : ℚ) ≤ yh := by exact_mod_cast max_le i1.2.2 i2.2.2
    dsimp only at y1 y2
    exact ⟨⟨by linarith, by linarith⟩, by linarith, by linarith, PolySet.lineY_swap a b q.1 (by omega)⟩
  have key : ∃ e ∈ edges P, crossing q e ≠ 0 := by
    by_contra hn
    push Not at hn
    apply hq
    unfold windAt
    apply List.sum_eq_zero
    intro x hx
    obtain ⟨e, he, rfl⟩ := List.mem_map.1 hx
    exact hn e he
  obtain ⟨e, he, hc⟩ := key
  obtain ⟨m1, m2⟩ := Contains.edge_ends he
  have h3 : ((xl : ℚ) ≤ q.1 ∧ q.1 ≤ xh) ∧ (yl : ℚ) ≤ q.2 := by
    unfold crossing at hc
    split_ifs at hc with c1 c2
    · obtain ⟨g1, g2, -⟩ := bd _ _ m1 m2 c1.1 c1.2.1
      exact ⟨g1, g2.trans c1.2.2⟩
    · obtain ⟨g1, g2, _, g4⟩ := bd _ _ m2 m1 c2.1 c2.2.1
      exact ⟨g1, (g4 ▸ g2).trans c2.2.2⟩
    · exact absurd rfl hc
  refine ⟨h3.1, h3.2, ?_⟩
  by_contra hn
  push Not at hn
  apply hq
  unfold windAt
  rw [← Polygon.edges_telescope (fun v : Int × Int => if q.1 < (v.1 : ℚ) then (1 : Int) else 0) P]
  congr 1
  apply List.map_congr_left
  intro f hf
  obtain ⟨n1, n2⟩ := Contains.edge_ends hf
  unfold crossing
  by_cases u : q.1 < (f.1.1 : ℚ)
  · by_cases w : q.1 < (f.2.1 : ℚ)
    · rw [if_neg (by rintro ⟨g, -⟩; exact absurd u (not_lt.2 g)), if_neg (by rintro ⟨g, -⟩; exact absurd w (not_lt.2 g)), if_pos w, if_pos u]; rfl
    · obtain ⟨-, -, g3, g4⟩ := bd _ _ n2 n1 (not_lt.1 w) u
      rw [if_neg (by rintro ⟨g, -⟩; exact absurd u (not_lt.2 g)), if_pos ⟨not_lt.1 w, u, by rw [g4]; linarith⟩, if_neg w, if_pos u]; rfl
  · by_cases w : q.1 < (f.2.1 : ℚ)
    · obtain ⟨-, -, g3, g4⟩ := bd _ _ n1 n2 (not_lt.1 u) w
      rw [if_pos ⟨not_lt.1 u, w, by linarith⟩, if_pos w, if_neg u]; rfl
    · rw [if_neg (by rintro ⟨-, g, -⟩; exact w g), if_neg (by rintro ⟨-, g, -⟩; exact u g), if_neg w, if_neg u]; rfl

/-! ### The loops -/

open Verif.Rectangle Verif.Extents Verif.Interval

theorem Hull.one (p : Int × Int) : Hull [p] (setPoints p p) := by
  unfold setPoints construct
  simp only [gt_iff_lt, lt_self_iff_false, if_false]
  constructor <;> simp

theorem Hull.two (p q : Int × Int) : Hull [p, q] (setPoints p q) := by
  have e : ∀ a b : Int, construct a b = ⟨min a b, max a b⟩ := by
    intro a b
    unfold construct
    split_ifs with h
    · rw [min_eq_right h.le, max_eq_left h.le]
    · rw [min_eq_left (by omega), max_eq_right (by omega)]
  unfold setPoints
  rw [e, e]
  constructor
  · intro v hv
    simp only [List.mem_cons, List.not_mem_nil, or_false] at hv
    dsimp only
    rcases hv with rfl | rfl <;> omega
  all_goals
    dsimp only
    simp only [List.mem_cons, List.not_mem_nil, or_false, exists_eq_or_imp, exists_eq_left]
    omega

/-- The box of two lists. -/
theorem Hull.append {L M : List (Int × Int)} {a b : Rect} (h : Hull L a) (g : Hull M b) :
    Hull (L ++ M) ⟨⟨min a.h.lo b.h.lo, max a.h.hi b.h.hi⟩, ⟨min a.v.lo b.v.lo, max a.v.hi b.v.hi⟩⟩ := by
  have pick : ∀ {f : Int × Int → Int} {x y z : Int}, (z = x ∨ z = y) → (∃ v ∈ L, f v = x) → (∃ v ∈ M, f v = y) → ∃ v ∈ L ++ M, f v = z := by
    rintro f x y z (rfl | rfl) ⟨v, hv, e⟩ ⟨w, hw, e'⟩
    · exact ⟨v, List.mem_append_left _ hv, e⟩
    · exact ⟨w, List.mem_append_right _ hw, e'⟩
  constructor
  · intro v hv
    dsimp only
    rcases List.mem_append.1 hv with hv | hv
    · have := h.box v hv
      omega
    · have := g.box v hv
      omega
  · exact pick (by dsimp only; omega) h.xl g.xl
  · exact pick (by dsimp only; omega) h.xh g.xh
  · exact pick (by dsimp only; omega) h.yl g.yl
  · exact pick (by dsimp only; omega) h.yh g.yh

theorem encompassIvl_h (r : Rect) (b : Ivl) : (encompassIvl r b Isotropy.HORIZONTAL).1 = ⟨⟨min r.h.lo b.lo, max r.h.hi b.hi⟩, r.v⟩ := by
  unfold encompassIvl Interval.encompass Rect.get Rect.set Isotropy.HORIZONTAL
  simp only [if_true]
  split_ifs with h
  · rfl
  · simp only [Bool.not_eq_true', Bool.not_eq_false, containsIvl, containsVal, Ivl.get, Isotropy.LOW, Isotropy.HIGH, one_ne_zero, if_false, if_true, Bool.and_eq_true, decide_eq_true_eq] at h
    obtain ⟨⟨lo, hi⟩, v⟩ := r
    simp only [Rect.mk.injEq, Ivl.mk.injEq, and_true] at h ⊢
    omega

theorem encompassIvl_v (r : Rect) (b : Ivl) : (encompassIvl r b Isotropy.VERTICAL).1 = ⟨r.h, ⟨min r.v.lo b.lo, max r.v.hi b.hi⟩⟩ := by
  unfold encompassIvl Interval.encompass Rect.get Rect.set Isotropy.VERTICAL
  simp only [one_ne_zero, if_false]
  split_ifs with h
  · rfl
  · simp only [Bool.not_eq_true', Bool.not_eq_false, containsIvl, containsVal, Ivl.get, Isotropy.LOW, Isotropy.HIGH, one_ne_zero, if_false, if_true, Bool.and_eq_true, decide_eq_true_eq] at h
    obtain ⟨hh, ⟨lo, hi⟩⟩ := r
    simp only [Rect.mk.injEq, Ivl.mk.injEq, true_and] at h ⊢
    omega

theorem encompassRect_eq (a b : Rect) : (encompassRect a b).1 = ⟨⟨min a.h.lo b.h.lo, max a.h.hi b.h.hi⟩, ⟨min a.v.lo b.v.lo, max a.v.hi b.v.hi⟩⟩ := by
  unfold encompassRect
  dsimp only
  rw [encompassIvl_v, encompassIvl_h]

theorem encompassPt_eq (a : Rect) (p : Int × Int) : (encompassPt a p).1 = ⟨⟨min a.h.lo p.1, max a.h.hi p.1⟩, ⟨min a.v.lo p.2, max a.v.hi p.2⟩⟩ := by
  unfold encompassPt encompassVal
  dsimp only
  split_ifs with h
  · rfl
  · simp only [Bool.or_eq_true, Bool.not_eq_true', not_or, Bool.not_eq_false, containsVal, if_true, Bool.and_eq_true, decide_eq_true_eq] at h
    obtain ⟨⟨lo, hi⟩, ⟨lo', hi'⟩⟩ := a
    simp only [Rect.mk.injEq, Ivl.mk.injEq] at h ⊢
    omega

/-- The ends of a list of edges. -/
def endsOf (D : List V) : List (Int × Int) := D.flatMap (fun e => [e.1.1, e.1.2])

theorem mem_endsOf {D : List V} (v : Int × Int) : v ∈ endsOf D ↔ Vertex (evs D) v := by
  unfold endsOf
  rw [List.mem_flatMap]
  constructor
  · rintro ⟨e, he, h⟩
    simp only [List.mem_cons, List.not_mem_nil, or_false] at h
    exact ⟨e.1, Has.evs he, by rcases h with h | h; exacts [Or.inl h.symm, Or.inr h.symm]⟩
  · rintro ⟨e, he, h⟩
    obtain ⟨w, hw⟩ := has_evs.1 he
    refine ⟨_, hw, ?_⟩
    simp only [List.mem_cons, List.not_mem_nil, or_false]
    rcases h with h | h
    exacts [Or.inl h.symm, Or.inr h.symm]

theorem fold_edges : ∀ (D : List V) {L : List (Int × Int)} {r : Rect}, Hull L r → ∃ r', D.foldl stepEdge (some r) = some r' ∧ Hull (L ++ endsOf D) r'
  | [], L, r, h => ⟨r, rfl, by simpa [endsOf] using h⟩
  | e :: D, L, r, h => by
    obtain ⟨r', h1, h2⟩ := fold_edges D (h.append (Hull.two e.1.1 e.1.2))
    refine ⟨r', ?_, ?_⟩
    · rw [List.foldl_cons, ← h1]
      unfold stepEdge
      dsimp only
      rw [encompassRect_eq]
    · have : endsOf (e :: D) = [e.1.1, e.1.2] ++ endsOf D := rfl
      rw [this, ← List.append_assoc]
      exact h2

theorem fold_edges_nil {D : List V} (hne : D ≠ []) : ∃ r, D.foldl stepEdge none = some r ∧ Hull (endsOf D) r := by
  cases D with
  | nil => exact absurd rfl hne
  | cons e D => exact fold_edges D (Hull.two e.1.1 e.1.2)

theorem fold_points : ∀ (P : List (Int × Int)) {L : List (Int × Int)} {r : Rect}, Hull L r → ∃ r', P.foldl stepPoint (some r) = some r' ∧ Hull (L ++ P) r'
  | [], L, r, h => ⟨r, rfl, by simpa using h⟩
  | p :: P, L, r, h => by
    have g : Hull (L ++ [p]) (encompassPt r p).1 := by
      rw [encompassPt_eq]
      have := h.append (Hull.one p)
      simpa [setPoints, construct] using this
    obtain ⟨r', h1, h2⟩ := fold_points P g
    exact ⟨r', h1, by rw [List.append_assoc] at h2; exact h2⟩

theorem fold_points_nil {P : List (Int × Int)} (hne : P ≠ []) : ∃ r, polyExtents P = some r ∧ Hull P r := by
  cases P with
  | nil => exact absurd rfl hne
  | cons p P => exact fold_points P (Hull.one p)

/-- One comparison with either end. -/
theorem widen_ivl (i : Ivl) (x : Int) : (let h := if x > i.hi then { i with hi := x } else i; if x < h.lo then { h with lo := x } else h) = ⟨min i.lo x, max i.hi x⟩ := by
  obtain ⟨lo, hi⟩ := i
  by_cases c : x > hi
  · by_cases d : x < lo
    · simp only [c, d, if_true, min_eq_right d.le, max_eq_right c.le]
    · simp only [c, d, if_true, if_false, min_eq_left (not_lt.1 d), max_eq_right c.le]
  · by_cases d : x < lo
    · simp only [c, d, if_true, if_false, min_eq_right d.le, max_eq_left (not_lt.1 c)]
    · simp only [c, d, if_false, min_eq_left (not_lt.1 d), max_eq_left (not_lt.1 c)]

theorem widen_eq (b : Rect) (p : Int × Int) : widen b p = ⟨⟨min b.h.lo p.1, max b.h.hi p.1⟩, ⟨min b.v.lo p.2, max b.v.hi p.2⟩⟩ := by
  have h1 := widen_ivl b.h p.1
  have h2 := widen_ivl b.v p.2
  dsimp only at h1 h2
  unfold widen
  dsimp only
  rw [h1, h2]

theorem widen_one {p : Int × Int} {lo hi : Int} (h1 : lo ≤ p.1 ∧ p.1 ≤ hi) (h2 : lo ≤ p.2 ∧ p.2 ≤ hi) : Hull [p] (widen ⟨⟨hi, lo⟩, ⟨hi, lo⟩⟩ p) := by
  have := Hull.one p
  rw [widen_eq]
  unfold setPoints construct at this
  simp only [gt_iff_lt, lt_self_iff_false, if_false] at this
  rwa [min_eq_right h1.2, max_eq_right h1.1, min_eq_right h2.2, max_eq_right h2.1]

theorem widen_hull {b : Rect} {p : Int × Int} {L : List (Int × Int)} (h : Hull L b) : Hull (L ++ [p]) (widen b p) := by
  rw [widen_eq]
  have := h.append (Hull.one p)
  simpa [setPoints, construct] using this

theorem fold_widen : ∀ (P : List (Int × Int)) {L : List (Int × Int)} {r : Rect}, Hull L r → Hull (L ++ P) (P.foldl widen r)
  | [], L, r, h => by simpa using h
  | p :: P, L, r, h => by
    have := fold_widen P (widen_hull (p := p) h)
    rw [List.append_assoc] at this
    exact this

theorem fold_widen_nil {P : List (Int × Int)} (hne : P ≠ []) {lo hi : Int} (h : ∀ p ∈ P, (lo ≤ p.1 ∧ p.1 ≤ hi) ∧ lo ≤ p.2 ∧ p.2 ≤ hi) :
    Hull P (P.foldl widen ⟨⟨hi, lo⟩, ⟨hi, lo⟩⟩) := by
  cases P with
  | nil => exact absurd rfl hne
  | cons p P =>
    have hp := h p List.mem_cons_self
    exact fold_widen P (widen_one hp.1 hp.2)

end Verif.ArbForm
