import Verif.Proofs.Minkowski
import Verif.Properties.ArbForm
/-!
# The Minkowski sum of two polygon sets
-/
namespace Verif.Properties.Minkowski
open Verif.Minkowski
open Verif.Spec hiding depth
open Verif.Spec.Arb Verif.Spec.Minkowski Verif.PolySet Verif.ArbForm Verif.Cut Verif.Proofs.Minkowski Verif.Properties.ArbForm Verif.Properties.Cut

/-- The convolution of two lists of polygons with holes covers the sum of every point inside one of the first and every point inside one of the second, except possibly
sums of a vertex and a boundary point. Every point it covers is such a sum, where boundary points count as well. Its edges form closed curves and no point has a negative depth. -/
theorem C100_polygons (A B : List Poly) (hA : ∀ P ∈ A, Sound (P.outer, P.holes)) (hB : ∀ Q ∈ B, Sound (Q.outer, Q.holes)) :
    ∃ D, convolvePolys A B = some D ∧ Closed D ∧ (∀ e ∈ D, Directed e.1) ∧ (∀ q, 0 ≤ depth D q) ∧
      (∀ P ∈ A, ∀ Q ∈ B, ∀ a b, Inside P.outer P.holes a → Inside Q.outer Q.holes b → 0 < depth D (a + b) ∨ OnRim (P.outer, P.holes) (Q.outer, Q.holes) (a + b)) ∧
      ∀ q, 0 < depth D q → ∃ P ∈ A, ∃ Q ∈ B, ∃ a b, q = a + b ∧ Within (P.outer, P.holes) a ∧ Within (Q.outer, Q.holes) b :=
  spec A B hA hB

/-- Sound polygons: one with two holes, and a diamond. -/
theorem exSound : (∃ P : Poly, P.holes.length = 2 ∧ Sound (P.outer, P.holes) ∧ Inside P.outer P.holes (1, 1)) ∧
    Sound ([(4, 0), (0, 4), (-4, 0), (0, -4), (4, 0)], []) := by
  constructor
  · obtain ⟨out, h1, h2, h3, _⟩ := C81_get_polygons exactFP exactFP_floor (-100) 100 (frame ++ bar) _ (List.Perm.refl _) (by decide +kernel)
    have e := h1.symm.trans (show _ = some [_] by decide +kernel : getPolys exactFP (-100) 100 (build (frame ++ bar)) =
      some [⟨[(12, 5), (9, 5), (9, 9), (0, 9), (0, 5), (-2, 5), (-2, 4), (0, 4), (0, 0), (9, 0), (9, 4), (12, 4), (12, 5)],
        [[(6, 6), (6, 5), (3, 5), (3, 6), (6, 6)], [(6, 4), (6, 3), (3, 3), (3, 4), (6, 4)]]⟩])
    rw [Option.some_inj.1 e] at h2 h3
    refine ⟨_, ?_, ⟨h3 _ List.mem_cons_self, fun l hl => (h2 l (by simpa [rings] using hl)).1⟩, ?_⟩
    · rfl
    · unfold Inside; decide +kernel
  · obtain ⟨out, h1, h2, h3, _⟩ := C81_get_polygons exactFP exactFP_floor (-100) 100 [(([(0, -4), (4, 0), (0, 4), (-4, 0)], []), false)] _ (List.Perm.refl _) (by decide +kernel)
    have e := h1.symm.trans (show _ = some [_] by decide +kernel : getPolys exactFP (-100) 100 (build [(([(0, -4), (4, 0), (0, 4), (-4, 0)], []), false)]) =
      some [⟨[(4, 0), (0, 4), (-4, 0), (0, -4), (4, 0)], []⟩])
    rw [Option.some_inj.1 e] at h2 h3
    exact ⟨h3 _ List.mem_cons_self, fun l hl => (h2 l (by simpa [rings] using hl)).1⟩

/-- A thin frame and a small square: the hole gets smaller. -/
example : (convolvePolys [⟨[(0, 0), (9, 0), (9, 9), (0, 9), (0, 0)], [[(3, 3), (3, 6), (6, 6), (6, 3), (3, 3)]]⟩] [⟨[(0, 0), (1, 0), (1, 1), (0, 1), (0, 0)], []⟩]).map
    (fun D => (decide (0 < depth D (7 / 2, 5)), depth D (9 / 2, 9 / 2), decide (0 < depth D (19 / 2, 1)), depth D (21 / 2, 1))) = some (true, 0, true, 0) := by decide +kernel

/-! ### Sets -/

theorem sides_cons (a b : Int × Int) (r : List (Int × Int)) : sides (a :: b :: r) = if a ≠ b then (a, b) :: sides (b :: r) else sides (b :: r) := by
  unfold sides
  rw [List.tail_cons, List.zip_cons_cons, List.tail_cons]
  by_cases h : a = b
  · rw [List.filter_cons_of_neg (by simpa using h), if_neg (by simpa using h)]
  · rw [List.filter_cons_of_pos (by simpa using h), if_pos h]

theorem sides_none : ∀ (r : List (Int × Int)) (b : Int × Int), sides (b :: r) = [] → ∀ v ∈ r, v = b
  | [], _, _ => by simp
  | c :: r, b, h => by
    rw [sides_cons] at h
    split_ifs at h with hbc
    · have hbc := not_not.1 hbc
      subst hbc
      intro v hv
      rcases List.mem_cons.1 hv with rfl | hv
      · rfl
      · exact sides_none r b h v hv

/-- Every vertex of an outline is an end of one of its sides. -/
theorem side_of : ∀ l : List (Int × Int), sides l ≠ [] → ∀ v ∈ l, ∃ e ∈ sides l, v = e.1 ∨ v = e.2
  | [], h => absurd rfl h
  | [_], h => absurd rfl h
  | a :: b :: r, h => by
    intro v hv
    rw [sides_cons] at h ⊢
    by_cases hab : a = b
    · rw [if_neg (not_not.2 hab)] at h ⊢
      rcases List.mem_cons.1 hv with rfl | hv
      · exact side_of (b :: r) h v (by rw [hab]; simp)
      · exact side_of (b :: r) h v hv
    · rw [if_pos hab]
      rcases List.mem_cons.1 hv with rfl | hv
      · exact ⟨_, List.mem_cons_self, Or.inl rfl⟩
      · by_cases h0 : sides (b :: r) = []
        · refine ⟨_, List.mem_cons_self, Or.inr ?_⟩
          rcases List.mem_cons.1 hv with rfl | hv
          · rfl
          · exact sides_none r b h0 v hv
        · obtain ⟨e, he, h1⟩ := side_of (b :: r) h0 v hv
          exact ⟨e, List.mem_cons_of_mem _ he, h1⟩

theorem onEdge_between {a : Edge} {u v : Int × Int} (hu : OnEdge a (pt u)) (hv : OnEdge a (pt v)) {q : ℚ × ℚ} (h : OnEdge (u, v) q) : OnEdge a q := by
  obtain ⟨s, s1, s2, ux, uy⟩ := hu
  obtain ⟨t, t1, t2, vx, vy⟩ := hv
  obtain ⟨k, k1, k2, hx, hy⟩ := h
  simp only [pt] at ux uy vx vy
  simp only [ux, uy, vx, vy] at hx hy
  refine ⟨s + k * (t - s), by nlinarith, by nlinarith, by rw [hx]; ring, by rw [hy]; ring⟩

/-- The outlines of polygons whose sides are parts of the edges of a set. -/
structure Outlined (E : List Edge) (out : List Poly) : Prop where
  ring : ∀ l ∈ rings out, Ring l
  part : ∀ l ∈ rings out, ∀ e ∈ sides l, PartOf E e ∨ PartOf E e.swap

theorem Outlined.vertex {E : List Edge} {out : List Poly} (h : Outlined E out) {P : Poly} (hP : P ∈ out) {q : ℚ × ℚ} (hq : IsVertex (P.outer, P.holes) q) :
    ∃ v, Junction E v ∧ q = pt v := by
  obtain ⟨l, hl, v, hv, rfl⟩ := hq
  have hl' : l ∈ rings out := List.mem_flatMap.2 ⟨P, hP, hl⟩
  obtain ⟨e, he, h1⟩ := side_of l (h.ring l hl').1 v hv
  refine ⟨v, ?_, rfl⟩
  rcases h.part l hl' e he with g | g <;> rcases h1 with rfl | rfl
  exacts [g.2.1, g.2.2.1, g.2.2.1, g.2.1]

theorem Outlined.boundary {E : List Edge} {out : List Poly} (h : Outlined E out) {P : Poly} (hP : P ∈ out) {q : ℚ × ℚ} (hq : OnBoundary (P.outer, P.holes) q) :
    ∃ e ∈ E, OnEdge e q := by
  obtain ⟨l, hl, e, he, ho⟩ := hq
  have hl' : l ∈ rings out := List.mem_flatMap.2 ⟨P, hP, hl⟩
  have real : ∀ e ∈ sides l, ∃ a ∈ E, OnEdge a (pt e.1) ∧ OnEdge a (pt e.2) := by
    intro e he
    rcases h.part l hl' e he with g | g
    · exact g.2.2.2
    · obtain ⟨a, ha, h1, h2⟩ := g.2.2.2
      exact ⟨a, ha, h2, h1⟩
  by_cases hd : e.1 = e.2
  · obtain ⟨t, -, -, hx, hy⟩ := ho
    have hq : q = pt e.1 := by
      ext
      · rw [hx, ← hd]; simp [pt]
      · rw [hy, ← hd]; simp [pt]
    obtain ⟨f, hf, h1⟩ := side_of l (h.ring l hl').1 e.1 (List.of_mem_zip he).1
    obtain ⟨a, ha, h2, h3⟩ := real f hf
    refine ⟨a, ha, ?_⟩
    rw [hq]
    rcases h1 with g | g <;> rw [g]
    exacts [h2, h3]
  · obtain ⟨a, ha, h1, h2⟩ := real e (List.mem_filter.2 ⟨he, by simpa using hd⟩)
    exact ⟨a, ha, onEdge_between h1 h2 ho⟩

/-- The polygons a set is turned into. -/
theorem got (fp : FP) (hfp : fp.Accurate) (umin umax : Int) (D S : Data) (hS : S.Perm D) (hL : OnLattice (D.map Prod.fst))
    (hd : ∀ e ∈ D, Directed e.1) (hu : ∀ e ∈ D, umin ≤ min e.1.1.2 e.1.2.2) (hD : Closed D) :
    ∃ out, getPolys fp umin umax S = some out ∧ (∀ P ∈ out, Sound (P.outer, P.holes)) ∧ Outlined (D.map Prod.fst) out ∧
      ∀ q, 0 < depth D q ↔ ∃ P ∈ out, Inside P.outer P.holes q := by
  classical
  obtain ⟨out, h1, h2, h3, h4, h5⟩ := C81_get_lattice fp hfp umin umax D S hS hL hd hu hD
  refine ⟨out, h1, fun P hP => ⟨h3 P hP, fun l hl => (h2 l (List.mem_flatMap.2 ⟨P, hP, hl⟩)).1⟩, ⟨fun l hl => (h2 l hl).1, h4⟩, fun q => ?_⟩
  have e := h5 q
  rw [C81_inside out h3] at e
  have : (∃ P ∈ out, Inside P.outer P.holes q) ↔ 0 < (out.filter (fun P => decide (Inside P.outer P.holes q))).length := by
    rw [List.length_pos_iff_exists_mem]
    simp only [List.mem_filter, decide_eq_true_eq]
  rw [this]
  by_cases hp : depth D q > 0
  · rw [if_pos hp] at e; exact ⟨fun _ => by omega, fun _ => hp⟩
  · rw [if_neg hp] at e; exact ⟨fun h => absurd h hp, fun h => by omega⟩

/-- The convolution of two sets whose edges meet in lattice points covers the sum of any two points they cover, except possibly sums of a junction and a point on an edge. Every
point it covers is the sum of two points that are covered by the sets or on their edges. -/
theorem C100_sets (fp : FP) (hfp : fp.Accurate) (umin umax : Int) (A B S T : Data) (hS : S.Perm A) (hT : T.Perm B)
    (hLA : OnLattice (A.map Prod.fst)) (hLB : OnLattice (B.map Prod.fst)) (hdA : ∀ e ∈ A, Directed e.1) (hdB : ∀ e ∈ B, Directed e.1)
    (huA : ∀ e ∈ A, umin ≤ min e.1.1.2 e.1.2.2) (huB : ∀ e ∈ B, umin ≤ min e.1.1.2 e.1.2.2) (hA : Closed A) (hB : Closed B) :
    ∃ D, convolveSets fp umin umax S T = some D ∧ Closed D ∧ (∀ e ∈ D, Directed e.1) ∧ (∀ q, 0 ≤ depth D q) ∧
      (∀ a b, 0 < depth A a → 0 < depth B b → 0 < depth D (a + b) ∨ EdgesRim (A.map Prod.fst) (B.map Prod.fst) (a + b)) ∧
      ∀ q, 0 < depth D q → ∃ a b, q = a + b ∧ Reaches A a ∧ Reaches B b := by
  obtain ⟨P, p1, p2, p3, p4⟩ := got fp hfp umin umax A S hS hLA hdA huA hA
  obtain ⟨Q, q1, q2, q3, q4⟩ := got fp hfp umin umax B T hT hLB hdB huB hB
  obtain ⟨D, d1, d2, d3, d4, d5, d6⟩ := C100_polygons P Q p2 q2
  refine ⟨D, ?_, d2, d3, d4, fun a b ha hb => ?_, fun q hq => ?_⟩
  · unfold convolveSets
    rw [p1, q1]; exact d1
  · obtain ⟨X, hX, hXa⟩ := (p4 a).1 ha
    obtain ⟨Y, hY, hYb⟩ := (q4 b).1 hb
    refine (d5 X hX Y hY a b hXa hYb).imp_right ?_
    rintro ⟨u, v, g1, g2⟩
    refine ⟨u, v, g1, ?_⟩
    rcases g2 with ⟨g2, g3⟩ | ⟨g2, g3⟩
    · exact Or.inl ⟨p3.vertex hX g2, q3.boundary hY g3⟩
    · exact Or.inr ⟨p3.boundary hX g2, q3.vertex hY g3⟩
  · obtain ⟨X, hX, Y, hY, a, b, g1, g2, g3⟩ := d6 q hq
    have reach : ∀ {D : Data} {out : List Poly}, Outlined (D.map Prod.fst) out → (∀ q, 0 < depth D q ↔ ∃ P ∈ out, Inside P.outer P.holes q) →
        ∀ {X : Poly}, X ∈ out → ∀ {a}, Within (X.outer, X.holes) a → Reaches D a := by
      intro D out ho hi X hX a ha
      rcases ha with ha | ha
      · exact Or.inl ((hi a).2 ⟨X, hX, ha⟩)
      · obtain ⟨e, he, h⟩ := ho.boundary hX ha
        obtain ⟨x, hx, rfl⟩ := List.mem_map.1 he
        exact Or.inr ⟨x, hx, h⟩
    exact ⟨a, b, g1, reach p3 p4 hX g2, reach q3 q4 hY g3⟩

theorem lattice_sub {E F : List Edge} (h : ∀ e ∈ E, e ∈ F) (hF : OnLattice F) : OnLattice E := by
  refine ⟨fun a ha b hb => hF.1 a (h a ha) b (h b hb), fun p hp a ha => hF.2 p ?_ a (h a ha)⟩
  rcases hp with ⟨x, hx, g⟩ | ⟨x, hx, y, hy, g⟩
  · exact Or.inl ⟨x, h x hx, g⟩
  · exact Or.inr ⟨x, h x hx, y, h y hy, g⟩

/-- The diamond and the square meet the hypotheses; their sum is an octagon. -/
example : OnLattice (diamond.map Prod.fst) ∧ OnLattice (square.map Prod.fst) ∧ (∀ e ∈ diamond, Directed e.1) ∧ (∀ e ∈ square, Directed e.1) ∧ Closed diamond ∧ Closed square ∧
    (∀ e ∈ diamond ++ square, (-100 : Int) ≤ min e.1.1.2 e.1.2.2) ∧
    (convolveSets exactFP (-100) 100 diamond square).map (fun D => (decide (0 < depth D (6, 0)), decide (0 < depth D (4, 5)), depth D (6, 6))) = some (true, true, 0) :=
  ⟨lattice_sub (fun e he => by rw [List.map_append]; exact List.mem_append_left _ he) diamond_square.1,
    lattice_sub (fun e he => by rw [List.map_append]; exact List.mem_append_right _ he) diamond_square.1, by decide +kernel, by decide +kernel,
    (insertPoly_adds [] _ false).closed (fun v => rfl), (insertPoly_adds [] _ false).closed (fun v => rfl), by decide +kernel, by decide +kernel⟩

end Verif.Properties.Minkowski
