import Verif.Proofs.ArbExtract
/-!
# `connectivity_extraction` for polygon sets at any angle

Polygon sets are inserted one after the other and numbered from 0; `extract` gives a graph on the numbers. The
specification is `RegionsTouch` (`Spec/Touch.lean`): the closed regions share a point.
-/
namespace Verif.Properties.ArbTouch
open Verif Verif.Arb Verif.Cut Verif.PolySet Verif.ArbMerge Verif.Spec Verif.Spec.Arb
open Verif.Properties.Cut (Obj build total outlines)

/-- The region of the inserted set with number `i`: the points its objects cover. No points for other numbers. The
flag of a set tells whether it is cleaned when it is inserted. -/
def regionOf (sets : List (Bool × List Obj)) (i : Int) (q : ℚ × ℚ) : Prop := 0 ≤ i ∧ ∃ s, sets[i.toNat]? = some s ∧ total s.2 q > 0

/-- Inserting sets of objects. -/
def data (sets : List (Bool × List Obj)) : List (Bool × Data) := sets.map (fun s => (s.1, build s.2))

/-- All outlines. -/
def allOutlines (sets : List (Bool × List Obj)) : List (List (Int × Int)) := outlines (sets.flatMap Prod.snd)

theorem at_data (sets : List (Bool × List Obj)) (k : Int) : ArbMerge.at' 0 (data sets) k = if 0 ≤ k then (sets[k.toNat]?).map (fun s => (s.1, build s.2)) else none := by
  unfold ArbMerge.at' data
  by_cases h : 0 ≤ k
  · rw [if_pos h, if_pos h, List.getElem?_map, sub_zero]
  · rw [if_neg h, if_neg h]

theorem region_data (sets : List (Bool × List Obj)) : region (data sets) = regionOf sets := by
  funext k q
  unfold region regionOf
  rw [at_data]
  by_cases h : 0 ≤ k
  · rw [if_pos h]
    cases hs : sets[k.toNat]? with
    | none => simp
    | some s => simp [h, (Properties.Cut.build_spec s.2).1 q]
  · rw [if_neg h]; simp [h]

theorem build_flat (sets : List (Bool × List Obj)) : (data sets).flatMap Prod.snd = build (sets.flatMap Prod.snd) := by
  induction sets with
  | nil => rfl
  | cons s r ih =>
    rw [List.flatMap_cons, build_append, ← ih]; rfl

theorem data_closed (sets : List (Bool × List Obj)) : ∀ d ∈ data sets, Closed d.2 := by
  intro d hd
  obtain ⟨s, _, rfl⟩ := List.mem_map.1 hd
  exact (Properties.Cut.build_spec s.2).2.1

/-- Sets at any angle or rectilinear, when cutting is exact. -/
theorem of_kind {fp : FP} {umin : Int} (umax : Int) {P : List HE → Prop} (hK : Kind fp umin P) {sets : List (Bool × List Obj)}
    (hP : P ((build (sets.flatMap Prod.snd)).map Prod.fst)) (hne : ∃ i q, regionOf sets i q) :
    ∃ g, extract fp umin umax (data sets) = some g ∧ ∀ i j, (i, j) ∈ g ↔ i ≠ j ∧ RegionsTouch (regionOf sets i) (regionOf sets j) := by
  rw [← region_data]
  refine extract_exact umax hK (by rw [build_flat]; exact hP) (data_closed sets) ?_
  obtain ⟨i, q, _, s, hs, hq⟩ := hne
  exact ⟨(s.1, build s.2), List.mem_map.2 ⟨s, List.mem_of_getElem? hs, rfl⟩, q, by rw [(Properties.Cut.build_spec s.2).1]; exact hq⟩

/-- Rectilinear sets, for every arithmetic: two sets are linked exactly if their closed regions share a point. -/
theorem C80_rectilinear_partial (fp : FP) (umin umax : Int) (sets : List (Bool × List Obj))
    (hM : ∀ P ∈ allOutlines sets, ∀ e ∈ edges P, e.1.1 = e.2.1 ∨ e.1.2 = e.2.2)
    (hu : ∀ P ∈ allOutlines sets, ∀ p ∈ P, umin ≤ p.2) (hne : ∃ i q, regionOf sets i q) :
    ∃ g, extract fp umin umax (data sets) = some g ∧ ∀ i j, (i, j) ∈ g ↔ i ≠ j ∧ RegionsTouch (regionOf sets i) (regionOf sets j) := by
  obtain ⟨_, _, b3, b4⟩ := Properties.Cut.build_spec (sets.flatMap Prod.snd)
  refine of_kind umax (kind_manhattan fp umin) ⟨fun a ha => ?_, fun a ha => ?_, fun a ha => ?_⟩ hne
  all_goals obtain ⟨e, he, rfl⟩ := List.mem_map.1 ha
  · obtain ⟨P, hP, g | g⟩ := b4 e he
    · exact hM P hP _ g
    · have := hM P hP _ g
      simp only [Prod.fst_swap, Prod.snd_swap] at this
      omega
  · exact b3 e he
  · exact Properties.Cut.build_low hu e he

/-- Sets at any angle whose edges meet in lattice points: the same, if the arithmetic is exact for lattice points. -/
theorem C80_lattice_partial (fp : FP) (hfp : fp.Accurate) (umin umax : Int) (sets : List (Bool × List Obj))
    (hL : OnLattice ((build (sets.flatMap Prod.snd)).map Prod.fst))
    (hu : ∀ P ∈ allOutlines sets, ∀ p ∈ P, umin ≤ p.2) (hne : ∃ i q, regionOf sets i q) :
    ∃ g, extract fp umin umax (data sets) = some g ∧ ∀ i j, (i, j) ∈ g ↔ i ≠ j ∧ RegionsTouch (regionOf sets i) (regionOf sets j) := by
  obtain ⟨_, _, b3, _⟩ := Properties.Cut.build_spec (sets.flatMap Prod.snd)
  refine of_kind umax (kind_lattice hfp umin) ⟨hL, fun a ha => ?_, fun a ha => ?_⟩ hne
  all_goals obtain ⟨e, he, rfl⟩ := List.mem_map.1 ha
  · exact b3 e he
  · exact Properties.Cut.build_low hu e he

/-- No outline of the set with number `i` meets the square of side 2 above and to the right of the point. -/
def ClearOf (sets : List (Bool × List Obj)) (i : Int) (q : ℚ × ℚ) : Prop :=
  0 ≤ i → ∀ s, sets[i.toNat]? = some s → ∀ P ∈ outlines s.2, Clear2 (edges P) q

/-- Sets at any angle with exact arithmetic: the graph is the touching graph of regions that agree with the inserted
ones except within two units of their own outlines. -/
theorem C80_snapped_partial (fp : FP) (hfp : fp.Floor) (umin umax : Int) (sets : List (Bool × List Obj))
    (hu : ∀ P ∈ allOutlines sets, ∀ p ∈ P, umin ≤ p.2) (hne : ∃ i q, regionOf sets i q ∧ ClearOf sets i q) :
    ∃ g, extract fp umin umax (data sets) = some g ∧ ∃ R : Int → ℚ × ℚ → Prop,
      (∀ i q, ClearOf sets i q → (R i q ↔ regionOf sets i q)) ∧ ∀ i j, (i, j) ∈ g ↔ i ≠ j ∧ RegionsTouch (R i) (R j) := by
  have hcl : ∀ s q, (∀ P ∈ outlines s, Clear2 (edges P) q) → Clear2 ((build s).map Prod.fst) q := by
    intro s q h a ha z hz
    obtain ⟨e, he, rfl⟩ := List.mem_map.1 ha
    obtain ⟨P, hP, g | g⟩ := (Properties.Cut.build_spec s).2.2.2 e he
    · exact h P hP _ g z hz
    · exact h P hP _ g z (onEdge_swap hz)
  have hlow : ∀ s ∈ sets, ∀ e ∈ build s.2, umin ≤ min e.1.1.2 e.1.2.2 := by
    intro s hs
    refine Properties.Cut.build_low (fun P hP => hu P ?_)
    obtain ⟨o, ho, h⟩ := List.mem_flatMap.1 hP
    exact List.mem_flatMap.2 ⟨o, List.mem_flatMap.2 ⟨s, hs, ho⟩, h⟩
  obtain ⟨g, g1, R, r1, r2, r3⟩ := extract_snap hfp (umin := umin) umax (ds := data sets)
    (by intro d hd e he
        obtain ⟨s, hs, rfl⟩ := List.mem_map.1 hd
        exact ⟨(Properties.Cut.build_spec s.2).2.2.1 e he, hlow s hs e he⟩) (data_closed sets)
    (by obtain ⟨i, q, ⟨hi, s, hs, hq⟩, hc⟩ := hne
        exact ⟨(s.1, build s.2), List.mem_map.2 ⟨s, List.mem_of_getElem? hs, rfl⟩, q, by rw [(Properties.Cut.build_spec s.2).1]; exact hq,
          hcl _ _ (hc hi s hs)⟩)
  refine ⟨g, g1, R, fun i q hc => ?_, r1⟩
  by_cases hi : 0 ≤ i
  · cases hs : sets[i.toNat]? with
    | none =>
      have := r3 i (by rw [at_data, if_pos hi, hs]; rfl) q
      unfold regionOf
      simp [hs, this]
    | some s =>
      rw [r2 i (s.1, build s.2) (by rw [at_data, if_pos hi, hs]; rfl) q (hcl _ _ (hc hi s hs))]
      unfold regionOf
      simp [hs, hi, (Properties.Cut.build_spec s.2).1 q]
  · have := r3 i (by rw [at_data, if_neg hi]) q
    unfold regionOf
    simp [hi, this]

/-- With exact arithmetic: sets that have a common point away from their outlines are linked, and linked sets have
inserted numbers. -/
theorem C80_overlap (fp : FP) (hfp : fp.Floor) (umin umax : Int) (sets : List (Bool × List Obj))
    (hu : ∀ P ∈ allOutlines sets, ∀ p ∈ P, umin ≤ p.2) (hne : ∃ i q, regionOf sets i q ∧ ClearOf sets i q) :
    ∃ g, extract fp umin umax (data sets) = some g ∧
      (∀ i j q, i ≠ j → regionOf sets i q → ClearOf sets i q → regionOf sets j q → ClearOf sets j q → (i, j) ∈ g) ∧
      (∀ i j, (i, j) ∈ g → i ≠ j ∧ (j, i) ∈ g ∧ 0 ≤ i ∧ i.toNat < sets.length) := by
  obtain ⟨g, g1, R, r1, r2⟩ := C80_snapped_partial fp hfp umin umax sets hu hne
  refine ⟨g, g1, fun i j q hij a b c d => (r2 i j).2 ⟨hij, q, ?_, ?_⟩, fun i j h => ?_⟩
  · exact fun ε he => ⟨q, by simpa using he, by simpa using he, (r1 i q b).2 a⟩
  · exact fun ε he => ⟨q, by simpa using he, by simpa using he, (r1 j q d).2 c⟩
  · obtain ⟨h1, q, h2, h3⟩ := (r2 i j).1 h
    refine ⟨h1, (r2 j i).2 ⟨h1.symm, q, h3, h2⟩, ?_⟩
    by_contra hc
    have hc' : 0 ≤ i → sets[i.toNat]? = none := by
      intro hi
      rw [List.getElem?_eq_none_iff]
      by_contra hlt
      exact hc ⟨hi, by omega⟩
    obtain ⟨p, _, _, hp⟩ := h2 1 one_pos
    have hcl : ClearOf sets i p := by
      intro hi s hs
      rw [hc' hi] at hs; cases hs
    rw [r1 i p hcl] at hp
    obtain ⟨hi, s, hs, _⟩ := hp
    rw [hc' hi] at hs; cases hs

/-- The guard is missing: when all inserted sets are empty, the scan reads the first element of an empty vector. So
`interact` with an empty set on an empty set has undefined behaviour. -/
theorem C80_empty_violated (fp : FP) (umin umax : Int) (n : Nat) : extract fp umin umax (data (List.replicate n (true, []))) = none := by
  have h : ∀ (n : Nat) (i : Int), nodes fp umin umax i (data (List.replicate n (true, []))) = some [] := by
    intro n
    induction n with
    | zero => intro i; rfl
    | succ n ih =>
      intro i
      have h0 : nodeData fp umin umax (true, build []) = some [] := rfl
      show nodes fp umin umax i ((true, build []) :: data (List.replicate n (true, []))) = some []
      rw [nodes, h0, ih]; rfl
  unfold extract
  rw [h]; rfl

/-- A frame, a bar that ends in its hole, a square at its corner, and one apart. -/
def sample90 : List (Bool × List Obj) :=
  [(true, [(([(0, 0), (0, 9), (9, 9), (9, 0)], [[(3, 3), (6, 3), (6, 6), (3, 6)]]), false)]),
   (true, [(([(4, 4), (5, 4), (5, 5), (4, 5)], []), false)]),
   (false, [(([(9, 9), (12, 9), (12, 12), (9, 12)], []), false)]),
   (true, [(([(5, 5), (5, 10), (13, 10), (13, 5)], []), false)])]

example : (∀ P ∈ allOutlines sample90, ∀ e ∈ edges P, e.1.1 = e.2.1 ∨ e.1.2 = e.2.2) ∧ (∀ P ∈ allOutlines sample90, ∀ p ∈ P, (-100 : Int) ≤ p.2) ∧
    regionOf sample90 0 (1, 1) := by
  refine ⟨by decide +kernel, by decide +kernel, by decide, _, rfl, by decide +kernel⟩

example : (extract exactFP (-100) 100 (data sample90)).map List.dedup =
    some [(1, 3), (3, 1), (0, 2), (2, 0), (0, 3), (3, 0), (2, 3), (3, 2)] := by decide +kernel

/-- A diamond, a square that touches a side of it with a corner, and a triangle apart. -/
def sampleL : List (Bool × List Obj) :=
  [(true, [(([(0, -4), (4, 0), (0, 4), (-4, 0)], []), false)]), (true, [(([(2, 2), (3, 2), (3, 3), (2, 3)], []), false)]),
   (true, [(([(-4, -4), (-2, -4), (-4, -2)], []), false)])]

example : (extract exactFP (-100) 100 (data sampleL)).map List.dedup = some [(0, 1), (1, 0)] := by decide +kernel

example : OnLattice ((build (sampleL.flatMap Prod.snd)).map Prod.fst) ∧ (∀ P ∈ allOutlines sampleL, ∀ p ∈ P, (-100 : Int) ≤ p.2) ∧
    regionOf sampleL 0 (0, 0) :=
  ⟨latticeTest_ok (J := [(-9, 3), (-8, -4), (-8, 2), (-7, 3), (-6, 2), (-5, -1), (-4, -8), (-4, -4), (-4, -2), (-4, 0), (-4, 2), (-4, 3), (-4, 8), (-2, -4), (-2, 2), (-1, -5), (-1, 3), (0, -4), (0, 4), (1, 3), (2, -8), (2, -6), (2, -4), (2, -2), (2, 2), (2, 3), (2, 6), (3, -9), (3, -7), (3, -4), (3, -1), (3, 1), (3, 2), (3, 3), (3, 7), (4, 0), (6, 2), (7, 3), (8, -4)]) (by decide +kernel) (by decide +kernel), by decide +kernel, by decide, _, rfl, by decide +kernel⟩

/-- Two triangles whose edges cross between lattice points. -/
def sampleT : List (Bool × List Obj) := [(true, Properties.Cut.tri1), (false, Properties.Cut.tri2)]

theorem clear2_of {e : Edge} {x y : Int}
    (h : 0 < (e.2.1 - e.1.1) * (y - e.1.2) - (e.2.2 - e.1.2) * (x - e.1.1) + min 0 (2 * (e.2.1 - e.1.1)) + min 0 (2 * (e.1.2 - e.2.2))) :
    ∀ z, OnEdge e z → ¬ ((x : ℚ) ≤ z.1 ∧ z.1 < x + 2 ∧ (y : ℚ) ≤ z.2 ∧ z.2 < y + 2) := by
  rintro z ⟨t, _, _, h1, h2⟩ ⟨a, b, c, d⟩
  have h' : (0 : ℚ) < (e.2.1 - e.1.1) * (y - e.1.2) - (e.2.2 - e.1.2) * (x - e.1.1) + min 0 (2 * ((e.2.1 : ℚ) - e.1.1)) + min 0 (2 * ((e.1.2 : ℚ) - e.2.2)) := by
    exact_mod_cast h
  have l : ((e.2.1 : ℚ) - e.1.1) * (z.2 - e.1.2) - (e.2.2 - e.1.2) * (z.1 - e.1.1) = 0 := by rw [h1, h2]; ring
  have m1 : min 0 (2 * ((e.2.1 : ℚ) - e.1.1)) ≤ (e.2.1 - e.1.1) * (z.2 - y) := by
    rcases le_total 0 ((e.2.1 : ℚ) - e.1.1) with g | g
    · exact le_trans (min_le_left _ _) (mul_nonneg g (by linarith))
    · exact le_trans (min_le_right _ _) (by nlinarith)
  have m2 : min 0 (2 * ((e.1.2 : ℚ) - e.2.2)) ≤ (e.1.2 - e.2.2) * (z.1 - x) := by
    rcases le_total 0 ((e.1.2 : ℚ) - e.2.2) with g | g
    · exact le_trans (min_le_left _ _) (mul_nonneg g (by linarith))
    · exact le_trans (min_le_right _ _) (by nlinarith)
  linarith

example : (∀ P ∈ allOutlines sampleT, ∀ p ∈ P, (-100 : Int) ≤ p.2) ∧ ∀ i, i = 0 ∨ i = 1 → regionOf sampleT i (8, 7) ∧ ClearOf sampleT i (8, 7) := by
  have key : ∀ s ∈ sampleT, ∀ P ∈ outlines s.2, ∀ e ∈ edges P,
      0 < (e.2.1 - e.1.1) * (7 - e.1.2) - (e.2.2 - e.1.2) * (8 - e.1.1) + min 0 (2 * (e.2.1 - e.1.1)) + min 0 (2 * (e.1.2 - e.2.2)) := by
    decide +kernel
  refine ⟨by decide +kernel, fun i hi => ⟨?_, fun _ s hs P hP e he z hz hc => clear2_of (x := 8) (y := 7) (key s (List.mem_of_getElem? hs) P hP e he) z hz (by simpa using hc)⟩⟩
  rcases hi with rfl | rfl
  · exact ⟨by decide, _, rfl, by decide +kernel⟩
  · exact ⟨by decide, _, rfl, by decide +kernel⟩

end Verif.Properties.ArbTouch
