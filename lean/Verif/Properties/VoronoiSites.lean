import Verif.Proofs.VoronoiSites
/-!
# C38, C39, C48, C57: the Voronoi orientation test, the order of sites, the bit-fields
-/
namespace Verif.Properties.VoronoiSites
set_option linter.unusedSimpArgs false
open Verif.Machine Verif.Segment Verif.Voronoi Verif.Spec

/-! ### C38 -/

/-- C38: for any three 32-bit points the orientation test never overflows and returns the sign of
the exact determinant: `LEFT` (1), `COLLINEAR` (0) or `RIGHT` (-1). -/
theorem C38_orientation_exact (p q r : Int × Int) (hp : P32 p) (hq : P32 q) (hr : P32 r) :
    evalPts p q r = some (cross p q p r).sign := evalPts_eq hp hq hr

/-- C38: the value behind the test, in the form the arc-distance predicate uses it (the segment
direction against the vector from the segment start to the point), is the exact determinant. -/
theorem C38_value_exact (p q r : Int × Int) (hp : P32 p) (hq : P32 q) (hr : P32 r) :
    robustCross (q.1 - p.1) (q.2 - p.2) (r.1 - p.1) (r.2 - p.2) = some (cross p q p r) := by
  simp only [P32, I32] at hp hq hr
  rw [robustCross_eq (by rw [abs_lt]; omega) (by rw [abs_lt]; omega) (by rw [abs_lt]; omega) (by rw [abs_lt]; omega)]
  have hb := triangle_bound (m := 2 ^ 32 - 1) (a := p.1 - q.1) (b := p.2 - q.2) (c := q.1 - r.1) (d := q.2 - r.2)
    (by rw [abs_le]; omega) (by rw [abs_le]; omega) (by rw [abs_le]; omega) (by rw [abs_le]; omega)
    (by rw [abs_le]; omega) (by rw [abs_le]; omega)
  have e : (p.1 - q.1) * (q.2 - r.2) - (p.2 - q.2) * (q.1 - r.1) = cross p q p r := by unfold cross; ring
  have e' : (q.1 - p.1) * (r.2 - p.2) - (q.2 - p.2) * (r.1 - p.1) = cross p q p r := rfl
  rw [e] at hb
  rw [e', u64_id (abs_nonneg _) (by omega), Int.sign_mul_abs]

-- the extreme corners of the coordinate range
example : evalPts (-2 ^ 31, -2 ^ 31) (2 ^ 31 - 1, -2 ^ 31) (2 ^ 31 - 1, 2 ^ 31 - 1) = some LEFT := by decide +kernel
example : P32 (-2 ^ 31, -2 ^ 31) ∧ P32 (2 ^ 31 - 1, -2 ^ 31) ∧ P32 (2 ^ 31 - 1, 2 ^ 31 - 1) := by
  unfold P32; decide

/-! ### C57 -/

/-- C57 fails as stated: two perfectly valid 32-bit segments whose directions are far from parallel
are reported parallel, because the sum of the two products is exactly `2^64` and wraps to zero. -/
theorem C57_directions_violated :
    ∃ s t : Seg, S32 s ∧ S32 t ∧ cross s.lo s.hi t.lo t.hi ≠ 0 ∧
      evalDifs (s.hi.1 - s.lo.1) (s.hi.2 - s.lo.2) (t.hi.1 - t.lo.1) (t.hi.2 - t.lo.2) = some COLLINEAR :=
  ⟨⟨(-2 ^ 31, 0), (2 ^ 31 - 1, -7)⟩, ⟨(0, -2 ^ 31), (1227133513, 2 ^ 31 - 1)⟩, by unfold S32 P32; decide, by unfold S32 P32; decide,
    by decide, by decide +kernel⟩

/-- C57, what holds: the only failure is a determinant of exactly `±2^64`; for all other pairs of
32-bit segments the four-argument test returns the sign of the cross product of the directions. -/
theorem C57_directions_partial (s t : Seg) (hs : S32 s) (ht : S32 t) (hne : |cross s.lo s.hi t.lo t.hi| ≠ 2 ^ 64) :
    evalDifs (s.hi.1 - s.lo.1) (s.hi.2 - s.lo.2) (t.hi.1 - t.lo.1) (t.hi.2 - t.lo.2) =
      some (cross s.lo s.hi t.lo t.hi).sign := by
  simp only [S32, P32, I32] at hs ht
  unfold evalDifs
  rw [robustCross_eq (by rw [abs_lt]; omega) (by rw [abs_lt]; omega) (by rw [abs_lt]; omega) (by rw [abs_lt]; omega)]
  have e : (s.hi.1 - s.lo.1) * (t.hi.2 - t.lo.2) - (s.hi.2 - s.lo.2) * (t.hi.1 - t.lo.1) = cross s.lo s.hi t.lo t.hi := rfl
  have bd (a b : Int) (ha : |a| ≤ 2 ^ 32 - 1) (hb : |b| ≤ 2 ^ 32 - 1) : |a * b| ≤ (2 ^ 32 - 1) * (2 ^ 32 - 1) := by
    have := abs_nonneg a; have := abs_nonneg b
    rw [abs_mul]; nlinarith
  have B1 := bd (s.hi.1 - s.lo.1) (t.hi.2 - t.lo.2) (by rw [abs_le]; omega) (by rw [abs_le]; omega)
  have B2 := bd (s.hi.2 - s.lo.2) (t.hi.1 - t.lo.1) (by rw [abs_le]; omega) (by rw [abs_le]; omega)
  have B := abs_sub ((s.hi.1 - s.lo.1) * (t.hi.2 - t.lo.2)) ((s.hi.2 - s.lo.2) * (t.hi.1 - t.lo.1))
  rw [e] at B ⊢
  generalize cross s.lo s.hi t.lo t.hi = z at *
  simp only [Option.bind_eq_bind, Option.bind_some, Option.pure_def, Option.some.injEq, evalSign_eq]
  unfold u64
  rcases lt_trichotomy z 0 with h | h | h
  · rw [abs_of_neg h] at *
    rw [Int.sign_eq_neg_one_of_neg h, Int.sign_eq_neg_one_of_neg]; omega
  · simp [h]
  · rw [abs_of_pos h] at *
    rw [Int.sign_eq_one_of_pos h, Int.sign_eq_one_of_pos]; omega

example : evalDifs (2 ^ 32 - 1) (-7) 1227133514 (2 ^ 32 - 1) = some LEFT := by decide +kernel

/-! ### C48: bit-fields -/

/-- C48: after any history of colour assignments the five low bits of the word (source category of a
cell, linear and primary flags of an edge) are those it was created with. -/
theorem C48_color_keeps_attributes (w : Nat) (colors : List Nat) :
    cellCategory (colors.foldl setColor w) = cellCategory w ∧
    isLinear (colors.foldl setColor w) = isLinear w ∧ isCurved (colors.foldl setColor w) = isCurved w ∧
    isPrimary (colors.foldl setColor w) = isPrimary w ∧ isSecondary (colors.foldl setColor w) = isSecondary w ∧
    containsPoint (colors.foldl setColor w) = containsPoint w ∧
    containsSegment (colors.foldl setColor w) = containsSegment w := by
  have step (w c : Nat) : setColor w c % 32 = w % 32 := by rw [setColor_eq]; omega
  have h : colors.foldl setColor w % 32 = w % 32 := by
    induction colors generalizing w with
    | nil => rfl
    | cons c r ih => rw [List.foldl_cons, ih, step]
  generalize colors.foldl setColor w = w' at h
  have e5 : cellCategory w' = cellCategory w := by simp only [cellCategory, and31]; exact h
  have e1 : w' &&& 0x1 = w &&& 0x1 := by rw [and1, and1]; omega
  have e2 : w' &&& 0x2 = w &&& 0x2 := by rw [and2, and2]; omega
  simp only [isLinear, isCurved, isPrimary, isSecondary, containsPoint, containsSegment, e1, e2, e5, and_self]

/-- C48: the colour read back is the last one assigned, if it fits in the 59 bits left for it. -/
theorem C48_color_roundtrip (w : Nat) (colors : List Nat) (c : Nat) (hc : c < 2 ^ 59) :
    getColor ((colors ++ [c]).foldl setColor w) = c := by
  rw [List.foldl_append, List.foldl_cons, List.foldl_nil, setColor_eq, getColor, Nat.shiftRight_eq_div_pow]
  omega

/-- C48: an edge created linear or primary says so, and no other. -/
theorem C48_edge_attributes (linear primary : Bool) (colors : List Nat) :
    isLinear (colors.foldl setColor (edgeWord linear primary)) = linear ∧
    isCurved (colors.foldl setColor (edgeWord linear primary)) = !linear ∧
    isPrimary (colors.foldl setColor (edgeWord linear primary)) = primary ∧
    isSecondary (colors.foldl setColor (edgeWord linear primary)) = !primary := by
  obtain ⟨-, h1, h2, h3, h4, -⟩ := C48_color_keeps_attributes (edgeWord linear primary) colors
  rw [h1, h2, h3, h4]
  clear h1 h2 h3 h4
  revert linear primary; decide

example : getColor (setColor (setColor 9 77) (2 ^ 59 - 1)) = 2 ^ 59 - 1 ∧
    containsSegment (setColor 9 77) = true ∧ containsPoint (setColor 2 77) = true := by decide +kernel

/-- C48: every site the builder holds after any history of insertions carries the index of the
input it came from and the category that tells its role in it. -/
theorem C48_site_source (inputs : List Input) (s : Site) (hs : s ∈ (insertAll inputs).sites) :
    (∃ p, inputs[s.initial]? = some (.point p) ∧ s.p0 = p ∧ s.p1 = p ∧ s.category = SINGLE_POINT) ∨
    (∃ p q, inputs[s.initial]? = some (.segment p q) ∧
      ((s.p0 = p ∧ s.p1 = p ∧ s.category = SEGMENT_START_POINT) ∨
       (s.p0 = q ∧ s.p1 = q ∧ s.category = SEGMENT_END_POINT) ∨
       ((p.1 < q.1 ∨ p.1 = q.1 ∧ p.2 < q.2) ∧ s.p0 = p ∧ s.p1 = q ∧ s.category = INITIAL_SEGMENT) ∨
       (¬ (p.1 < q.1 ∨ p.1 = q.1 ∧ p.2 < q.2) ∧ s.p0 = q ∧ s.p1 = p ∧ s.category = REVERSE_SEGMENT))) := by
  have idx : ∀ inputs : List Input, (insertAll inputs).index = inputs.length := by
    intro inputs
    induction inputs using List.reverseRecOn with
    | nil => rfl
    | append_singleton l a ih =>
      rw [insertAll, List.foldl_append, ← insertAll, List.foldl_cons, List.foldl_nil]
      cases a <;> simp [Builder.insert, Builder.insertPoint, Builder.insertSegment, ih]
  induction inputs using List.reverseRecOn with
  | nil => simp [insertAll] at hs
  | append_singleton l a ih =>
    rw [insertAll, List.foldl_append, ← insertAll, List.foldl_cons, List.foldl_nil] at hs
    have lift : ∀ {x : Input}, l[s.initial]? = some x → (l ++ [a])[s.initial]? = some x := by
      intro x hx
      rw [List.getElem?_append_left]
      · exact hx
      · exact (List.getElem?_eq_some_iff.1 hx).1
    have last : (l ++ [a])[l.length]? = some a := by simp
    have less (p q : Int × Int) : pointLess p q = true ↔ (p.1 < q.1 ∨ p.1 = q.1 ∧ p.2 < q.2) := by
      unfold pointLess; split_ifs <;> simp <;> omega
    cases a with
    | point p =>
      simp only [Builder.insert, Builder.insertPoint, List.mem_append, List.mem_singleton] at hs
      rcases hs with hs | hs
      · exact (ih hs).imp (Exists.imp fun _ h => ⟨lift h.1, h.2⟩)
          (Exists.imp fun _ => Exists.imp fun _ h => ⟨lift h.1, h.2⟩)
      · refine Or.inl ⟨p, ?_, ?_⟩ <;> rw [hs]
        · simpa only [Site.setCategory, idx] using last
        · exact ⟨rfl, rfl, by simp [Site.setCategory, Site.category, SINGLE_POINT, SEGMENT_START_POINT, SEGMENT_END_POINT,
            INITIAL_SEGMENT, REVERSE_SEGMENT]⟩
    | segment p q =>
      simp only [Builder.insert, Builder.insertSegment, List.mem_append, List.mem_cons, List.not_mem_nil, or_false] at hs
      rcases hs with hs | hs | hs | hs
      · exact (ih hs).imp (Exists.imp fun _ h => ⟨lift h.1, h.2⟩)
          (Exists.imp fun _ => Exists.imp fun _ h => ⟨lift h.1, h.2⟩)
      · refine Or.inr ⟨p, q, ?_, Or.inl ?_⟩ <;> rw [hs]
        · simpa only [Site.setCategory, idx] using last
        · exact ⟨rfl, rfl, by simp [Site.setCategory, Site.category, SINGLE_POINT, SEGMENT_START_POINT, SEGMENT_END_POINT,
            INITIAL_SEGMENT, REVERSE_SEGMENT]⟩
      · refine Or.inr ⟨p, q, ?_, Or.inr (Or.inl ?_)⟩ <;> rw [hs]
        · simpa only [Site.setCategory, idx] using last
        · exact ⟨rfl, rfl, by simp [Site.setCategory, Site.category, SINGLE_POINT, SEGMENT_START_POINT, SEGMENT_END_POINT,
            INITIAL_SEGMENT, REVERSE_SEGMENT]⟩
      · by_cases h : pointLess p q = true
        · rw [if_pos h] at hs
          refine Or.inr ⟨p, q, ?_, Or.inr (Or.inr (Or.inl ⟨(less p q).1 h, ?_⟩))⟩ <;> rw [hs]
          · simpa only [Site.setCategory, idx] using last
          · exact ⟨rfl, rfl, by simp [Site.setCategory, Site.category, SINGLE_POINT, SEGMENT_START_POINT, SEGMENT_END_POINT,
            INITIAL_SEGMENT, REVERSE_SEGMENT]⟩
        · rw [if_neg h] at hs
          refine Or.inr ⟨p, q, ?_, Or.inr (Or.inr (Or.inr ⟨fun h' => h ((less p q).2 h'), ?_⟩))⟩ <;> rw [hs]
          · simpa only [Site.setCategory, idx] using last
          · exact ⟨rfl, rfl, by simp [Site.setCategory, Site.category, SINGLE_POINT, SEGMENT_START_POINT, SEGMENT_END_POINT,
            INITIAL_SEGMENT, REVERSE_SEGMENT]⟩

/-- C48: turning a site around keeps its category and its source. -/
theorem C48_inverse_keeps_category (s : Site) :
    s.inverse.category = s.category ∧ s.inverse.initial = s.initial ∧ s.inverse.sorted = s.sorted ∧
    s.inverse.isSegment = s.isSegment ∧ s.inverse.inverse = s := by
  refine ⟨?_, rfl, rfl, ?_, ?_⟩
  · simp only [Site.category, Site.inverse, and31]
    exact xor32_mod s.flags
  · simp only [Site.isSegment, Site.inverse, bne_comm]
  · cases s; simp [Site.inverse, Nat.xor_assoc]

/-- C48: the cell of a site, coloured any number of times, says it contains a point exactly when the
site is one, and a segment exactly when the site is one, provided no segment of zero length was
inserted. -/
theorem C48_contains_agrees (inputs : List Input) (hz : ∀ p, Input.segment p p ∉ inputs) (s : Site)
    (hs : s ∈ (insertAll inputs).sites) (colors : List Nat) :
    (containsPoint (colors.foldl setColor s.category) = true ↔ s.p0 = s.p1) ∧
    (containsSegment (colors.foldl setColor s.category) = true ↔ s.p0 ≠ s.p1) := by
  obtain ⟨-, -, -, -, -, h1, h2⟩ := C48_color_keeps_attributes s.category colors
  rw [h1, h2]
  rcases C48_site_source inputs s hs with ⟨p, h, e0, e1, c⟩ | ⟨p, q, h, ⟨e0, e1, c⟩ | ⟨e0, e1, c⟩ | ⟨-, e0, e1, c⟩ | ⟨-, e0, e1, c⟩⟩ <;>
    rw [c, e0, e1]
  · simp [containsPoint, containsSegment, belongs, cellCategory, SINGLE_POINT]
  · simp [containsPoint, containsSegment, belongs, cellCategory, SEGMENT_START_POINT]
  · simp [containsPoint, containsSegment, belongs, cellCategory, SEGMENT_END_POINT]
  all_goals
    have hne : p ≠ q := by
      rintro rfl
      exact hz p (List.mem_of_getElem? h)
    simp [containsPoint, containsSegment, belongs, cellCategory, INITIAL_SEGMENT, REVERSE_SEGMENT, hne, hne.symm]

/-- C48: the proviso is needed: the third site of a zero-length segment is a point whose cell claims
to contain a segment. -/
theorem C48_zero_length_segment :
    ∃ s ∈ (insertAll [.segment (3, 4) (3, 4)]).sites, s.p0 = s.p1 ∧ containsSegment s.category = true := by
  decide +kernel

example : ∀ p, Input.segment p p ∉ [Input.segment (0, 0) (5, 0), .point (2, 3), .segment (5, 0) (5, -2)] := by
  intro p h
  simp only [List.mem_cons, Input.segment.injEq, List.not_mem_nil, reduceCtorEq, or_false, false_or] at h
  rcases h with ⟨rfl, h⟩ | ⟨rfl, h⟩ <;> revert h <;> decide

/-! ### C39: the order of sites -/

/-- C39: the comparison of two sites with 32-bit coordinates never overflows and decides the order
of the specification. -/
theorem C39_decides (s t : Site) (hs : ValidSite s) (ht : ValidSite t) :
    ∃ b, siteLess s t = some b ∧ (b = true ↔ Before s t) := siteLess_before hs ht

/-- C39: that order is a strict weak order: irreflexive, transitive, and "neither before the other"
is transitive. -/
theorem C39_strict_weak_order (s t u : Site) :
    ¬ Before s s ∧ (Before s t → Before t u → Before s u) ∧
    (¬ Before s t ∧ ¬ Before t s → ¬ Before t u ∧ ¬ Before u t → ¬ Before s u ∧ ¬ Before u s) := by
  simp only [before_iff]
  refine ⟨lt_irrefl _, lt_trans, fun h1 h2 => ?_⟩
  have e1 : key s = key t := le_antisymm (not_lt.1 h1.2) (not_lt.1 h1.1)
  have e2 : key t = key u := le_antisymm (not_lt.1 h2.2) (not_lt.1 h2.1)
  rw [e1, e2]; exact ⟨lt_irrefl _, lt_irrefl _⟩

/-- C39: two sites neither of which comes before the other are the same point or segment, or two
segments with the same start and the same direction. -/
theorem C39_equivalent_sites (s t : Site) (hs : ValidSite s) (ht : ValidSite t) (h1 : ¬ Before s t) (h2 : ¬ Before t s) :
    SameSite s t ∨ Overlapping s t := equivalent hs ht h1 h2

/-- C39: for every history of insertions whose segments do not overlap from a common start, and
every order `std::sort` may leave the sites in, the queue that the sweep processes contains every
inserted site, each exactly once, in strictly increasing order, and the sites are numbered by their
position. -/
theorem C39_queue (inputs : List Input) (sorted : List Site)
    (hv : ∀ s ∈ (insertAll inputs).sites, P32 s.p0 ∧ P32 s.p1)
    (ho : ∀ s ∈ (insertAll inputs).sites, ∀ t ∈ (insertAll inputs).sites, ¬ Overlapping s t)
    (hsort : IsSortOf (insertAll inputs).sites sorted) :
    (∀ s ∈ (insertAll inputs).sites, ∃ t ∈ siteQueue sorted, SameSite s t) ∧
    (∀ t ∈ siteQueue sorted, ∃ s ∈ (insertAll inputs).sites, t = { s with sorted := t.sorted }) ∧
    (siteQueue sorted).Pairwise Before ∧
    (siteQueue sorted).Pairwise (fun s t => ¬ SameSite s t) ∧
    (∀ (k : Nat) (s : Site), (siteQueue sorted)[k]? = some s → s.sorted = k) := by
  have valid : ∀ s ∈ (insertAll inputs).sites, ValidSite s := by
    intro s hs
    refine ⟨(hv s hs).1, (hv s hs).2, ?_⟩
    rcases C48_site_source inputs s hs with ⟨p, h, e0, e1, c⟩ | ⟨p, q, h, ⟨e0, e1, c⟩ | ⟨e0, e1, c⟩ | ⟨l, e0, e1, c⟩ | ⟨l, e0, e1, c⟩⟩ <;>
      rw [e0, e1] <;> omega
  obtain ⟨hp, hs⟩ := hsort
  have mem : ∀ s, s ∈ sorted ↔ s ∈ (insertAll inputs).sites := fun s => hp.mem_iff
  have hs' : sorted.Pairwise (fun a b => ¬ Before b a) := by
    refine hs.imp_of_mem fun {a b} ha hb h => ?_
    obtain ⟨v, e, i⟩ := siteLess_before (valid b ((mem b).1 hb)) (valid a ((mem a).1 ha))
    intro hB
    exact h (by rw [e, i.2 hB])
  have hq := unique_strict (fun s h => valid s ((mem s).1 h)) (fun s h t h' => ho s ((mem s).1 h) t ((mem t).1 h')) hs'
  refine ⟨fun s h => ?_, fun t h => ?_, ?_, ?_, ?_⟩
  · obtain ⟨t, ht, e⟩ := unique_covers ((mem s).2 h)
    obtain ⟨k, hk⟩ := indexFrom_mem 0 ht
    exact ⟨_, hk, e⟩
  · obtain ⟨s, h1, h2⟩ := mem_indexFrom h
    exact ⟨s, (mem s).1 (unique_sub h1), h2⟩
  · exact indexFrom_pairwise 0 (fun _ _ _ _ h => h) hq
  · refine indexFrom_pairwise 0 (fun _ _ _ _ h => h) (hq.imp fun {a b} h e => ?_)
    rw [before_iff, key_same e] at h
    exact lt_irrefl _ h
  · intro k s h
    simpa using indexFrom_get h

/-- C39: the proviso is needed: with two segments overlapping from the same start the sort may leave
the same segment twice in the queue. -/
theorem C39_overlap_needed :
    ∃ inputs sorted, IsSortOf (insertAll inputs).sites sorted ∧
      ¬ (siteQueue sorted).Pairwise (fun s t => ¬ SameSite s t) := by
  refine ⟨[.segment (0, 0) (10, 0), .segment (0, 0) (5, 0), .segment (0, 0) (10, 0)],
    [⟨(0, 0), (0, 0), 0, 0, 1⟩, ⟨(0, 0), (0, 0), 0, 1, 1⟩, ⟨(0, 0), (0, 0), 0, 2, 1⟩,
     ⟨(0, 0), (10, 0), 0, 0, 8⟩, ⟨(0, 0), (5, 0), 0, 1, 8⟩, ⟨(0, 0), (10, 0), 0, 2, 8⟩,
     ⟨(5, 0), (5, 0), 0, 1, 2⟩, ⟨(10, 0), (10, 0), 0, 0, 2⟩, ⟨(10, 0), (10, 0), 0, 2, 2⟩], ?_, ?_⟩
  · constructor
    · decide +kernel
    · decide +kernel
  · unfold SameSite; decide +kernel

-- the hypotheses of `C39_queue` on a path with a shared corner, a vertical segment and a lone point
example : let inputs := [Input.segment (0, 0) (5, 5), .segment (5, 5) (5, -2), .point (0, 0), .segment (5, -2) (0, 0)]
    (∀ s ∈ (insertAll inputs).sites, P32 s.p0 ∧ P32 s.p1) ∧
    (∀ s ∈ (insertAll inputs).sites, ∀ t ∈ (insertAll inputs).sites, ¬ Overlapping s t) ∧
    IsSortOf (insertAll inputs).sites
      [⟨(0, 0), (0, 0), 0, 0, 1⟩, ⟨(0, 0), (0, 0), 0, 2, 0⟩, ⟨(0, 0), (0, 0), 0, 3, 2⟩, ⟨(0, 0), (5, 5), 0, 0, 8⟩,
       ⟨(0, 0), (5, -2), 0, 3, 9⟩, ⟨(5, -2), (5, -2), 0, 1, 2⟩, ⟨(5, -2), (5, -2), 0, 3, 1⟩, ⟨(5, -2), (5, 5), 0, 1, 9⟩,
       ⟨(5, 5), (5, 5), 0, 0, 2⟩, ⟨(5, 5), (5, 5), 0, 1, 1⟩] := by
  unfold IsSortOf P32 Overlapping PointSite
  refine ⟨by decide +kernel, by decide +kernel, by decide +kernel, by decide +kernel⟩

end Verif.Properties.VoronoiSites
