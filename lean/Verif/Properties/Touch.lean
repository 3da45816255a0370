import Verif.Proofs.TouchPopulate
import Verif.Spec.Touch
/-!
# C44: Manhattan connectivity extraction
-/
namespace Verif.Properties.Touch
open Verif.Spec Verif.BooleanOp Verif.Set90 Verif.Isotropy Verif.Touch

theorem near_floor (q : ℚ) : ∃ ε : ℚ, 0 < ε ∧ ∀ p : ℚ, |p - q| < ε → ((⌊p⌋ : ℤ) : ℚ) ≤ q ∧ q ≤ ((⌊p⌋ : ℤ) : ℚ) + 1 := by
  refine ⟨min ((⌊q⌋ : ℚ) + 1 - q) (q - ((⌈q⌉ : ℚ) - 1)), ?_, fun p hp => ?_⟩
  · have h1 := Int.lt_floor_add_one q
    have h2 := Int.ceil_lt_add_one q
    exact lt_min (by linarith) (by linarith)
  · rw [abs_lt, lt_min_iff, neg_lt] at hp
    obtain ⟨h1, h2, h3⟩ := hp
    rw [lt_min_iff] at h1
    constructor
    · have : p < (⌊q⌋ : ℚ) + 1 := by linarith
      have h4 : ⌊p⌋ < ⌊q⌋ + 1 := Int.floor_lt.mpr (by push_cast; exact this)
      have h5 : ((⌊p⌋ : ℤ) : ℚ) ≤ (⌊q⌋ : ℤ) := by exact_mod_cast (by omega : ⌊p⌋ ≤ ⌊q⌋)
      exact le_trans h5 (Int.floor_le q)
    · have : (⌈q⌉ : ℚ) - 1 ≤ p := by linarith [h1.2]
      have h4 : ⌈q⌉ - 1 ≤ ⌊p⌋ := Int.le_floor.mpr (by push_cast; exact this)
      have h5 : ((⌈q⌉ : ℤ) : ℚ) ≤ (⌊p⌋ : ℤ) + 1 := by exact_mod_cast (by omega : ⌈q⌉ ≤ ⌊p⌋ + 1)
      exact le_trans (Int.le_ceil q) h5

theorem approx_cell {q : ℚ} {a : Int} (h1 : (a : ℚ) ≤ q) (h2 : q ≤ (a : ℚ) + 1) {ε : ℚ} (hε : 0 < ε) : ∃ p : ℚ, |p - q| < ε ∧ ⌊p⌋ = a := by
  by_cases h : q < (a : ℚ) + 1
  · exact ⟨q, by simpa using hε, Int.floor_eq_iff.mpr ⟨h1, h⟩⟩
  · have hq : q = (a : ℚ) + 1 := le_antisymm h2 (not_lt.mp h)
    have hm : 0 < min (ε / 2) (1 / 2 : ℚ) := lt_min (by linarith) (by norm_num)
    have hm1 := min_le_left (ε / 2) (1 / 2 : ℚ)
    have hm2 := min_le_right (ε / 2) (1 / 2 : ℚ)
    refine ⟨q - min (ε / 2) (1 / 2), ?_, Int.floor_eq_iff.mpr ⟨by linarith, by linarith⟩⟩
    rw [sub_sub_cancel_left, abs_neg, abs_of_pos hm]
    linarith

theorem covers_floor (s : PSet) (p : ℚ × ℚ) : Covers s p ↔ Covers s ((⌊p.1⌋ : ℤ), (⌊p.2⌋ : ℤ)) := by
  unfold Covers depth
  simp only [cover_eq, Int.floor_intCast]

/-- The closed shape is the union of the closed covered cells. -/
theorem inClosure_iff (s : PSet) (q : ℚ × ℚ) : InClosure s q ↔
    ∃ a b : Int, Covers s (a, b) ∧ (a : ℚ) ≤ q.1 ∧ q.1 ≤ a + 1 ∧ (b : ℚ) ≤ q.2 ∧ q.2 ≤ b + 1 := by
  constructor
  · intro h
    obtain ⟨e1, p1, h1⟩ := near_floor q.1
    obtain ⟨e2, p2, h2⟩ := near_floor q.2
    obtain ⟨p, k1, k2, k3⟩ := h (min e1 e2) (lt_min p1 p2)
    have g1 := h1 p.1 (lt_of_lt_of_le k1 (min_le_left _ _))
    have g2 := h2 p.2 (lt_of_lt_of_le k2 (min_le_right _ _))
    exact ⟨⌊p.1⌋, ⌊p.2⌋, (covers_floor s p).mp k3, g1.1, g1.2, g2.1, g2.2⟩
  · rintro ⟨a, b, hc, h1, h2, h3, h4⟩ ε hε
    obtain ⟨x, k1, k2⟩ := approx_cell h1 h2 hε
    obtain ⟨y, k3, k4⟩ := approx_cell h3 h4 hε
    exact ⟨(x, y), k1, k3, by rw [covers_floor]; simpa only [k2, k4] using hc⟩

theorem touching_iff (s t : PSet) : Touching s t ↔
    ∃ x y x' y' : Int, Covers s (x, y) ∧ Covers t (x', y') ∧ x - 1 ≤ x' ∧ x' ≤ x + 1 ∧ y - 1 ≤ y' ∧ y' ≤ y + 1 := by
  unfold Touching
  simp only [inClosure_iff]
  constructor
  · rintro ⟨q, ⟨a, b, hs, h1, h2, h3, h4⟩, ⟨a', b', ht, h5, h6, h7, h8⟩⟩
    have e1 : (a : ℚ) ≤ a' + 1 := by linarith
    have e2 : (a' : ℚ) ≤ a + 1 := by linarith
    have e3 : (b : ℚ) ≤ b' + 1 := by linarith
    have e4 : (b' : ℚ) ≤ b + 1 := by linarith
    norm_cast at e1 e2 e3 e4
    exact ⟨a, b, a', b', hs, ht, by omega, by omega, by omega, by omega⟩
  · rintro ⟨x, y, x', y', hs, ht, h1, h2, h3, h4⟩
    refine ⟨((max x x' : ℤ), (max y y' : ℤ)), ⟨x, y, hs, ?_⟩, ⟨x', y', ht, ?_⟩⟩
    all_goals
      dsimp only
      refine ⟨?_, ?_, ?_, ?_⟩ <;> norm_cast <;> omega

/-- The cells of a set as the scan sees them. -/
theorem covers_cell (s : PSet) (a b : Int) : Covers s (a, b) ↔
    0 < coverZ s.data (if s.orient = VERTICAL then a else b) (if s.orient = VERTICAL then b else a) := by
  unfold Covers depth
  split_ifs <;> simp [cover_eq]

theorem cells_iff {ss : List PSet} {o : Nat} (ho : ∀ s ∈ ss, s.orient = o) {i : Nat} {x y : Int} :
    cells ss i x y ↔ ∃ s, ss[i]? = some s ∧ if o = VERTICAL then Covers s (x, y) else Covers s (y, x) := by
  unfold cells
  refine exists_congr fun s => and_congr_right fun hs => ?_
  have := ho s (List.mem_of_getElem? hs)
  rw [covers_cell, covers_cell, this]
  split_ifs <;> rfl

/-- C44. Insert any sets of one orientation and extract the graph: the calls succeed, and `j` is in the
neighbour set of `i` exactly when `i` and `j` are different and the sets with these numbers touch.
Missing: sets of different orientations, for which the claim is false (`C44_mixed_orientation_violated`). -/
theorem C44_connectivity_partial {umin umax : Int} (ss : List PSet) (h : ∀ s ∈ ss, Valid umin umax s) (o : Nat) (ho : ∀ s ∈ ss, s.orient = o) :
    ∃ c g, Conn.new.insertAll umax ss = some c ∧ c.extract = some g ∧
      ∀ i j, (i, j) ∈ g ↔ i ≠ j ∧ ∃ s t, ss[i]? = some s ∧ ss[j]? = some t ∧ Touching s t := by
  obtain ⟨c, e1, h1⟩ := insertAll_ok ss Conn.new [] connOk_new h
  rw [List.nil_append] at h1
  obtain ⟨g, e2, h2⟩ := extract_spec h1 h
  refine ⟨c, g, e1, e2, fun i j => ?_⟩
  rw [h2, meets_iff]
  refine and_congr_right fun _ => ?_
  simp only [cells_iff ho, touching_iff]
  by_cases hv : o = VERTICAL
  · simp only [hv, if_true]
    constructor
    · rintro ⟨x, y, x', y', ⟨s, hs, hc⟩, ⟨t, ht, hd⟩, h3⟩
      exact ⟨s, t, hs, ht, x, y, x', y', hc, hd, h3⟩
    · rintro ⟨s, t, hs, ht, x, y, x', y', hc, hd, h3⟩
      exact ⟨x, y, x', y', ⟨s, hs, hc⟩, ⟨t, ht, hd⟩, h3⟩
  · simp only [hv, if_false]
    constructor
    · rintro ⟨x, y, x', y', ⟨s, hs, hc⟩, ⟨t, ht, hd⟩, h3, h4, h5, h6⟩
      exact ⟨s, t, hs, ht, y, x, y', x', hc, hd, h5, h6, h3, h4⟩
    · rintro ⟨s, t, hs, ht, x, y, x', y', hc, hd, h3, h4, h5, h6⟩
      exact ⟨y, x, y', x', ⟨s, hs, hc⟩, ⟨t, ht, hd⟩, h5, h6, h3, h4⟩

/-- C44: the graph is symmetric and has no loops. -/
theorem C44_symmetric_irreflexive {umin umax : Int} (ss : List PSet) (h : ∀ s ∈ ss, Valid umin umax s) {c : Conn} {g : Graph}
    (hc : Conn.new.insertAll umax ss = some c) (hg : c.extract = some g) :
    (∀ i j, (i, j) ∈ g → (j, i) ∈ g) ∧ (∀ i, (i, i) ∉ g) ∧ (∀ i j, (i, j) ∈ g → i < ss.length ∧ j < ss.length) := by
  obtain ⟨c', e1, h1⟩ := insertAll_ok ss Conn.new [] connOk_new h
  rw [hc] at e1
  obtain rfl := Option.some.inj e1
  obtain ⟨g', e2, h2⟩ := extract_spec h1 (by simpa using h)
  rw [hg] at e2
  obtain rfl := Option.some.inj e2
  rw [List.nil_append] at h2
  refine ⟨fun i j => ?_, fun i => ?_, fun i j => ?_⟩
  · rw [h2, h2, meets_iff, meets_iff]
    rintro ⟨hne, x, y, x', y', k1, k2, k3, k4, k5, k6⟩
    exact ⟨hne.symm, x', y', x, y, k2, k1, by omega, by omega, by omega, by omega⟩
  · rw [h2, meets_iff]
    exact fun hh => hh.1 rfl
  · rw [h2, meets_iff]
    rintro ⟨-, x, y, x', y', ⟨s, k1, -⟩, ⟨t, k2, -⟩, -⟩
    exact ⟨(List.getElem?_eq_some_iff.mp k1).1, (List.getElem?_eq_some_iff.mp k2).1⟩

/-- A rectangle as a set of the given orientation, built as a program would. -/
def rectSet (o : Nat) (x1 x2 y1 y2 : Int) : PSet := (PSet.mk0 o).insertRect ⟨⟨x1, x2⟩, ⟨y1, y2⟩⟩ false

theorem rectSet_valid {o : Nat} (ho : o = HORIZONTAL ∨ o = VERTICAL) {x1 x2 y1 y2 : Int} (h : 0 ≤ x1 ∧ x1 ≤ x2 ∧ x2 ≤ 10 ∧ 0 ≤ y1 ∧ y1 ≤ y2 ∧ y2 ≤ 10) :
    Valid 0 10 (rectSet o x1 x2 y1 y2) :=
  reach_valid (Reach.insertRect ⟨⟨x1, x2⟩, ⟨y1, y2⟩⟩ false (Reach.new _ ho) (by unfold RectIn; dsimp only; omega))

theorem covers_rectSet {o : Nat} (ho : o = HORIZONTAL ∨ o = VERTICAL) {x1 x2 y1 y2 : Int} {a b : Int} (hx : x1 ≤ x2 := by omega) (hy : y1 ≤ y2 := by omega) :
    Covers (rectSet o x1 x2 y1 y2) (a, b) ↔ x1 ≤ a ∧ a < x2 ∧ y1 ≤ b ∧ b < y2 := by
  rw [covers_cell]
  rcases ho with rfl | rfl
  · have e1 : (rectSet HORIZONTAL x1 x2 y1 y2).orient = HORIZONTAL := rfl
    have e2 : (rectSet HORIZONTAL x1 x2 y1 y2).data = [⟨y1, x1, 1⟩, ⟨y1, x2, -1⟩, ⟨y2, x1, -1⟩, ⟨y2, x2, 1⟩] := rfl
    rw [e1, e2, if_neg (by decide), if_neg (by decide)]
    simp only [coverZ, List.map_cons, List.map_nil, List.sum_cons, List.sum_nil]
    split_ifs <;> omega
  · have e1 : (rectSet VERTICAL x1 x2 y1 y2).orient = VERTICAL := rfl
    have e2 : (rectSet VERTICAL x1 x2 y1 y2).data = [⟨x1, y1, 1⟩, ⟨x1, y2, -1⟩, ⟨x2, y1, -1⟩, ⟨x2, y2, 1⟩] := rfl
    rw [e1, e2, if_pos rfl, if_pos rfl]
    simp only [coverZ, List.map_cons, List.map_nil, List.sum_cons, List.sum_nil]
    split_ifs <;> omega

/-- C44 fails for mixed orientations: the scan reads the stored coordinates of every set the same way,
although a HORIZONTAL set stores them swapped. A horizontal set holding the square `[0,1] x [5,6]` and a
vertical one holding `[5,6] x [0,1]` are linked although the squares are far apart. -/
theorem C44_mixed_orientation_violated :
    ∃ ss : List PSet, (∀ s ∈ ss, Valid 0 10 s) ∧ ∃ c g, Conn.new.insertAll 10 ss = some c ∧ c.extract = some g ∧
      (0, 1) ∈ g ∧ ∀ s t, ss[0]? = some s → ss[1]? = some t → ¬ Touching s t := by
  have hv : ∀ s ∈ [rectSet HORIZONTAL 0 1 5 6, rectSet VERTICAL 5 6 0 1], Valid 0 10 s := by
    intro s hs
    simp only [List.mem_cons, List.not_mem_nil, or_false] at hs
    rcases hs with rfl | rfl
    · exact rectSet_valid (Or.inl rfl) (by omega)
    · exact rectSet_valid (Or.inr rfl) (by omega)
  refine ⟨_, hv, ?_⟩
  obtain ⟨c, e1, h1⟩ := insertAll_ok _ Conn.new [] connOk_new hv
  obtain ⟨g, e2, h2⟩ := extract_spec h1 hv
  refine ⟨c, g, e1, e2, ?_, ?_⟩
  · rw [h2, meets_iff]
    exact ⟨by decide, 5, 0, 5, 0, ⟨_, rfl, by decide⟩, ⟨_, rfl, by decide⟩, by omega, by omega, by omega, by omega⟩
  · intro s t hs ht
    obtain rfl := Option.some.inj hs
    obtain rfl := Option.some.inj ht
    rw [touching_iff]
    rintro ⟨x, y, x', y', k1, k2, k3, k4, k5, k6⟩
    rw [covers_rectSet (Or.inl rfl)] at k1
    rw [covers_rectSet (Or.inr rfl)] at k2
    omega

example : ∀ s ∈ [rectSet VERTICAL 0 2 0 2, rectSet VERTICAL 2 4 2 4, rectSet VERTICAL 6 7 0 9], Valid 0 10 s := by
  intro s hs
  simp only [List.mem_cons, List.not_mem_nil, or_false] at hs
  rcases hs with rfl | rfl | rfl <;> exact rectSet_valid (Or.inr rfl) (by omega)

/-- The first two of these squares share one corner and are linked, the third is apart. -/
example : Touching (rectSet VERTICAL 0 2 0 2) (rectSet VERTICAL 2 4 2 4) ∧ ¬ Touching (rectSet VERTICAL 0 2 0 2) (rectSet VERTICAL 6 7 0 9) := by
  rw [touching_iff, touching_iff]
  constructor
  · exact ⟨1, 1, 2, 2, (covers_rectSet (Or.inr rfl)).mpr (by omega), (covers_rectSet (Or.inr rfl)).mpr (by omega), by omega⟩
  · rintro ⟨x, y, x', y', h1, h2, h3⟩
    rw [covers_rectSet (Or.inr rfl)] at h1 h2
    omega

end Verif.Properties.Touch
