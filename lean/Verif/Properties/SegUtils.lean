import Verif.Proofs.SegUtils
/-!
# Cutting a list of segments at their intersections: `intersect_segments`
-/
namespace Verif.Properties.SegUtils
open Verif Verif.Arb Verif.Cut Verif.Spec Verif.Spec.Arb

/-- For every list of segments, and every arithmetic that keeps an ordinate within the extent of its segment: the
pieces with the index of a segment lead from its lower end to its upper end without a gap, have positive length and
lie in its bounding box. Indices increase, and every index is that of a segment. -/
theorem C78_pieces (fp : FP) (hfp : fp.Sane) (umin : Int) (S : List Edge) :
    (∀ i e, S[i]? = some e → Path (lower e) (upper e) (withId (intersectSegments fp umin S) i)) ∧
    (∀ x ∈ intersectSegments fp umin S, ∃ e, S[x.1]? = some e ∧ x.2.1 ≠ x.2.2 ∧
      min e.1.1 e.2.1 ≤ min x.2.1.1 x.2.2.1 ∧ max x.2.1.1 x.2.2.1 ≤ max e.1.1 e.2.1 ∧
      min e.1.2 e.2.2 ≤ min x.2.1.2 x.2.2.2 ∧ max x.2.1.2 x.2.2.2 ≤ max e.1.2 e.2.2) ∧
    (intersectSegments fp umin S).Pairwise (fun a b => a.1 ≤ b.1) := by
  rw [seg_eq]
  refine ⟨?_, ?_, segGo_sorted _ _ _⟩
  · intro i e h
    have := segGo_filter (divide fp umin (numb 0 S)) S 0 i e h
    rw [Nat.zero_add] at this
    rw [this, lower_lo, upper_hi]
    have hok := seg_ok hfp umin S h
    rw [Nat.zero_add] at hok
    obtain ⟨r, h1, h2⟩ := ord_ends hok
    rw [pieces_eq, h1, ← h2]
    exact chain_path _ _
  · intro x hx
    obtain ⟨j, e, h1, h2, h3⟩ := (segGo_mem _ _ _ _).1 hx
    have hok := seg_ok hfp umin S h1
    obtain ⟨s1, s2⟩ := ord_spec (e := e) hok.srt
    rw [pieces_eq] at h3
    obtain ⟨g1, g2, g3⟩ := chain_pairwise _ s1 _ h3
    have b1 := (inBox_iff _ _).1 (hok.box _ ((s2 _).1 g2))
    have b2 := (inBox_iff _ _).1 (hok.box _ ((s2 _).1 g3))
    refine ⟨e, by rw [h2, Nat.zero_add]; exact h1, ?_, by omega, by omega, by omega, by omega⟩
    intro h
    rw [h] at g1
    exact along_asymm e _ _ g1 g1

/-- The end a segment is given from does not matter. -/
theorem C78_direction (fp : FP) (umin : Int) (S T : List Edge) (h : Redirected S T) :
    intersectSegments fp umin T = intersectSegments fp umin S := by
  rw [← seg_nrm, ← seg_nrm fp umin S]
  congr 1
  induction h with
  | nil => rfl
  | cons h _ ih =>
    rw [List.map_cons, List.map_cons, ih]
    congr 1
    rcases h with rfl | rfl
    · rfl
    · exact nrm_swap _

/-- What the pieces satisfy when no segment is bent: those of a segment cover exactly its points, and two pieces that
are not the same have only end points in common. -/
def Cuts (S : List Edge) (out : List (Nat × Edge)) : Prop :=
  (∀ i e, S[i]? = some e → ∀ q, OnEdge e q ↔ ∃ p ∈ withId out i, OnEdge p q) ∧ Apart (out.map Prod.snd)

/-- Horizontal and vertical segments, in any number and position and with any overlaps, whatever the floating point
unit computes. -/
theorem C78_manhattan (fp : FP) (umin : Int) (S : List Edge) (hM : Manhattan S) (hn : ∀ e ∈ S, e.1 ≠ e.2)
    (hu : ∀ e ∈ S, umin ≤ min e.1.2 e.2.2) : Cuts S (intersectSegments fp umin S) :=
  exact_seg (manhattan_exact fp (nrm_manhattan hM) (nrm_dirs hn) (nrm_low hu))

/-- Two horizontal segments that overlap, given in different directions, and a vertical one that crosses both. -/
def tee : List Edge := [((0, 0), (9, 0)), ((12, 0), (4, 0)), ((6, 5), (6, -5))]

example : Manhattan tee ∧ (∀ e ∈ tee, e.1 ≠ e.2) ∧ (∀ e ∈ tee, (-100 : Int) ≤ min e.1.2 e.2.2) ∧
    intersectSegments exactFP (-100) tee = [(0, ((0, 0), (4, 0))), (0, ((4, 0), (6, 0))), (0, ((6, 0), (9, 0))),
      (1, ((4, 0), (6, 0))), (1, ((6, 0), (9, 0))), (1, ((9, 0), (12, 0))), (2, ((6, -5), (6, 0))), (2, ((6, 0), (6, 5)))] := by
  decide +kernel

/-- Segments at any angle that meet in lattice points, and pass through the unit square of such a point or of an end
point only if they pass through the point; the arithmetic has to be exact for lattice points. -/
theorem C78_lattice (fp : FP) (hfp : fp.Accurate) (umin : Int) (S : List Edge) (hL : OnLattice S) (hn : ∀ e ∈ S, e.1 ≠ e.2)
    (hu : ∀ e ∈ S, umin ≤ min e.1.2 e.2.2) : Cuts S (intersectSegments fp umin S) :=
  exact_seg (lattice_exact hfp (nrm_lattice hL) (nrm_dirs hn) (nrm_low hu))

/-- A falling diagonal and a horizontal segment through its middle. -/
def cross : List Edge := [((-3, 3), (3, -3)), ((-5, 0), (5, 0))]

example : OnLattice cross :=
  latticeTest_ok (J := [(0, 0), (-3, 3), (3, -3), (-5, 0), (5, 0)]) (by decide +kernel) (by decide +kernel)

example : intersectSegments exactFP (-100) cross =
    [(0, ((-3, 3), (0, 0))), (0, ((0, 0), (3, -3))), (1, ((-5, 0), (0, 0))), (1, ((0, 0), (5, 0)))] := by decide +kernel

/-- Segments at any angle and in any position, with exact arithmetic: two pieces that are not the same have only end
points in common; a piece joins end points or corners of intersections, and stays within a unit of its segment; and
every point of a segment is within a unit of one of its pieces. -/
theorem C78_snapped (fp : FP) (hfp : fp.Floor) (umin : Int) (S : List Edge) (hn : ∀ e ∈ S, e.1 ≠ e.2)
    (hu : ∀ e ∈ S, umin ≤ min e.1.2 e.2.2) :
    Apart ((intersectSegments fp umin S).map Prod.snd) ∧
    (∀ x ∈ intersectSegments fp umin S, ∃ e, S[x.1]? = some e ∧ Near x.2 e ∧ Hot S x.2.1 ∧ Hot S x.2.2) ∧
    ∀ i e, S[i]? = some e → ∀ z, OnEdge e z → ∃ p ∈ withId (intersectSegments fp umin S) i, ∃ q, OnEdge p q ∧
      q.1 ≤ z.1 ∧ z.1 < q.1 + 1 ∧ q.2 ≤ z.2 ∧ z.2 < q.2 + 1 := snap_seg hfp hn hu

/-- Three segments that meet pairwise between lattice points, in one unit square: all are moved to its corner. -/
def star : List Edge := [((0, 0), (10, 7)), ((10, 1), (0, 6)), ((5, -3), (6, 9))]

example : (∀ e ∈ star, e.1 ≠ e.2) ∧ (∀ e ∈ star, (-100 : Int) ≤ min e.1.2 e.2.2) ∧
    (intersectSegments exactFP (-100) star).map Prod.fst = [0, 0, 1, 1, 2, 2] := by decide +kernel

end Verif.Properties.SegUtils
