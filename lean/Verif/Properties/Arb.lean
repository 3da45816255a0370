import Verif.Proofs.ArbOrder
/-!
# Boolean operations on edges at arbitrary angles

The edges of both operands, each with its operand (0 or 1) and its count, after they have been cut at
their intersections: two different edges meet only in common end points.
-/
namespace Verif.Properties.Arb
open Verif.Arb Verif.Spec Verif.Spec.Arb

/-- A diamond (operand 0) and its right half (operand 1). -/
def sample : List Ev :=
  [(((0, 0), (4, 4)), (0, -1)), (((0, 0), (4, -4)), (0, 1)), (((4, 4), (8, 0)), (0, -1)), (((4, -4), (8, 0)), (0, 1)),
   (((4, -4), (4, 4)), (1, 1)), (((4, 4), (8, 0)), (1, -1)), (((4, -4), (8, 0)), (1, 1))]

theorem sample_good : (∀ e ∈ sample, Directed e.1) ∧ Planar (sample.map Prod.fst) ∧ (∀ k, Closed (layer sample k)) ∧
    (∀ e ∈ sample, e.2.1 = 0 ∨ e.2.1 = 1) := by
  refine ⟨by decide +kernel, planar_of_side (by decide +kernel), ?_, by decide +kernel⟩
  intro k
  by_cases h0 : k = 0
  · subst h0; exact closed_of_vertices (by decide +kernel)
  by_cases h1 : k = 1
  · subst h1; exact closed_of_vertices (by decide +kernel)
  · rw [layer_none (by decide +kernel) h0 h1]; intro v; rfl

/-- The scan over the edges, in any order that sorts them, terminates with edges whose depth is 1 at the points
of the result and 0 elsewhere: or, and, exclusive or, difference of the two operands, each operand being
the points of positive depth. -/
theorem C68_boolean_region (op : Nat) (umin umax : Int) (E evs : List Ev) (hd : ∀ e ∈ E, Directed e.1) (hP : Planar (E.map Prod.fst))
    (hC : ∀ k, Closed (layer E k)) (hk : ∀ e ∈ E, e.2.1 = 0 ∨ e.2.1 = 1) (hp : evs.Perm E)
    (hs : evs.Pairwise (fun a b => lessVertexData b a = false)) :
    ∃ out, scan (boolOut op) umin umax evs = some out ∧
      ∀ q, depth out q = if inResult op (depth (layer E 0) q > 0) (depth (layer E 1) q > 0) then 1 else 0 := by
  obtain ⟨P, out, h1, h2⟩ := scan_all ⟨hd, hP, hC⟩ hp hs (boolOut op) umin umax
  refine ⟨out, h1, fun q => ?_⟩
  have h3 := h2.bool (fun e he => hd e (hp.subset he)) (fun e he => hk e (hp.subset he))
  rw [depth_out (good_perm hp.symm ⟨hd, hP, hC⟩) h3 q, boolVal_eq, depth_perm (layer_perm hp 0), depth_perm (layer_perm hp 1)]

/-- The edges can be sorted: on edges that run left to right, or upwards when vertical, the order used for
sorting is a strict weak order, and sorting gives a rearrangement in which no edge is less than an earlier
one. -/
theorem C68_sort (E : List Ev) (hd : ∀ e ∈ E, Directed e.1) :
    (∀ a ∈ E, lessVertexData a a = false) ∧
    (∀ a ∈ E, ∀ b ∈ E, lessVertexData a b = true → lessVertexData b a = false) ∧
    (∀ a ∈ E, ∀ b ∈ E, ∀ c ∈ E, lessVertexData b a = false → lessVertexData c b = false → lessVertexData c a = false) ∧
    (sortEv E).Perm E ∧ (sortEv E).Pairwise (fun a b => lessVertexData b a = false) := by
  refine ⟨fun a ha => ?_, fun a ha b hb => lvd_asymm (hd a ha) (hd b hb), fun a ha b hb c hc => lvd_negtrans (hd a ha) (hd b hb) (hd c hc),
    sortEv_spec E hd⟩
  by_contra h
  rw [Bool.not_eq_false] at h
  have := lvd_asymm (hd a ha) (hd a ha) h
  rw [h] at this; simp at this

/-- What is written is in the form that is read again: the edges are edges of the operands, no edge is
written twice, every count is 1 or -1, different edges meet only in common end points, and the edges form
closed curves. -/
theorem C69_boolean_canonical (op : Nat) (umin umax : Int) (E evs : List Ev) (hd : ∀ e ∈ E, Directed e.1) (hP : Planar (E.map Prod.fst))
    (hC : ∀ k, Closed (layer E k)) (hk : ∀ e ∈ E, e.2.1 = 0 ∨ e.2.1 = 1) (hp : evs.Perm E)
    (hs : evs.Pairwise (fun a b => lessVertexData b a = false)) :
    ∃ out, scan (boolOut op) umin umax evs = some out ∧ (∀ a ∈ out, a.1 ∈ E.map Prod.fst ∧ (a.2 = 1 ∨ a.2 = -1)) ∧
      (out.map Prod.fst).Nodup ∧ Planar (out.map Prod.fst) ∧ Closed out := by
  have hG : Good evs := good_perm hp.symm ⟨hd, hP, hC⟩
  obtain ⟨P, out, h1, h2⟩ := scan_all ⟨hd, hP, hC⟩ hp hs (boolOut op) umin umax
  replace h2 := h2.bool (fun e he => hd e (hp.subset he)) (fun e he => hk e (hp.subset he))
  obtain ⟨n1, n2⟩ := out_edges h2
  have hsub : ∀ a ∈ out, a.1 ∈ E.map Prod.fst := fun a ha => (hp.map _).mem_iff.1 (n2 a ha).1
  refine ⟨out, h1, fun a ha => ⟨hsub a ha, ?_⟩, n1, ?_, closed_out hG h2⟩
  · obtain ⟨_, g2, g3⟩ := n2 a ha
    rcases N_unit (boolVal op) evs a.1 with g | g | g
    · rw [← g2] at g; exact absurd g g3
    · left; rw [g2, g]
    · right; rw [g2, g]
  · intro e he f hf
    obtain ⟨a, ha, rfl⟩ := List.mem_map.1 he
    obtain ⟨b, hb, rfl⟩ := List.mem_map.1 hf
    exact hP _ (hsub a ha) _ (hsub b hb)

/-- Nothing is written exactly when the result is empty. In particular the exclusive or writes nothing
exactly when both operands are the same region, which is how `equivalence` compares two sets. -/
theorem C70_empty_iff (op : Nat) (umin umax : Int) (E evs : List Ev) (hd : ∀ e ∈ E, Directed e.1) (hP : Planar (E.map Prod.fst))
    (hC : ∀ k, Closed (layer E k)) (hk : ∀ e ∈ E, e.2.1 = 0 ∨ e.2.1 = 1) (hp : evs.Perm E)
    (hs : evs.Pairwise (fun a b => lessVertexData b a = false)) :
    scan (boolOut op) umin umax evs = some [] ↔ ∀ q, ¬ inResult op (depth (layer E 0) q > 0) (depth (layer E 1) q > 0) := by
  obtain ⟨out, h1, h2⟩ := C68_boolean_region op umin umax E evs hd hP hC hk hp hs
  obtain ⟨out', k1, k2, k3, k4, k5⟩ := C69_boolean_canonical op umin umax E evs hd hP hC hk hp hs
  rw [h1] at k1
  have := Option.some_inj.1 k1
  subst this
  rw [h1]
  constructor
  · intro h q hc
    have := h2 q
    rw [Option.some_inj.1 h, if_pos hc] at this
    simp [depth] at this
  · intro h
    rw [depth_zero_nil (L := out) ?_ k4 k5 k3 ?_ ?_]
    · intro a ha
      obtain ⟨e, he, hea⟩ := List.mem_map.1 (k2 a ha).1
      rw [← hea]; exact hd e he
    · intro a ha; rcases (k2 a ha).2 with g | g <;> rw [g] <;> decide
    · intro q; rw [h2 q, if_neg (h q)]

theorem C70_equivalence (umin umax : Int) (E evs : List Ev) (hd : ∀ e ∈ E, Directed e.1) (hP : Planar (E.map Prod.fst))
    (hC : ∀ k, Closed (layer E k)) (hk : ∀ e ∈ E, e.2.1 = 0 ∨ e.2.1 = 1) (hp : evs.Perm E)
    (hs : evs.Pairwise (fun a b => lessVertexData b a = false)) :
    scan (boolOut 2) umin umax evs = some [] ↔ ∀ q, (depth (layer E 0) q > 0 ↔ depth (layer E 1) q > 0) := by
  rw [C70_empty_iff 2 umin umax E evs hd hP hC hk hp hs]
  refine forall_congr' fun q => ?_
  show ¬ ((depth (layer E 0) q > 0 ∧ ¬ depth (layer E 1) q > 0) ∨ (depth (layer E 1) q > 0 ∧ ¬ depth (layer E 0) q > 0)) ↔ _
  tauto

-- The hypotheses hold for the diamond and its right half, and the difference is the left half.
example : sortScan 3 (-100) 100 sample = some [(((0, 0), (4, -4)), 1), (((0, 0), (4, 4)), -1), (((4, -4), (4, 4)), -1)] := by
  decide +kernel

example : ∃ out, scan (boolOut 3) (-100) 100 (sortEv sample) = some out ∧
    ∀ q, depth out q = if inResult 3 (depth (layer sample 0) q > 0) (depth (layer sample 1) q > 0) then 1 else 0 :=
  C68_boolean_region 3 (-100) 100 sample _ sample_good.1 sample_good.2.1 sample_good.2.2.1 sample_good.2.2.2
    (C68_sort sample sample_good.1).2.2.2.1 (C68_sort sample sample_good.1).2.2.2.2

example : depth (layer sample 0) (2, 0) = 1 ∧ depth (layer sample 1) (2, 0) = 0 ∧ depth (layer sample 1) (5, 1) = 1 := by decide +kernel

example : ¬ scan (boolOut 2) (-100) 100 (sortEv sample) = some [] := by
  rw [C70_equivalence (-100) 100 sample _ sample_good.1 sample_good.2.1 sample_good.2.2.1 sample_good.2.2.2
    (C68_sort sample sample_good.1).2.2.2.1 (C68_sort sample sample_good.1).2.2.2.2]
  intro h
  have := h (2, 0)
  revert this
  decide +kernel

end Verif.Properties.Arb
