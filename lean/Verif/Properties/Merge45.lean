import Verif.Proofs.Merge45
import Verif.Properties.Deg45
/-!
# C87: merging the properties of 45-degree layers
-/
namespace Verif.Properties.Merge45
open Verif.Deg45 Verif.Set45 Verif.Spec.Deg45 Verif.Spec.Merge45 Verif.Merge45

variable {umin umax bmin : Int}

/-- C87 (part): after any number of layers has been inserted, each under a property, the scan of `property_merge_45` never meets
the exception, and the entry it makes for every nonempty set of properties covers, at twice the scale and once each, exactly the points that are
covered by the layers of these properties and no others. Missing: the entry is then turned into polygons for the error rectangles and scaled down. -/
theorem C87_merge_partial (hu : umin ≤ umax) (hb : bmin ≤ umin * 2) {L : List (S45 × Int)} (hL : ∀ a ∈ L, Valid umin umax a.1)
    {t : TSD} (e : insertAll umin umax L [] = some t) :
    ∃ out, merge bmin t = .ok out ∧ ∀ K, K ≠ [] → ∀ q,
      (LayersAt L (half q) K → depth (entry out K).data q = 1) ∧ (¬ LayersAt L (half q) K → depth (entry out K).data q = 0) := by
  have d : Data bmin L t := insertAll_data hu hb L [] [] t (data_nil bmin) hL e
  have h : ∀ K, K ≠ [] → ∃ out, merge bmin t = .ok out ∧ ∀ q,
      (LayersAt L (half q) K → depth (entry out K).data q = 1) ∧ (¬ LayersAt L (half q) K → depth (entry out K).data q = 0) := by
    intro K hK
    have h0 : (fun c : Cnt => decide (c.keys = K)) 0 = false := decide_eq_false (fun h => hK h.symm)
    obtain ⟨o, e1, e2⟩ := perform_spec d (g := fun c : Cnt => decide (c.keys = K)) h0
    rw [← merge_bind hK, perform_bind] at e1
    rcases e3 : merge bmin t with er | out
    · unfold merge at e3
      rw [e3] at e1
      cases e1
    · unfold merge at e3
      rw [e3] at e1
      refine ⟨out, rfl, fun q => ?_⟩
      have e4 : out.flatMap (fun a => if a.1 = K then [a.2] else []) = o := by injection e1
      rw [entry_data, e4, e2]
      have hk := keys_layers (ready_data d).1 q K
      constructor
      · intro h; unfold gi; rw [if_pos (by simpa using hk.2 h)]
      · intro h; unfold gi; rw [if_neg (by simpa using fun h' => h (hk.1 h'))]
  obtain ⟨out, e1, -⟩ := h [0] (by simp)
  refine ⟨out, e1, fun K hK => ?_⟩
  obtain ⟨out', e2, h2⟩ := h K hK
  rw [e1] at e2
  injection e2 with e2
  rw [e2]; exact h2

/-- C87: inserting succeeds if every layer is rectilinear or has the corners of its diagonals on the grid. -/
theorem C87_insert_succeeds (hu : umin ≤ umax) {L : List (S45 × Int)} (hL : ∀ a ∈ L, Valid umin umax a.1 ∧ (a.1.manh = true ∨ OnGrid a.1.data)) :
    ∃ t, insertAll umin umax L [] = some t := insertAll_ok hu L [] hL

/-- Two triangles that share the middle of a square. -/
def exL : List (S45 × Int) := [(S45.new.insertPoly [(0, 0), (8, 0), (8, 8)] false, 1), (S45.new.insertPoly [(0, 8), (8, 8), (8, 0)] false, 2)]

theorem exL_ok : ∀ a ∈ exL, Valid (-100) 100 a.1 := by
  intro a ha
  simp only [exL, List.mem_cons, List.not_mem_nil, or_false] at ha
  rcases ha with rfl | rfl
  · exact Deg45.C82_programs_valid (p := .poly .new [(0, 0), (8, 0), (8, 8)] [] false) (by norm_num) (by decide +kernel) rfl
  · exact Deg45.C82_programs_valid (p := .poly .new [(0, 8), (8, 8), (8, 0)] [] false) (by norm_num) (by decide +kernel) rfl

example : ∃ t out, insertAll (-100) 100 exL [] = some t ∧ merge (-1000) t = .ok out ∧ depth (entry out [1, 2]).data (14, 8) = 1 ∧
    depth (entry out [1, 2]).data (8, 4) = 0 := by
  obtain ⟨t, e⟩ := C87_insert_succeeds (umin := -100) (umax := 100) (by norm_num) (L := exL) (fun a ha => ⟨exL_ok a ha, by
    simp only [exL, List.mem_cons, List.not_mem_nil, or_false] at ha
    rcases ha with rfl | rfl <;> right <;> unfold OnGrid <;> decide +kernel⟩)
  obtain ⟨out, e1, h⟩ := C87_merge_partial (bmin := -1000) (by norm_num) (by norm_num) exL_ok e
  have c1 : ∀ q, (∀ k : Int, k ∈ [1, 2] ↔ ∃ s, (s, k) ∈ exL ∧ Covers s q) ↔ Covers exL[0].1 q ∧ Covers exL[1].1 q := by
    intro q
    constructor
    · intro h
      obtain ⟨s, h1, h2⟩ := (h 1).1 (by decide)
      obtain ⟨s', h1', h2'⟩ := (h 2).1 (by decide)
      simp [exL] at h1 h1'
      subst h1; subst h1'
      exact ⟨h2, h2'⟩
    · rintro ⟨h1, h2⟩ k
      constructor
      · intro hk
        simp only [List.mem_cons, List.not_mem_nil, or_false] at hk
        rcases hk with rfl | rfl
        · exact ⟨_, by simp [exL], h1⟩
        · exact ⟨_, by simp [exL], h2⟩
      · rintro ⟨s, h3, -⟩
        simp [exL] at h3
        simp only [List.mem_cons, List.not_mem_nil, or_false]
        tauto
  refine ⟨t, out, e, e1, (h [1, 2] (by simp) _).1 ⟨by decide, (c1 _).2 ⟨?_, ?_⟩⟩, (h [1, 2] (by simp) _).2 (fun hl => ?_)⟩
  · unfold Covers half; decide +kernel
  · unfold Covers half; decide +kernel
  · have := ((c1 _).1 hl.2).2
    revert this
    unfold Covers half; decide +kernel

/-- C87 fails in the code: the entry for the common part of two triangles is marked clean and sorted though its vertices are not in order,
and the formation of polygons that `merge` begins with then erases an element of its scanline twice, which is undefined. -/
theorem C87_merge_violated : ∃ t out, insertAll (-100) 100 exL [] = some t ∧ merge (-1000) t = .ok out ∧
    (entry out [1, 2]).dirty = false ∧ (entry out [1, 2]).unsorted = false ∧ ¬ (entry out [1, 2]).data.Pairwise Spec.Deg45.Lex ∧
    Form45.form (entry out [1, 2]).data = none := by
  have h : (match insertAll (-100) 100 exL [] with
    | some t => match merge (-1000) t with
      | .ok out => decide ((entry out [1, 2]).dirty = false ∧ (entry out [1, 2]).unsorted = false ∧
          ((entry out [1, 2]).data.map Prod.fst = [(8, 8), (8, 8), (16, 0), (16, 16), (16, 0), (16, 16)]) ∧ (Form45.form (entry out [1, 2]).data).isNone = true)
      | .error _ => false
    | none => false) = true := by decide +kernel
  rcases e1 : insertAll (-100) 100 exL [] with _ | t
  · rw [e1] at h; cases h
  · rw [e1] at h
    dsimp only at h
    rcases e2 : merge (-1000) t with _ | out
    · rw [e2] at h; cases h
    · rw [e2] at h
      have h := of_decide_eq_true h
      refine ⟨t, out, rfl, e2, h.1, h.2.1, fun hp => ?_, Option.isNone_iff_eq_none.1 h.2.2.2⟩
      have hp' : ((entry out [1, 2]).data.map Prod.fst).Pairwise (fun a b : P => a.1 < b.1 ∨ (a.1 = b.1 ∧ a.2 ≤ b.2)) := by
        rw [List.pairwise_map]
        exact hp.imp (fun {a b} hab => by unfold Spec.Deg45.Lex at hab; omega)
      rw [h.2.2.1] at hp'
      exact absurd hp' (by decide)

end Verif.Properties.Merge45
