import Verif.Proofs.Touch45
import Verif.Properties.Merge45
/-!
# C88: connectivity extraction of 45-degree sets
-/
namespace Verif.Properties.Touch45
open Verif.Deg45 Verif.Set45 Verif.Spec Verif.Spec.Merge45 Verif.Merge45

variable {umin umax bmin bmax : Int}

/-- C88: after any number of sets has been inserted into `connectivity_extraction_45`, extraction never meets the exception, and it links
two nodes, in both directions, if and only if they are different and the closed regions of their sets share a point: they overlap, or meet
in part of an edge or in a single point, wherever that is. -/
theorem C88_connectivity (hu : umin ≤ umax) (hb : bmin ≤ umin * 2) {S : List S45} (hS : ∀ s ∈ S, Spec.Deg45.Valid umin umax s)
    {t : TSD} (e : insertAll umin umax (nodes S) [] = some t) :
    ∃ G, touch bmin bmax t = .ok G ∧ ∀ a b : Int, (a, b) ∈ G ↔ ∃ i j : Nat, a = i ∧ b = j ∧ i ≠ j ∧
      ∃ s u, S[i]? = some s ∧ S[j]? = some u ∧ RegionsTouch (Spec.Deg45.Covers s) (Spec.Deg45.Covers u) := by
  have hN : ∀ a ∈ nodes S, Spec.Deg45.Valid umin umax a.1 := by
    rintro ⟨s, k⟩ ha
    obtain ⟨i, -, h⟩ := nodes_mem.1 ha
    exact hS s (List.mem_of_getElem? h)
  have d : Data bmin (nodes S) t := insertAll_data hu hb (nodes S) [] [] t (data_nil bmin) hN e
  obtain ⟨d', -⟩ := ready_data d
  obtain ⟨raw, e1, hm, sound, comp⟩ := perform_raw d
  obtain ⟨G, e2, hG⟩ := touch_eq (bmax := bmax) e1 hm
  refine ⟨G, e2, fun a b => ?_⟩
  rw [hG]
  -- a property told at a point: its region is near half the point
  have fwd : ∀ p k, HasK raw p k → ∃ i : Nat, k = i ∧ ∃ s, S[i]? = some s ∧ Near (Spec.Deg45.Covers s) ((p.1 : ℚ) / 2, (p.2 : ℚ) / 2) := by
    rintro p k ⟨c, hc, rfl, hk⟩
    obtain ⟨v, hv, hpos⟩ : ∃ v, (c.1.1 = v ∨ c.1.2 = v) ∧ 0 < v.get k := by
      rcases List.mem_append.1 hk with h | h
      · exact ⟨_, Or.inl rfl, (posKeys_iff _ _).1 h⟩
      · exact ⟨_, Or.inr rfl, (posKeys_iff _ _).1 h⟩
    have hn := sound c hc v hv
    obtain ⟨q, -, hq⟩ := hn 1 (by norm_num)
    have h1 : 0 < (dep (ready t) q).get k := by rw [hq]; exact hpos
    obtain ⟨i, rfl, s, hs, -⟩ := (depth_pos d' q k).1 h1
    refine ⟨i, rfl, s, hs, fun ε hε => ?_⟩
    obtain ⟨q, hcl, hq⟩ := hn ε hε
    have h1 : 0 < (dep (ready t) q).get i := by rw [hq]; exact hpos
    obtain ⟨i', hi', s', hs', hcov⟩ := (depth_pos d' q i).1 h1
    have : i = i' := by exact_mod_cast hi'
    subst this
    rw [hs] at hs'
    cases hs'
    obtain ⟨⟨x1, x2⟩, x3, x4⟩ := hcl
    refine ⟨half q, ?_, ?_, hcov⟩
    · rw [abs_lt]; unfold half; dsimp only at *; constructor <;> linarith
    · rw [abs_lt]; unfold half; dsimp only at *; constructor <;> linarith
  constructor
  · rintro ⟨hab, p, ha, hb⟩
    obtain ⟨i, rfl, s, hs, h1⟩ := fwd p a ha
    obtain ⟨j, rfl, u, hu, h2⟩ := fwd p b hb
    exact ⟨i, j, rfl, rfl, fun h => hab (by rw [h]), s, u, hs, hu, _, h1, h2⟩
  · rintro ⟨i, j, rfl, rfl, hij, s, u, hs, hu, p, h1, h2⟩
    refine ⟨fun h => hij (by exact_mod_cast h), ?_⟩
    obtain ⟨ε, hε, m, hm⟩ := comp (p.1 * 2, p.2 * 2)
    have bwd : ∀ (i : Nat) (s : S45), S[i]? = some s → Near (Spec.Deg45.Covers s) p → HasK raw m i := by
      intro i s hs hn
      obtain ⟨q, a1, a2, hq⟩ := hn (ε / 2) (by linarith)
      rw [abs_lt] at a1 a2
      have hh : half (q.1 * 2, q.2 * 2) = q := by unfold half; ext <;> simp
      have hpos : 0 < (dep (ready t) (q.1 * 2, q.2 * 2)).get i := (depth_pos d' _ _).2 ⟨i, rfl, s, hs, by rw [hh]; exact hq⟩
      have hne : dep (ready t) (q.1 * 2, q.2 * 2) ≠ 0 := by
        intro h; rw [h, Cnt.get_zero] at hpos; omega
      obtain ⟨k, hk, hkm, hkc⟩ := hm (q.1 * 2, q.2 * 2) ⟨⟨by dsimp only; linarith, by dsimp only; linarith⟩, by dsimp only; linarith, by dsimp only; linarith⟩ hne
      refine ⟨k, hk, hkm, List.mem_append.2 ?_⟩
      rcases hkc with h | h
      · left; rw [posKeys_iff, h]; exact hpos
      · right; rw [posKeys_iff, h]; exact hpos
    exact ⟨m, bwd i s hs h1, bwd j u hu h2⟩

/-- C88: extraction makes no difference between the two directions of a link. -/
theorem C88_symmetric (hu : umin ≤ umax) (hb : bmin ≤ umin * 2) {S : List S45} (hS : ∀ s ∈ S, Spec.Deg45.Valid umin umax s)
    {t : TSD} (e : insertAll umin umax (nodes S) [] = some t) {G : List (Int × Int)} (h : touch bmin bmax t = .ok G) {a b : Int} (hab : (a, b) ∈ G) :
    (b, a) ∈ G ∧ a ≠ b := by
  obtain ⟨G', e', hG⟩ := C88_connectivity (bmin := bmin) (bmax := bmax) hu hb hS e
  rw [h] at e'
  cases e'
  obtain ⟨i, j, rfl, rfl, hij, s, u, hs, hu, p, h1, h2⟩ := (hG a b).1 hab
  exact ⟨(hG _ _).2 ⟨j, i, rfl, rfl, hij.symm, u, s, hu, hs, p, h2, h1⟩, fun h => hij (by exact_mod_cast h)⟩

/-- Two triangles that meet in the single point (4, 4), which is a corner of the second and inside an edge of the first; and a third apart. -/
def exS : List S45 := [S45.new.insertPoly [(0, 0), (8, 0), (8, 8)] false, S45.new.insertPoly [(4, 4), (2, 6), (2, 4)] false, S45.new.insertPoly [(20, 20), (22, 20), (22, 22)] false]

theorem exS_ok : ∀ s ∈ exS, Spec.Deg45.Valid (-100) 100 s := by
  intro s hs
  simp only [exS, List.mem_cons, List.not_mem_nil, or_false] at hs
  rcases hs with rfl | rfl | rfl
  · exact Deg45.C82_programs_valid (p := .poly .new [(0, 0), (8, 0), (8, 8)] [] false) (by norm_num) (by decide +kernel) rfl
  · exact Deg45.C82_programs_valid (p := .poly .new [(4, 4), (2, 6), (2, 4)] [] false) (by norm_num) (by decide +kernel) rfl
  · exact Deg45.C82_programs_valid (p := .poly .new [(20, 20), (22, 20), (22, 22)] [] false) (by norm_num) (by decide +kernel) rfl

example : ∃ t G, insertAll (-100) 100 (nodes exS) [] = some t ∧ touch (-1000) 1000 t = .ok G ∧
    (∀ a b : Int, (a, b) ∈ G ↔ ∃ i j : Nat, a = i ∧ b = j ∧ i ≠ j ∧ ∃ s u, exS[i]? = some s ∧ exS[j]? = some u ∧ RegionsTouch (Spec.Deg45.Covers s) (Spec.Deg45.Covers u)) := by
  obtain ⟨t, e⟩ := Merge45.C87_insert_succeeds (umin := -100) (umax := 100) (by norm_num) (L := nodes exS) (fun a ha => by
    obtain ⟨i, hi, h⟩ := nodes_mem.1 (show (a.1, a.2) ∈ nodes exS from ha)
    refine ⟨exS_ok _ (List.mem_of_getElem? h), ?_⟩
    have hm := List.mem_of_getElem? h
    simp only [exS, List.mem_cons, List.not_mem_nil, or_false] at hm
    rcases hm with hm | hm | hm <;> rw [hm] <;> right <;> unfold Spec.Deg45.OnGrid <;> decide +kernel)
  obtain ⟨G, e1, h⟩ := C88_connectivity (bmin := -1000) (bmax := 1000) (by norm_num) (by norm_num) exS_ok e
  exact ⟨t, G, e, e1, h⟩

example : (match insertAll (-100) 100 (nodes exS) [] with
    | some t => (match touch (-1000) 1000 t with | .ok G => decide ((0, 1) ∈ G ∧ (1, 0) ∈ G ∧ (0, 2) ∉ G ∧ (1, 2) ∉ G) | .error _ => false)
    | none => false) = true := by decide +kernel

end Verif.Properties.Touch45
