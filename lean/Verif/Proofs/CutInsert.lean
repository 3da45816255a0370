import Verif.Proofs.CutNear
/-! The edges of inserted polygons, and the arithmetic of the parameters. -/
namespace Verif.Cut
open Verif Verif.Arb Verif.Contains Verif.PolySet Verif.Spec Verif.Spec.Arb

theorem insertPoly_mem {D : Data} {P : List Pt} {h : Bool} {e : HE × Int} (he : e ∈ insertPoly D P h) :
    e ∈ D ∨ e.1 ∈ edges P ∨ e.1.swap ∈ edges P := (insertSeq_adds D P (Polygon.windingQ P) h).mem e he

theorem foldPoly_mem {h : Bool} : ∀ (H : List (List Pt)) (D : Data) {e : HE × Int}, e ∈ H.foldl (fun D p => insertPoly D p h) D →
    e ∈ D ∨ ∃ P ∈ H, e.1 ∈ edges P ∨ e.1.swap ∈ edges P
  | [], _, _, he => Or.inl he
  | P :: H, D, e, he => by
    rcases foldPoly_mem H _ he with g | ⟨Q, hQ, g⟩
    · rcases insertPoly_mem g with g | g
      · exact Or.inl g
      · exact Or.inr ⟨P, by simp, g⟩
    · exact Or.inr ⟨Q, by simp [hQ], g⟩

theorem insertHoles_mem {D : Data} {P : List Pt} {H : List (List Pt)} {h : Bool} {e : HE × Int} (he : e ∈ insertHoles D P H h) :
    e ∈ D ∨ ∃ Q ∈ P :: H, e.1 ∈ edges Q ∨ e.1.swap ∈ edges Q := by
  rcases foldPoly_mem H _ he with g | ⟨Q, hQ, g⟩
  · rcases insertPoly_mem g with g | g
    · exact Or.inl g
    · exact Or.inr ⟨P, by simp, g⟩
  · exact Or.inr ⟨Q, by simp [hQ], g⟩

theorem history_mem : ∀ (ops : List ((List Pt × List (List Pt)) × Bool)) (D : Data) {e : HE × Int},
    e ∈ ops.foldl (fun D o => insertHoles D o.1.1 o.1.2 o.2) D → e ∈ D ∨ ∃ o ∈ ops, ∃ Q ∈ o.1.1 :: o.1.2, e.1 ∈ edges Q ∨ e.1.swap ∈ edges Q
  | [], _, _, he => Or.inl he
  | o :: ops, D, e, he => by
    rcases history_mem ops _ he with g | ⟨o', ho, Q, hQ, g⟩
    · rcases insertHoles_mem g with g | ⟨Q, hQ, g⟩
      · exact Or.inl g
      · exact Or.inr ⟨o, by simp, Q, hQ, g⟩
    · exact Or.inr ⟨o', by simp [ho], Q, hQ, g⟩

theorem edges_ends {P : List Pt} {e : HE} (h : e ∈ edges P) : e.1 ∈ P ∧ e.2 ∈ P := by
  unfold edges at h
  have h := List.of_mem_zip (a := e.1) (b := e.2) h
  exact ⟨h.1, by simpa using h.2⟩

theorem onEdge_swap {e : HE} {q : ℚ × ℚ} (h : OnEdge e q) : OnEdge e.swap q := by
  obtain ⟨t, t0, t1, hx, hy⟩ := h
  refine ⟨1 - t, by linarith, by linarith, ?_, ?_⟩
  · rw [hx]; simp only [Prod.fst_swap, Prod.snd_swap]; ring
  · rw [hy]; simp only [Prod.fst_swap, Prod.snd_swap]; ring

/-- A test for edges that meet in lattice points: the lines of edges with different directions meet in one of the listed
points, and an edge that passes through the unit square of a listed point or of an end point passes through it. -/
def latticeTest (J : List Pt) (E : List HE) : Bool :=
  E.all (fun a => E.all (fun b => decide (cr a b = 0) || J.any (fun p => decide (det p a.1 a.2 = 0) && decide (det p b.1 b.2 = 0)))) &&
  (J ++ E.map Prod.fst ++ E.map Prod.snd).all (fun p => E.all (fun a => !grid p a || (inBox a p && decide (det p a.1 a.2 = 0))))

theorem latticeTest_ok {J : List Pt} {E : List HE} (hd : ∀ e ∈ E, Directed e) (h : latticeTest J E = true) : OnLattice E := by
  unfold latticeTest at h
  rw [Bool.and_eq_true, List.all_eq_true, List.all_eq_true] at h
  obtain ⟨h1, h2⟩ := h
  have meet : ∀ a ∈ E, ∀ b ∈ E, ¬ Parallel a b → ∀ q, OnEdge a q → OnEdge b q → ∃ p ∈ J, q = cq p := by
    intro a ha b hb hn q qa qb
    rw [parallel_iff] at hn
    have := List.all_eq_true.1 (h1 a ha) b hb
    rw [Bool.or_eq_true, decide_eq_true_iff] at this
    obtain ⟨p, hp, k⟩ := List.any_eq_true.1 (this.resolve_left hn)
    rw [Bool.and_eq_true, decide_eq_true_iff, decide_eq_true_iff] at k
    exact ⟨p, hp, line_unique hn ((onEdge_lex (hd a ha) _).1 qa).1 ((onEdge_lex (hd b hb) _).1 qb).1 (by rw [dq_cq, k.1]; simp) (by rw [dq_cq, k.2]; simp)⟩
  refine ⟨fun a ha b hb hn q qa qb => ?_, fun p hp a ha hh => ?_⟩
  · obtain ⟨p, _, k⟩ := meet a ha b hb hn q qa qb
    exact ⟨p, k⟩
  · have hm : p ∈ J ++ E.map Prod.fst ++ E.map Prod.snd := by
      rcases hp with ⟨b, hb, k | k⟩ | ⟨b, hb, c, hc, hn, k1, k2⟩
      · simp only [List.mem_append, List.mem_map]; left; right; exact ⟨b, hb, k.symm⟩
      · simp only [List.mem_append, List.mem_map]; right; exact ⟨b, hb, k.symm⟩
      · obtain ⟨p', hp', k⟩ := meet b hb c hc hn _ k1 k2
        have : p = p' := cq_inj k
        simp only [List.mem_append]; left; left; rw [this]; exact hp'
    have := List.all_eq_true.1 (h2 p hm) a ha
    rw [Bool.or_eq_true, Bool.and_eq_true, decide_eq_true_iff, Bool.not_eq_true', (grid_iff (hd a ha) p).2 hh] at this
    exact (on_iff (hd a ha) p).2 (this.resolve_left (by simp))

theorem exactFP_sane : exactFP.Sane := by
  intro x p q h1 h2
  by_cases c : p.1 = q.1
  · have : exactFP.yE x p q = p.2 := by
      show p.2 + floorDiv ((x - p.1) * (q.2 - p.2)) (q.1 - p.1) = p.2
      rw [show q.1 - p.1 = 0 by omega]; unfold floorDiv; simp
    rw [this]; omega
  · rw [exactFP_floor.yE x p q c]
    have key : ∃ t : ℚ, 0 ≤ t ∧ t ≤ 1 ∧ lineY p q x = p.2 + t * (q.2 - p.2) := by
      have hne : (q.1 : ℚ) - p.1 ≠ 0 := by
        have : q.1 - p.1 ≠ 0 := by omega
        exact_mod_cast this
      refine ⟨((x : ℚ) - p.1) / (q.1 - p.1), ?_, ?_, by unfold lineY; field_simp⟩
      · rcases lt_or_gt_of_ne c with g | g
        · have a : (p.1 : ℚ) < q.1 := by exact_mod_cast g
          have b : (p.1 : ℚ) ≤ x := by exact_mod_cast (show p.1 ≤ x by omega)
          exact div_nonneg (by linarith) (by linarith)
        · have a : (q.1 : ℚ) < p.1 := by exact_mod_cast g
          have b : (x : ℚ) ≤ p.1 := by exact_mod_cast (show x ≤ p.1 by omega)
          exact div_nonneg_of_nonpos (by linarith) (by linarith)
      · rcases lt_or_gt_of_ne c with g | g
        · have a : (p.1 : ℚ) < q.1 := by exact_mod_cast g
          have b : (x : ℚ) ≤ q.1 := by exact_mod_cast (show x ≤ q.1 by omega)
          exact (div_le_one (by linarith)).2 (by linarith)
        · have a : (q.1 : ℚ) < p.1 := by exact_mod_cast g
          have b : (q.1 : ℚ) ≤ x := by exact_mod_cast (show q.1 ≤ x by omega)
          exact (div_le_one_of_neg (by linarith)).2 (by linarith)
    obtain ⟨t, t0, t1, ht⟩ := key
    rw [ht]
    rcases le_total p.2 q.2 with g | g
    · have a : (p.2 : ℚ) ≤ q.2 := by exact_mod_cast g
      rw [min_eq_left g, max_eq_right g]
      constructor
      · rw [Int.le_floor]; nlinarith
      · have := Int.floor_le_floor (show (p.2 : ℚ) + t * (q.2 - p.2) ≤ (q.2 : ℚ) by nlinarith)
        rwa [Int.floor_intCast] at this
    · have a : (q.2 : ℚ) ≤ p.2 := by exact_mod_cast g
      rw [min_eq_right g, max_eq_left g]
      constructor
      · rw [Int.le_floor]; nlinarith
      · have := Int.floor_le_floor (show (p.2 : ℚ) + t * (q.2 - p.2) ≤ (p.2 : ℚ) by nlinarith)
        rwa [Int.floor_intCast] at this

end Verif.Cut
