import Verif.Proofs.CutBins
/-! Cutting conserves closed curves, whatever the floating point results are. -/
namespace Verif.Cut
open Verif Verif.Arb Verif.Contains Verif.PolySet Verif.Spec Verif.Spec.Arb

theorem evalAt_range {ev : Int → Pt → Pt → Int} (h : ∀ x p q, min p.1 q.1 ≤ x → x ≤ max p.1 q.1 → min p.2 q.2 ≤ ev x p q ∧ ev x p q ≤ max p.2 q.2)
    {x : Int} {p q : Pt} (h1 : min p.1 q.1 ≤ x) (h2 : x ≤ max p.1 q.1) : min p.2 q.2 ≤ evalAt ev x p q ∧ evalAt ev x p q ≤ max p.2 q.2 := by
  unfold evalAt
  split_ifs
  · omega
  · omega
  · exact h x p q h1 h2

theorem boxTouch_iff (e f : HE) : boxTouch e f = true ↔ min e.1.1 e.2.1 ≤ max f.1.1 f.2.1 ∧ min f.1.1 f.2.1 ≤ max e.1.1 e.2.1 ∧
    min e.1.2 e.2.2 ≤ max f.1.2 f.2.2 ∧ min f.1.2 f.2.2 ≤ max e.1.2 e.2.2 := by
  simp [boxTouch, and_assoc]

theorem candidate_box {ev : Int → Pt → Pt → Int} {pt : HE → HE → Option Pt}
    (h : ∀ x p q, min p.1 q.1 ≤ x → x ≤ max p.1 q.1 → min p.2 q.2 ≤ ev x p q ∧ ev x p q ≤ max p.2 q.2)
    {e f : HE} {p : Pt} (hp : candidate ev pt e f = some p) : inBox e p = true ∧ inBox f p = true := by
  unfold candidate at hp
  by_cases c0 : boxTouch e f = true
  · rw [if_neg (by simp [c0])] at hp
    rw [boxTouch_iff] at c0
    by_cases c1 : isVertical e = true
    · rw [if_pos c1] at hp
      by_cases c2 : isVertical f = true
      · rw [if_pos c2] at hp; simp at hp
      · rw [if_neg c2] at hp
        dsimp only at hp
        simp only [isVertical, beq_iff_eq] at c1
        have hr := evalAt_range h (x := e.1.1) (p := f.1) (q := f.2) (by omega) (by omega)
        by_cases c3 : min e.1.2 e.2.2 ≤ evalAt ev e.1.1 f.1 f.2 ∧ evalAt ev e.1.1 f.1 f.2 ≤ max e.1.2 e.2.2
        · rw [if_pos c3] at hp
          have := Option.some_inj.1 hp
          subst this
          rw [inBox_iff, inBox_iff]; dsimp only; omega
        · rw [if_neg c3] at hp; simp at hp
    · rw [if_neg c1] at hp
      by_cases c2 : isVertical f = true
      · rw [if_pos c2] at hp
        dsimp only at hp
        simp only [isVertical, beq_iff_eq] at c2
        have hr := evalAt_range h (x := f.1.1) (p := e.1) (q := e.2) (by omega) (by omega)
        by_cases c3 : min f.1.2 f.2.2 ≤ evalAt ev f.1.1 e.1 e.2 ∧ evalAt ev f.1.1 e.1 e.2 ≤ max f.1.2 f.2.2
        · rw [if_pos c3] at hp
          have := Option.some_inj.1 hp
          subst this
          rw [inBox_iff, inBox_iff]; dsimp only; omega
        · rw [if_neg c3] at hp; simp at hp
      · rw [if_neg c2] at hp
        by_cases c3 : (isHorizontal e && isHorizontal f) = true
        · rw [if_pos c3] at hp; simp at hp
        · rw [if_neg c3] at hp
          match pt e f, hp with
          | some (x, y), hp =>
            dsimp only at hp
            generalize (if isHorizontal f = true then f.1.2 else if isHorizontal e = true then e.1.2 else y) = y' at hp
            by_cases hb : (inBox e (x, y') && inBox f (x, y')) = true
            · rw [if_pos hb] at hp
              rw [Bool.and_eq_true] at hb
              have := Option.some_inj.1 hp
              subst this
              exact hb
            · rw [if_neg hb] at hp; simp at hp
  · rw [if_pos (by simp [c0])] at hp; simp at hp

theorem compute_box {fp : FP} (h : fp.Sane) {e f : HE} {p : Pt} (hp : computeIntersection fp e f = some p) : inBox e p = true ∧ inBox f p = true := by
  unfold computeIntersection at hp
  split at hp
  · simp at hp
  · split at hp
    · rename_i q hq
      split at hp
      · rename_i hg
        rw [Bool.and_eq_true] at hg
        have := Option.some_inj.1 hp
        subst this
        exact ⟨grid_inBox hg.1, grid_inBox hg.2⟩
      · exact candidate_box h hp
    · exact candidate_box h hp

/-- Every segment gets points as needed. -/
theorem divide_ok {fp : FP} (hfp : fp.Sane) (umin : Int) {L : List Seg} (hL : Inj L) : ∀ s ∈ L, OK s.1 (divide fp umin L s.2) := by
  intro s hs
  refine ⟨divide_srt _ _ _ _, ?_, ?_, ?_⟩
  · refine divide_ends fp umin hs hs (Or.inl rfl) ?_
    rcases nrm_ends s.1 with ⟨g1, g2⟩ | ⟨g1, g2⟩
    · rw [← g1]; exact grid_fst _
    · rw [← g2]; exact grid_snd _
  · refine divide_ends fp umin hs hs (Or.inr rfl) ?_
    rcases nrm_ends s.1 with ⟨g1, g2⟩ | ⟨g1, g2⟩
    · rw [← g2]; exact grid_snd _
    · rw [← g1]; exact grid_fst _
  · intro p hp
    refine (divide_inv fp umin L hL (N := fun _ => True) (B := fun e p => inBox e p = true) (fun _ _ => ⟨trivial, trivial⟩) ?_ ?_ s hs p hp).2
    · intro a _ b _ p hp
      obtain ⟨h1, h2⟩ := compute_box hfp hp
      rw [nrm_box] at h1 h2
      exact ⟨trivial, h1, h2⟩
    · intro a _ p _ hg
      have := grid_inBox hg
      rwa [nrm_box] at this

theorem cut_ok {fp : FP} (hfp : fp.Sane) (umin : Int) (E : List Ev) : ∀ j ev, E[j]? = some ev → OK ev.1 (divide fp umin (number 0 E) (0 + j)) := by
  intro j ev h
  exact divide_ok hfp umin (fun s hs t ht => number_inj hs ht) (ev.1, 0 + j) ((number_mem _ _ _).2 ⟨j, ev, h, rfl⟩)

theorem cut_flow {fp : FP} (hfp : fp.Sane) (umin : Int) (E : List Ev) (k : Int) (v : Pt) :
    ((layer (cut fp umin E) k).map (fun e => inflow e v)).sum = ((layer E k).map (fun e => inflow e v)).sum :=
  cutGo_flow _ E 0 (cut_ok hfp umin E) k v

theorem cut_mem {fp : FP} (hfp : fp.Sane) (umin : Int) (E : List Ev) (e : Ev) (he : e ∈ cut fp umin E) :
    Directed e.1 ∧ ∃ ev ∈ E, e.2.1 = ev.2.1 ∧ inBox ev.1 e.1.1 = true ∧ inBox ev.1 e.1.2 = true := by
  obtain ⟨j, ev, h1, h2⟩ := (cutGo_mem _ _ _ _).1 he
  obtain ⟨g1, g2, g3, g4, _⟩ := pieces_dir (cut_ok hfp umin E j ev h1) e h2
  exact ⟨g1, ev, List.mem_of_getElem? h1, g2, g3, g4⟩

end Verif.Cut
