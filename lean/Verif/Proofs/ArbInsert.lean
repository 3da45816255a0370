import Verif.Proofs.ArbSides
import Verif.Proofs.SegUtils
/-! Insertion into `property_merge`: the events, brought into the usual direction, are those of insertion into polygon sets. -/
namespace Verif.ArbMerge
open Verif Verif.Arb Verif.Cut Verif.PolySet Verif.Polygon Verif.Isotropy Verif.Contains Verif.Spec Verif.Spec.Arb

/-- An event in the usual direction. -/
def nrmEv (ev : Ev) : Ev := ((store (ev.1, ev.2.2)).1, (ev.2.1, (store (ev.1, ev.2.2)).2))

theorem nrmEv_fst (ev : Ev) : (nrmEv ev).1 = nrm ev.1 := by
  unfold nrmEv store nrm; split_ifs <;> rfl

theorem nrmEv_prop (ev : Ev) : (nrmEv ev).2.1 = ev.2.1 := rfl

theorem isVertical_nrm (e : HE) : isVertical (nrm e) = isVertical e := by
  unfold isVertical nrm
  split_ifs
  · exact Bool.eq_iff_iff.2 (by rw [beq_iff_eq, beq_iff_eq]; exact ⟨Eq.symm, Eq.symm⟩)
  · rfl

theorem finish_nrm (ev : Ev) (p : HE) : finish (nrmEv ev) p = finish ev p := by
  unfold finish
  rw [nrmEv_fst, isVertical_nrm, nrmEv_prop]
  by_cases h : lessPoint ev.1.2 ev.1.1 = true
  · have h' : lessPoint ev.1.1 ev.1.2 = false := by
      rw [Bool.eq_false_iff]; rw [ne_eq, Contains.lessPoint_iff] at *; omega
    have e1 : nrm ev.1 = (ev.1.2, ev.1.1) := by unfold nrm; rw [if_pos h]
    have e2 : (nrmEv ev).2.2 = ev.2.2 * -1 := by unfold nrmEv store; rw [if_pos h]
    rw [e1, e2]
    dsimp only
    rw [h, h']
    cases lessPoint p.1 p.2 <;> simp
  · have e1 : nrm ev.1 = ev.1 := by unfold nrm; rw [if_neg h]
    have e2 : (nrmEv ev).2.2 = ev.2.2 := by unfold nrmEv store; rw [if_neg h]
    rw [e1, e2]

theorem number_nrm : ∀ (E : List Ev) (i : Nat), number i (E.map nrmEv) = (number i E).map norm
  | [], _ => rfl
  | ev :: r, i => by rw [List.map_cons, number, number_nrm r, number, List.map_cons, norm_eq, nrmEv_fst]

theorem cutGo_nrm (ip : Pts) : ∀ (E : List Ev) (i : Nat), cutGo ip i (E.map nrmEv) = cutGo ip i E
  | [], _ => rfl
  | ev :: r, i => by
    rw [List.map_cons, cutGo, cutGo, cutGo_nrm ip r, nrmEv_fst, pieces_nrm, show finish (nrmEv ev) = finish ev from funext (finish_nrm ev)]

/-- Cutting does not depend on the direction in which an edge is stored. -/
theorem cut_nrm (fp : FP) (umin : Int) (E : List Ev) : cut fp umin (E.map nrmEv) = cut fp umin E := by
  unfold cut
  rw [number_nrm, divide_norm, cutGo_nrm]

/-! ### Insertion -/

/-- The sign of the edges of a polygon. -/
def wsign (wd : Nat) (hole : Bool) : Int := if hole then -(if wd = HIGH then 1 else -1) else (if wd = HIGH then 1 else -1)

theorem insertEdge_app (w : Int) (D : Data) (p0 p1 : Pt) : insertEdge w D p0 p1 = D ++ insertEdge w [] p0 p1 := by
  unfold insertEdge
  by_cases h : p0 ≠ p1
  · rw [if_pos h, if_pos h, insertClean_false, insertClean_false]; rfl
  · rw [if_neg h, if_neg h]; simp

/-- The edges of an open chain. -/
def opn (w : Int) : Pt → List Pt → Data
  | _, [] => []
  | p, c :: r => insertEdge w [] p c ++ opn w c r

/-- The last point. -/
def lst : Pt → List Pt → Pt
  | p, [] => p
  | _, c :: r => lst c r

theorem seqGo_app (w : Int) (f : Pt) : ∀ (r : List Pt) (D : Data) (p : Pt), seqGo w f D p r = D ++ (opn w p r ++ insertEdge w [] (lst p r) f)
  | [], D, p => by rw [seqGo, insertEdge_app, opn, lst]; rfl
  | c :: r, D, p => by rw [seqGo, seqGo_app w f r, insertEdge_app, opn, lst]; simp

theorem insertSeq_app (D : Data) (P : List Pt) (wd : Nat) (hole : Bool) : insertSeq D P wd hole = D ++ insertSeq [] P wd hole := by
  match P with
  | [] => simp [insertSeq]
  | [_] => simp [insertSeq]
  | p :: q :: r => simp only [insertSeq]; rw [seqGo_app, seqGo_app _ _ _ []]; simp

theorem insertEdge_self (w : Int) (p : Pt) : insertEdge w [] p p = [] := by unfold insertEdge; simp

theorem tag_append (k : Int) (A B : Data) : tag k (A ++ B) = tag k A ++ tag k B := by unfold tag; rw [List.map_append]

theorem createVertex_eq {wd : Nat} (hw : wd = HIGH ∨ wd = LOW) (hole : Bool) (k : Int) (E : List Ev) (p0 p1 : Pt) :
    ∃ N, createVertex wd hole k E p0 p1 = E ++ N ∧ N.map nrmEv = tag k (insertEdge (wsign wd hole) [] p0 p1) := by
  unfold createVertex insertEdge
  by_cases h : p0 = p1
  · exact ⟨[], by rw [if_pos h]; simp, by rw [if_neg (by simpa using h)]; rfl⟩
  · rw [if_neg h, if_pos h]
    dsimp only
    refine ⟨_, rfl, ?_⟩
    have hv : (absZ (p1.1 - p0.1) = 0) ↔ p0.1 = p1.1 := by unfold absZ; split_ifs <;> omega
    rw [insertClean_false]
    have hm : (if hole = true then (if wd = LOW then (-1 : Int) else 1) * -1 else if wd = LOW then -1 else 1) = wsign wd hole := by
      unfold wsign
      rcases hw with rfl | rfl <;> cases hole <;> rfl
    rw [hm]
    simp only [List.map_cons, List.map_nil, List.nil_append, tag]
    congr 1
    rw [show (if absZ (p1.1 - p0.1) = 0 then (-1 : Int) else 1) = if p0.1 = p1.1 then -1 else 1 from by simp only [hv]]
    unfold nrmEv store
    by_cases c : lessPoint p0 p1 = true
    · have c' : ¬ lessPoint p1 p0 = true := by rw [Contains.lessPoint_iff] at *; omega
      by_cases v : p0.1 = p1.1
      · simp [c, c', v]
      · simp [c, c', v]
    · have c' : lessPoint p1 p0 = true := by
        rw [Contains.lessPoint_iff] at *
        have : ¬ (p0.1 = p1.1 ∧ p0.2 = p1.2) := fun hc => h (Prod.ext hc.1 hc.2)
        omega
      by_cases v : p0.1 = p1.1
      · simp [c, c', v]
      · simp [c, c', v]

theorem insertGo_eq {wd : Nat} (hw : wd = HIGH ∨ wd = LOW) (hole : Bool) (k : Int) : ∀ (r : List Pt) (E : List Ev) (p : Pt),
    ∃ N, insertGo wd hole k E p r = (E ++ N, lst p r) ∧ N.map nrmEv = tag k (opn (wsign wd hole) p r)
  | [], E, p => ⟨[], by rw [insertGo, lst]; simp, rfl⟩
  | c :: r, E, p => by
    by_cases h : p = c
    · subst h
      obtain ⟨N, h1, h2⟩ := insertGo_eq hw hole k r E p
      refine ⟨N, ?_, ?_⟩
      · rw [insertGo, if_neg (by simp), h1, lst]
      · rw [opn, insertEdge_self]; exact h2
    · obtain ⟨N, h1, h2⟩ := createVertex_eq hw hole k E p c
      obtain ⟨M, g1, g2⟩ := insertGo_eq hw hole k r (E ++ N) c
      refine ⟨N ++ M, ?_, ?_⟩
      · rw [insertGo, if_pos h, h1, g1, lst, List.append_assoc]
      · rw [opn, tag_append, List.map_append, h2, g2]

theorem opn_drop (w : Int) (f : Pt) : ∀ r : List Pt, opn w f r = opn w f (r.dropWhile (fun c => f == c)) ∧ lst f r = lst f (r.dropWhile (fun c => f == c))
  | [] => ⟨rfl, rfl⟩
  | c :: r => by
    by_cases h : f = c
    · subst h
      rw [List.dropWhile_cons_of_pos (by simp), opn, lst, insertEdge_self]
      exact opn_drop w f r
    · rw [List.dropWhile_cons_of_neg (by simpa using h)]; exact ⟨rfl, rfl⟩

theorem winding_cases (P : List Pt) : windingQ P = HIGH ∨ windingQ P = LOW := by unfold windingQ; split_ifs <;> simp

theorem insertP_eq (k : Int) (E : List Ev) (P : List Pt) (hole : Bool) :
    ∃ N, insertP k E P hole = E ++ N ∧ (N.map nrmEv).Perm (tag k (insertPoly [] P hole)) := by
  have hw := winding_cases P
  unfold insertP insertPoly
  generalize windingQ P = wd at hw
  match P with
  | [] => exact ⟨[], by simp, by simp [insertSeq, tag]⟩
  | f :: r =>
    dsimp only
    have hseq : insertSeq [] (f :: r) wd hole = opn (wsign wd hole) f r ++ insertEdge (wsign wd hole) [] (lst f r) f := by
      match r with
      | [] => simp [insertSeq, opn, lst, insertEdge_self]
      | q :: r => simp only [insertSeq]; rw [seqGo_app, List.nil_append]; rfl
    obtain ⟨d1, d2⟩ := opn_drop (wsign wd hole) f r
    rw [hseq, d1, d2]
    rcases hdr : r.dropWhile (fun c => f == c) with _ | ⟨s, r'⟩
    · refine ⟨[], by simp, ?_⟩
      rw [opn, lst, insertEdge_self]; simp [tag]
    · dsimp only
      obtain ⟨N, h1, h2⟩ := insertGo_eq hw hole k r' E s
      rw [h1]
      dsimp only
      have hstep : ∃ M, (if lst s r' ≠ f then (createVertex wd hole k (E ++ N) (lst s r') f, f) else (E ++ N, lst s r')) = (E ++ N ++ M, f) ∧
          M.map nrmEv = tag k (insertEdge (wsign wd hole) [] (lst s r') f) := by
        by_cases c : lst s r' = f
        · refine ⟨[], by rw [if_neg (by simpa using c), c]; simp, by rw [c, insertEdge_self]; rfl⟩
        · obtain ⟨M, g1, g2⟩ := createVertex_eq hw hole k (E ++ N) (lst s r') f
          exact ⟨M, by rw [if_pos c, g1], g2⟩
      obtain ⟨M, g1, g2⟩ := hstep
      rw [g1]
      dsimp only
      obtain ⟨K, k1, k2⟩ := createVertex_eq hw hole k (E ++ N ++ M) f s
      refine ⟨N ++ M ++ K, by rw [k1]; simp, ?_⟩
      rw [List.map_append, List.map_append, h2, g2, k2, opn, lst, tag_append, tag_append, List.append_assoc]
      exact (List.perm_append_comm_assoc _ _ _).trans (by
        generalize tag k (insertEdge (wsign wd hole) [] (lst s r') f) = A
        generalize tag k (opn (wsign wd hole) s r') = B
        generalize tag k (insertEdge (wsign wd hole) [] f s) = C
        rw [← List.append_assoc]
        refine List.perm_append_comm.trans ?_
        rw [List.append_assoc]
        exact List.Perm.append_left _ List.perm_append_comm)

theorem insertPoly_app (D : Data) (P : List Pt) (hole : Bool) : insertPoly D P hole = D ++ insertPoly [] P hole := insertSeq_app D P _ hole

theorem foldPoly_app (hole : Bool) : ∀ (H : List (List Pt)) (D : Data),
    H.foldl (fun D h => insertPoly D h hole) D = D ++ H.foldl (fun D h => insertPoly D h hole) []
  | [], D => by simp
  | P :: H, D => by
    rw [List.foldl_cons, foldPoly_app hole H, insertPoly_app, List.foldl_cons, foldPoly_app hole H (insertPoly [] P hole), List.append_assoc]

theorem insertHoles_app (D : Data) (P : List Pt) (H : List (List Pt)) (hole : Bool) : insertHoles D P H hole = D ++ insertHoles [] P H hole := by
  unfold insertHoles
  rw [foldPoly_app, insertPoly_app, foldPoly_app _ _ (insertPoly [] P hole), List.append_assoc]

theorem insertH_eq (k : Int) (E : List Ev) (P : List Pt) (H : List (List Pt)) (hole : Bool) :
    ∃ N, insertH k E P H hole = E ++ N ∧ (N.map nrmEv).Perm (tag k (insertHoles [] P H hole)) := by
  have key : ∀ (H : List (List Pt)) (E : List Ev), ∃ N, H.foldl (fun E h => insertP k E h (!hole)) E = E ++ N ∧
      (N.map nrmEv).Perm (tag k (H.foldl (fun D h => insertPoly D h (!hole)) [])) := by
    intro H
    induction H with
    | nil => exact fun E => ⟨[], by simp, by simp [tag]⟩
    | cons P H ih =>
      intro E
      obtain ⟨N, h1, h2⟩ := insertP_eq k E P (!hole)
      obtain ⟨M, g1, g2⟩ := ih (E ++ N)
      refine ⟨N ++ M, by rw [List.foldl_cons, h1, g1, List.append_assoc], ?_⟩
      rw [List.foldl_cons, foldPoly_app, tag_append, List.map_append]
      exact h2.append g2
  obtain ⟨N, h1, h2⟩ := insertP_eq k E P hole
  obtain ⟨M, g1, g2⟩ := key H (E ++ N)
  refine ⟨N ++ M, by unfold insertH; rw [h1, g1, List.append_assoc], ?_⟩
  unfold insertHoles
  rw [foldPoly_app, tag_append, List.map_append]
  exact h2.append g2

end Verif.ArbMerge
