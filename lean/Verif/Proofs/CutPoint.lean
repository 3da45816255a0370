import Verif.Proofs.CutNear
/-! Cutting when some edges are single points: the points are end points like any other, and such an edge has no pieces. -/
namespace Verif.Cut
open Verif Verif.Arb Verif.Contains Verif.PolySet Verif.Spec Verif.Spec.Arb Verif.Deform

/-- The edge runs left to right, or upwards, or is a point. -/
def Dir0 (e : HE) : Prop := Directed e ∨ e.1 = e.2

theorem nrm_w {e : HE} (h : Dir0 e) : nrm e = e := by
  rcases h with h | h
  · exact nrm_dir h
  · unfold nrm; rw [if_neg]
    rw [Contains.lessPoint_iff, h]; omega

theorem between_pt (p a : Pt) : between p a a = false := by
  rw [Bool.eq_false_iff]
  intro h
  unfold between at h
  split_ifs at h <;>
  · rw [Bool.and_eq_true, Contains.lessPoint_iff, Contains.lessPoint_iff] at h; omega

theorem between_box {a : HE} {p : Pt} (h1 : min a.1.1 a.2.1 < p.1) (h2 : p.1 < max a.1.1 a.2.1) : between p a.1 a.2 = true := by
  unfold between
  split_ifs with c <;> rw [Contains.lessPoint_iff] at c <;> rw [Bool.and_eq_true, Contains.lessPoint_iff, Contains.lessPoint_iff] <;> omega

theorem strict_dir {a : HE} {p : Pt} (ha : Dir0 a) (h : (min a.1.1 a.2.1 < p.1 ∧ p.1 < max a.1.1 a.2.1) ∨ (min a.1.2 a.2.2 < p.2 ∧ p.2 < max a.1.2 a.2.2)) : Directed a := by
  rcases ha with ha | ha
  · exact ha
  · exfalso; rw [ha] at h; omega

theorem intersects_pt {a b : HE} (ha : Dir0 a) (hb : b.1 = b.2) (h : intersects a b = true ∨ intersects b a = true) : Directed a ∧ OnEdge a (cq b.1) := by
  obtain ⟨P, Q⟩ := b
  obtain rfl : P = Q := hb
  dsimp only
  have vert : a.1.1 = a.2.1 → a.1.1 = P.1 → min a.1.2 a.2.2 < P.2 → P.2 < max a.1.2 a.2.2 → Directed a ∧ OnEdge a (cq P) := by
    intro h1 h2 h3 h4
    have hd := strict_dir ha (Or.inr ⟨h3, h4⟩)
    refine ⟨hd, ?_⟩
    rw [on_iff hd, inBox_iff]
    refine ⟨by omega, ?_⟩
    unfold det; rw [← h2, h1]; ring
  have hor : a.1.2 = a.2.2 → a.1.2 = P.2 → min a.1.1 a.2.1 < P.1 → P.1 < max a.1.1 a.2.1 → Directed a ∧ OnEdge a (cq P) := by
    intro h1 h2 h3 h4
    have hd := strict_dir ha (Or.inl ⟨h3, h4⟩)
    refine ⟨hd, ?_⟩
    rw [on_iff hd, inBox_iff]
    refine ⟨by omega, ?_⟩
    unfold det; rw [← h2, h1]; ring
  rcases h with h | h
  · unfold intersects at h
    by_cases c : (hOverlap a (P, P) && vOverlap a (P, P)) = true
    · rw [if_pos c] at h
      simp only [hOverlap, vOverlap, Bool.and_eq_true, decide_eq_true_iff, min_self, max_self] at c
      have hd := strict_dir ha (Or.inl c.1)
      refine ⟨hd, ?_⟩
      have n1 : a.1 ≠ P := by rintro rfl; omega
      have n2 : a.2 ≠ P := by rintro rfl; omega
      dsimp only at h
      rw [if_neg n1, if_neg n1, if_neg n2, if_neg n2, between_pt, between_pt, Bool.and_false, Bool.and_false] at h
      simp only [Bool.false_eq_true, if_false, beq_self_eq_true, if_true] at h
      by_cases c7 : (oab a.1 (P, P) == oab a.2 (P, P) && oab a.1 (P, P) != 0) = true
      · rw [if_pos c7] at h; simp at h
      rw [if_neg c7] at h
      by_cases c8 : (oab P a == 0 && between P a.1 a.2) = true
      · rw [Bool.and_eq_true, beq_iff_eq] at c8
        exact between_on hd c8.1 c8.2
      · rw [if_neg c8, if_neg c8] at h; simp at h
    · rw [if_neg c] at h
      by_cases cv : (isVertical a && isVertical (P, P) && a.1.1 == (P, P).1.1) = true
      · rw [if_pos cv] at h
        simp only [isVertical, Bool.and_eq_true, beq_iff_eq] at cv
        rw [Bool.and_eq_true] at h
        have h := h.1
        simp only [vOverlap, Bool.and_eq_true, decide_eq_true_iff, min_self, max_self] at h
        exact vert cv.1.1 cv.2 h.1 h.2
      rw [if_neg cv] at h
      by_cases ch : (isHorizontal a && isHorizontal (P, P) && a.1.2 == (P, P).1.2) = true
      · rw [if_pos ch] at h
        simp only [isHorizontal, Bool.and_eq_true, beq_iff_eq] at ch
        rw [Bool.and_eq_true] at h
        have h := h.1
        simp only [hOverlap, Bool.and_eq_true, decide_eq_true_iff, min_self, max_self] at h
        exact hor ch.1.1 ch.2 h.1 h.2
      rw [if_neg ch] at h; simp at h
  · unfold intersects at h
    by_cases c : (hOverlap (P, P) a && vOverlap (P, P) a) = true
    · rw [if_pos c] at h
      simp only [hOverlap, vOverlap, Bool.and_eq_true, decide_eq_true_iff, min_self, max_self] at c
      have hd := strict_dir ha (Or.inl ⟨c.1.2, c.1.1⟩)
      refine ⟨hd, ?_⟩
      have n1 : ¬ P = a.1 := by rintro rfl; omega
      have n2 : ¬ P = a.2 := by rintro rfl; omega
      dsimp only at h
      rw [if_neg n1, if_neg n2, if_neg n1, if_neg n2] at h
      by_cases c8 : (oab P a == 0 && between P a.1 a.2) = true
      · rw [Bool.and_eq_true, beq_iff_eq] at c8
        exact between_on hd c8.1 c8.2
      · rw [if_neg c8, if_neg c8] at h
        rw [between_box c.1.2 c.1.1, Bool.and_true] at c8
        rw [if_pos (by simpa using c8)] at h; simp at h
    · rw [if_neg c] at h
      by_cases cv : (isVertical (P, P) && isVertical a && (P, P).1.1 == a.1.1) = true
      · rw [if_pos cv] at h
        simp only [isVertical, Bool.and_eq_true, beq_iff_eq] at cv
        rw [Bool.and_eq_true] at h
        have h := h.1
        simp only [vOverlap, Bool.and_eq_true, decide_eq_true_iff, min_self, max_self] at h
        exact vert cv.1.2 cv.2.symm h.2 h.1
      rw [if_neg cv] at h
      by_cases ch : (isHorizontal (P, P) && isHorizontal a && (P, P).1.2 == a.1.2) = true
      · rw [if_pos ch] at h
        simp only [isHorizontal, Bool.and_eq_true, beq_iff_eq] at ch
        rw [Bool.and_eq_true] at h
        have h := h.1
        simp only [hOverlap, Bool.and_eq_true, decide_eq_true_iff, min_self, max_self] at h
        exact hor ch.1.2 ch.2.symm h.2 h.1
      rw [if_neg ch] at h; simp at h

theorem candidate_pt {ev : Int → Pt → Pt → Int} {ptf : HE → HE → Option Pt} {a b : HE} (hb : b.1 = b.2) {p : Pt}
    (h : candidate ev ptf a b = some p ∨ candidate ev ptf b a = some p) : p = b.1 := by
  obtain ⟨P, Q⟩ := b
  obtain rfl : P = Q := hb
  have hv : isVertical (P, P) = true := by simp [isVertical]
  have fin : ∀ y : Int, (if min P.2 P.2 ≤ y ∧ y ≤ max P.2 P.2 then some (P.1, y) else none) = some p → p = P := by
    intro y hy
    split_ifs at hy with g
    rw [min_self, max_self] at g
    have := Option.some_inj.1 hy
    rw [← this]; exact Prod.ext rfl (by dsimp only; omega)
  rcases h with h | h
  · unfold candidate at h
    by_cases c0 : (!boxTouch a (P, P)) = true
    · rw [if_pos c0] at h; simp at h
    rw [if_neg c0, if_pos hv, if_pos hv] at h
    by_cases c1 : isVertical a = true
    · rw [if_pos c1] at h; simp at h
    rw [if_neg c1] at h
    exact fin _ h
  · unfold candidate at h
    by_cases c0 : (!boxTouch (P, P) a) = true
    · rw [if_pos c0] at h; simp at h
    rw [if_neg c0, if_pos hv] at h
    by_cases c1 : isVertical a = true
    · rw [if_pos c1] at h; simp at h
    rw [if_neg c1] at h
    exact fin _ h

theorem compute_pt {fp : FP} {a b : HE} (ha : Dir0 a) (hb : b.1 = b.2) {p : Pt}
    (h : computeIntersection fp a b = some p ∨ computeIntersection fp b a = some p) : p = b.1 ∧ OnEdge a (cq b.1) := by
  rcases h with h | h
  · obtain ⟨h1, h2 | h2⟩ := compute_cases h
    · exact ⟨candidate_pt hb (Or.inl h2), (intersects_pt ha hb (Or.inl h1)).2⟩
    · exact ⟨candidate_pt hb (Or.inl h2), (intersects_pt ha hb (Or.inl h1)).2⟩
  · obtain ⟨h1, h2 | h2⟩ := compute_cases h
    · exact ⟨candidate_pt hb (Or.inr h2), (intersects_pt ha hb (Or.inr h1)).2⟩
    · exact ⟨candidate_pt hb (Or.inr h2), (intersects_pt ha hb (Or.inr h1)).2⟩

theorem box_pt {e : HE} (h : e.1 = e.2) {p : Pt} (hp : inBox e p = true) : p = e.1 := by
  rw [inBox_iff, ← h, min_self, max_self, min_self, max_self] at hp
  exact Prod.ext (by omega) (by omega)

theorem grid_w {e : HE} (hd : Dir0 e) (p : Pt) : grid p e = true ↔ HitsSquare e p := by
  rcases hd with hd | hd
  · exact grid_iff hd p
  · constructor
    · intro h; rw [box_pt hd (grid_inBox h)]; exact hits_fst e
    · intro h; rw [box_pt hd (hits_box h)]; exact grid_fst e

theorem hits_on {e : HE} {p : Pt} (h : OnEdge e (cq p)) : HitsSquare e p := (hits_iff _ _).2 ⟨_, h, fl_cq _⟩

theorem par_pt {a b : HE} (h : a.1 = a.2 ∨ b.1 = b.2) : Parallel a b := by
  unfold Parallel
  rcases h with h | h <;> rw [h] <;> ring

theorem snap_iff_w {fp : FP} (hfp : fp.Floor) {umin : Int} {L : List Seg} (hL : Inj L) (hd : ∀ s ∈ L, Dir0 s.1)
    (hu : ∀ s ∈ L, umin ≤ min s.1.1.2 s.1.2.2) {s : Seg} (hs : s ∈ L) (p : Pt) :
    p ∈ divide fp umin L s.2 ↔ Hot (L.map Prod.fst) p ∧ HitsSquare s.1 p := by
  have hm : ∀ {x : Seg}, x ∈ L → x.1 ∈ L.map Prod.fst := fun hx => List.mem_map.2 ⟨_, hx, rfl⟩
  have hn : ∀ x ∈ L, nrm x.1 = x.1 := fun x hx => nrm_w (hd x hx)
  constructor
  · intro hp
    refine divide_inv fp umin L hL (N := Hot (L.map Prod.fst)) (B := HitsSquare) ?_ ?_ ?_ s hs p hp
    · exact fun a ha => ⟨Or.inl ⟨a.1, hm ha, Or.inl rfl⟩, Or.inl ⟨a.1, hm ha, Or.inr rfl⟩⟩
    · intro a ha b hb r h
      rw [hn a ha, hn b hb] at h
      rcases hd b hb with db | db
      · rcases hd a ha with da | da
        · obtain ⟨hc, q, qa, qb, rfl⟩ := floor_sound hfp da db h
          exact ⟨Or.inr ⟨a.1, hm ha, b.1, hm hb, by rw [parallel_iff]; exact hc, q, qa, qb, rfl⟩, (hits_iff _ _).2 ⟨q, qa, rfl⟩, (hits_iff _ _).2 ⟨q, qb, rfl⟩⟩
        · obtain ⟨rfl, g⟩ := compute_pt (hd b hb) da (Or.inr h)
          exact ⟨Or.inl ⟨a.1, hm ha, Or.inl rfl⟩, hits_fst _, hits_on g⟩
      · obtain ⟨rfl, g⟩ := compute_pt (hd a ha) db (Or.inl h)
        exact ⟨Or.inl ⟨b.1, hm hb, Or.inl rfl⟩, hits_on g, hits_fst _⟩
    · intro a ha r _ hg
      rw [hn a ha] at hg
      exact (grid_w (hd a ha) _).1 hg
  · rintro ⟨hH, hh⟩
    have hg : grid p (nrm s.1) = true := by rw [hn s hs]; exact (grid_w (hd s hs) _).2 hh
    have hend : ∀ b ∈ L.map Prod.fst, (p = b.1 ∨ p = b.2) → p ∈ divide fp umin L s.2 := by
      intro b hb h
      obtain ⟨b', hb', rfl⟩ := List.mem_map.1 hb
      exact divide_ends fp umin hs hb' h hg
    rcases hH with ⟨b, hb, h⟩ | ⟨a, ha, b, hb, hc, q, qa, qb, rfl⟩
    · exact hend b hb h
    · have hnp := hc
      rw [parallel_iff] at hc
      obtain ⟨a', ha', rfl⟩ := List.mem_map.1 ha
      obtain ⟨b', hb', rfl⟩ := List.mem_map.1 hb
      have da := (hd a' ha').resolve_right (fun h => hnp (par_pt (Or.inl h)))
      have db := (hd b' hb').resolve_right (fun h => hnp (par_pt (Or.inr h)))
      rcases onEdge_cases qa with h | h | ia
      · exact hend a'.1 ha (Or.inl (by rw [corner_eq, h, fl_cq]))
      · exact hend a'.1 ha (Or.inr (by rw [corner_eq, h, fl_cq]))
      rcases onEdge_cases qb with h | h | ib
      · exact hend b'.1 hb (Or.inl (by rw [corner_eq, h, fl_cq]))
      · exact hend b'.1 hb (Or.inr (by rw [corner_eq, h, fl_cq]))
      have hc' : cr b'.1 a'.1 ≠ 0 := by rw [cr_symm]; omega
      refine divide_cross fp umin ha' hb' hs hu ?_ ?_ ?_ (fl_box qa) (fl_box qb) hg
      · rw [hn _ ha', hn _ hb']; exact floor_complete hfp da db hc ia ib
      · rw [hn _ ha', hn _ hb']; exact floor_complete hfp db da hc' ib ia
      · intro k hk
        rw [hn _ ha', hn _ hb'] at hk ⊢
        exact ⟨compared_inner da db hc ia ib hk, compared_inner db da hc' ib ia hk.symm⟩

theorem cut_snap_w {fp : FP} (hfp : fp.Floor) {umin : Int} {E : List Ev} (hd : ∀ e ∈ E, Dir0 e.1) (hu : ∀ e ∈ E, umin ≤ min e.1.1.2 e.1.2.2)
    {j : Nat} {ev : Ev} (hj : E[j]? = some ev) (p : Pt) :
    p ∈ divide fp umin (number 0 E) (0 + j) ↔ Hot (E.map Prod.fst) p ∧ HitsSquare ev.1 p := by
  have hm : ∀ s ∈ number 0 E, ∃ e ∈ E, s.1 = e.1 := by
    intro s hs
    obtain ⟨i, e, h1, rfl⟩ := (number_mem _ _ _).1 hs
    exact ⟨e, List.mem_of_getElem? h1, rfl⟩
  have := snap_iff_w hfp (umin := umin) (L := number 0 E) (fun s hs t ht => number_inj hs ht)
    (fun s hs => by obtain ⟨e, he, h⟩ := hm s hs; rw [h]; exact hd e he)
    (fun s hs => by obtain ⟨e, he, h⟩ := hm s hs; rw [h]; exact hu e he)
    (s := (ev.1, 0 + j)) ((number_mem _ _ _).2 ⟨j, ev, hj, rfl⟩) p
  rwa [number_edges] at this

theorem snap_ok_w {fp : FP} (hfp : fp.Floor) {umin : Int} {E : List Ev} (hd : ∀ e ∈ E, Dir0 e.1) (hu : ∀ e ∈ E, umin ≤ min e.1.1.2 e.1.2.2)
    {j : Nat} {ev : Ev} (hj : E[j]? = some ev) : OK ev.1 (divide fp umin (number 0 E) (0 + j)) := by
  have hm : ev.1 ∈ E.map Prod.fst := List.mem_map.2 ⟨ev, List.mem_of_getElem? hj, rfl⟩
  refine ⟨divide_srt _ _ _ _, ?_, ?_, ?_⟩
  · exact (cut_snap_w hfp hd hu hj _).2 ⟨Or.inl ⟨_, hm, Or.inl rfl⟩, hits_fst _⟩
  · exact (cut_snap_w hfp hd hu hj _).2 ⟨Or.inl ⟨_, hm, Or.inr rfl⟩, hits_snd _⟩
  · intro p hp; exact hits_box ((cut_snap_w hfp hd hu hj _).1 hp).2

/-- A point has no pieces. -/
theorem pieces_pt {e : HE} (h : e.1 = e.2) {L : List Pt} (hok : OK e L) : pieces e L = [] := by
  obtain ⟨s1, s2⟩ := ord_spec (e := e) hok.srt
  rw [pieces_eq, List.eq_nil_iff_forall_not_mem]
  intro p hp
  obtain ⟨g1, g2, g3⟩ := chain_pairwise _ s1 p hp
  have k1 := box_pt h (hok.box _ ((s2 _).1 g2))
  have k2 := box_pt h (hok.box _ ((s2 _).1 g3))
  rw [k1, k2] at g1
  exact along_asymm e _ _ g1 g1

theorem snap_piece_w {fp : FP} (hfp : fp.Floor) {umin : Int} {E : List Ev} (hd : ∀ e ∈ E, Dir0 e.1) (hu : ∀ e ∈ E, umin ≤ min e.1.1.2 e.1.2.2)
    {j : Nat} {ev : Ev} (hj : E[j]? = some ev) {p : HE} (hp : p ∈ pieces ev.1 (divide fp umin (number 0 E) (0 + j))) :
    Piece (E.map Prod.fst) ev.1 p.1 p.2 := by
  have hm := List.mem_of_getElem? hj
  have hok := snap_ok_w hfp hd hu hj
  have dv : Directed ev.1 := (hd ev hm).resolve_right (fun h => by rw [pieces_pt h hok] at hp; simp at hp)
  obtain ⟨s1, s2⟩ := ord_spec (e := ev.1) hok.srt
  rw [pieces_eq] at hp
  obtain ⟨g1, g2, g3⟩ := chain_pairwise _ s1 p hp
  have k1 := (cut_snap_w hfp hd hu hj _).1 ((s2 _).1 g2)
  have k2 := (cut_snap_w hfp hd hu hj _).1 ((s2 _).1 g3)
  exact ⟨List.mem_map.2 ⟨ev, hm, rfl⟩, dv, g1, k1.1, k2.1, k1.2, k2.2, fun w hw hh =>
    chain_gap (along_asymm ev.1) _ s1 p hp w ((s2 _).2 ((cut_snap_w hfp hd hu hj _).2 ⟨hw, hh⟩))⟩

theorem snap_finish_w {fp : FP} (hfp : fp.Floor) {umin : Int} {E : List Ev} (hd : ∀ e ∈ E, Dir0 e.1) (hu : ∀ e ∈ E, umin ≤ min e.1.1.2 e.1.2.2)
    {e : Ev} (he : e ∈ cut fp umin E) : Directed e.1 ∧ PieceU (E.map Prod.fst) e.1.1 e.1.2 := by
  obtain ⟨j, ev, h1, h2⟩ := (cutGo_mem _ _ _ _).1 he
  refine ⟨(pieces_dir (snap_ok_w hfp hd hu h1) e h2).1, ?_⟩
  obtain ⟨p, hp, rfl⟩ := List.mem_map.1 h2
  have hP := snap_piece_w hfp hd hu h1 hp
  have hv : ev.1.1.1 = ev.1.2.1 → p.1.1 = p.2.1 := by
    intro h
    have b1 := (inBox_iff _ _).1 (hits_box hP.su)
    have b2 := (inBox_iff _ _).1 (hits_box hP.sv)
    omega
  rcases (finish_spec hP.lt hv).2.2.1 with h | h
  · rw [h]; exact Or.inl ⟨_, hP⟩
  · rw [h]; exact Or.inr ⟨_, hP⟩

theorem snap_planar_w {fp : FP} (hfp : fp.Floor) {umin : Int} {E : List Ev} (hd : ∀ e ∈ E, Dir0 e.1) (hu : ∀ e ∈ E, umin ≤ min e.1.1.2 e.1.2.2) :
    Planar ((cut fp umin E).map Prod.fst) := by
  intro f hf g hg hne q q1 q2
  obtain ⟨f', hf', rfl⟩ := List.mem_map.1 hf
  obtain ⟨g', hg', rfl⟩ := List.mem_map.1 hg
  obtain ⟨df, pf⟩ := snap_finish_w hfp hd hu hf'
  obtain ⟨dg, pg⟩ := snap_finish_w hfp hd hu hg'
  exact pieceU_planar pf pg df dg hne q1 q2

theorem near_layer_w (ip : Pts) (q : ℚ × ℚ) (k : Int) : ∀ (E : List Ev) (i : Nat),
    (∀ j ev, E[j]? = some ev → Dir0 ev.1 ∧ OK ev.1 (ip (i + j)) ∧ (∀ p ∈ ip (i + j), HitsSquare ev.1 p) ∧
      (ev.2.1 = k → ∀ z, OnEdge ev.1 z → ¬ (q.1 ≤ z.1 ∧ z.1 < q.1 + 1 ∧ q.2 ≤ z.2 ∧ z.2 < q.2 + 1))) →
    depth (layer (cutGo ip i E) k) q = depth (layer E k) q
  | [], _, _ => rfl
  | ev :: r, i, h => by
    obtain ⟨h0, h1, h2, h3⟩ := h 0 ev rfl
    rw [Nat.add_zero] at h1 h2
    have ih := near_layer_w ip q k r (i + 1) (fun j e he => by rw [show i + 1 + j = i + (j + 1) by ring]; exact h (j + 1) e he)
    have key : ∀ A B : List Ev, layer (A ++ B) k = layer A k ++ layer B k := by
      intro A B; simp [layer]
    rcases h0 with h0 | h0
    · have one := near_layer (fun _ => ip i) q k [ev] 0 (fun j e he => by
        match j, he with
        | 0, he =>
          obtain rfl : ev = e := Option.some_inj.1 he
          exact ⟨h0, h1, h2, h3⟩)
      rw [cutGo, key, depth_append, ih, show ev :: r = [ev] ++ r from rfl, key, depth_append]
      congr 1
      rw [cutGo, cutGo, List.append_nil] at one
      exact one
    · rw [cutGo, pieces_pt h0 h1, List.map_nil, List.nil_append, ih, show ev :: r = [ev] ++ r from rfl, key, depth_append]
      have : depth (layer [ev] k) q = 0 := by
        by_cases c : ev.2.1 = k
        · have l2 : layer [ev] k = [evC ev] := by simp [layer, c, evC]
          rw [l2]
          unfold Spec.Arb.depth
          simp only [List.map_cons, List.map_nil, List.sum_cons, List.sum_nil, add_zero]
          rw [if_neg]
          rintro ⟨k1, k2, _⟩
          unfold evC at k1 k2
          dsimp only at k1 k2
          rw [h0] at k1
          linarith
        · have l2 : layer [ev] k = [] := by simp [layer, c]
          rw [l2]; rfl
      rw [this, zero_add]

/-- What `execute` does with exact arithmetic when some edges may be points. -/
theorem execute_snap_w {fp : FP} (hfp : fp.Floor) {umin : Int} (umax : Int) (op : Nat) {A B : Data} (hd : ∀ e ∈ A ++ B, Dir0 e.1)
    (hu : ∀ e ∈ A ++ B, umin ≤ min e.1.1.2 e.1.2.2) (hA : Closed A) (hB : Closed B) :
    ∃ out, execute fp op umin umax A B = some out ∧
      (∀ q, Clear ((A ++ B).map Prod.fst) q → depth out q = if inResult op (depth A q > 0) (depth B q > 0) then 1 else 0) ∧
      (∀ a ∈ out, Directed a.1 ∧ Hot ((A ++ B).map Prod.fst) a.1.1 ∧ Hot ((A ++ B).map Prod.fst) a.1.2 ∧
        (∃ e ∈ A ++ B, Near a.1 e.1) ∧ (a.2 = 1 ∨ a.2 = -1)) ∧
      (out.map Prod.fst).Nodup ∧ Planar (out.map Prod.fst) ∧ Closed out ∧ ∀ q, depth out q = 0 ∨ depth out q = 1 := by
  obtain ⟨l0, l1⟩ := layer_tag A B
  unfold execute
  dsimp only
  by_cases hem : (tag 0 A ++ tag 1 B).isEmpty = true
  · have hem' := hem
    rw [List.isEmpty_iff, List.append_eq_nil_iff] at hem'
    have a0 : A = [] := by cases A with | nil => rfl | cons => simp [tag] at hem'
    have b0 : B = [] := by cases B with | nil => rfl | cons => simp [tag] at hem'
    subst a0; subst b0
    have := execute_snap hfp (umin := umin) umax op (A := []) (B := []) (by simp) (by simp) hA hB
    unfold execute at this
    exact this
  · rw [if_neg hem]
    have hm : ∀ e ∈ tag 0 A ++ tag 1 B, ∃ x ∈ A ++ B, x.1 = e.1 := by
      intro e he
      have : e.1 ∈ (tag 0 A ++ tag 1 B).map Prod.fst := List.mem_map.2 ⟨e, he, rfl⟩
      rw [tag_edges] at this
      obtain ⟨x, hx, h⟩ := List.mem_map.1 this
      exact ⟨x, hx, h⟩
    have hEd : ∀ e ∈ tag 0 A ++ tag 1 B, Dir0 e.1 := fun e he => by obtain ⟨x, hx, h⟩ := hm e he; rw [← h]; exact hd x hx
    have hEu : ∀ e ∈ tag 0 A ++ tag 1 B, umin ≤ min e.1.1.2 e.1.2.2 := fun e he => by obtain ⟨x, hx, h⟩ := hm e he; rw [← h]; exact hu x hx
    have hte := tag_edges A B
    generalize hE : tag 0 A ++ tag 1 B = E at *
    have hcd : ∀ e ∈ cut fp umin E, Directed e.1 := fun e he => (snap_finish_w hfp hEd hEu he).1
    have hk : ∀ e ∈ cut fp umin E, e.2.1 = 0 ∨ e.2.1 = 1 := by
      intro e he
      obtain ⟨j, ev, h1, h2⟩ := (cutGo_mem _ _ _ _).1 he
      rw [(pieces_dir (snap_ok_w hfp hEd hEu h1) e h2).2.1]
      have h1 := List.mem_of_getElem? h1
      rw [← hE, List.mem_append] at h1
      unfold tag at h1
      rcases h1 with h1 | h1
      · obtain ⟨a, _, rfl⟩ := List.mem_map.1 h1; left; rfl
      · obtain ⟨a, _, rfl⟩ := List.mem_map.1 h1; right; rfl
    have hflow : ∀ k v, ((layer (cut fp umin E) k).map (fun e => inflow e v)).sum = ((layer E k).map (fun e => inflow e v)).sum :=
      cutGo_flow _ E 0 (fun j ev hj => snap_ok_w hfp hEd hEu hj)
    have hC : ∀ k, Closed (layer (cut fp umin E) k) := by
      intro k
      by_cases h0 : k = 0
      · subst h0; intro v; rw [hflow, l0]; exact hA v
      by_cases h1 : k = 1
      · subst h1; intro v; rw [hflow, l1]; exact hB v
      · rw [layer_none hk h0 h1]; intro v; rfl
    have hP := snap_planar_w hfp hEd hEu
    have hs := Properties.Arb.C68_sort _ hcd
    obtain ⟨out, o1, o2⟩ := Properties.Arb.C68_boolean_region op umin umax _ _ hcd hP hC hk hs.2.2.2.1 hs.2.2.2.2
    obtain ⟨out', p1, p2, p3, p4, p5⟩ := Properties.Arb.C69_boolean_canonical op umin umax _ _ hcd hP hC hk hs.2.2.2.1 hs.2.2.2.2
    rw [o1] at p1
    obtain rfl := Option.some_inj.1 p1
    refine ⟨out, o1, fun q hq => ?_, fun a ha => ?_, p3, p4, p5, fun q => by rw [o2 q]; split_ifs <;> simp⟩
    · have hdep : ∀ k, depth (layer (cut fp umin E) k) q = depth (layer E k) q := fun k => near_layer_w _ q k E 0 (fun j ev hj =>
        ⟨hEd ev (List.mem_of_getElem? hj), snap_ok_w hfp hEd hEu hj, fun p hp => ((cut_snap_w hfp hEd hEu hj p).1 hp).2,
          fun _ z hz => hq ev.1 (by rw [← hte]; exact List.mem_map.2 ⟨ev, List.mem_of_getElem? hj, rfl⟩) z hz⟩)
      rw [o2 q, hdep, hdep, l0, l1]
    · obtain ⟨e, he, h2⟩ := List.mem_map.1 (p2 a ha).1
      obtain ⟨g1, g2⟩ := snap_finish_w hfp hEd hEu he
      have hot := pieceU_hot g2
      rw [h2, hte] at hot
      refine ⟨h2 ▸ g1, hot.1, hot.2, ?_, (p2 a ha).2⟩
      rw [← h2]
      rcases g2 with ⟨f, hf⟩ | ⟨f, hf⟩
      · obtain ⟨x, hx, rfl⟩ := List.mem_map.1 (hte ▸ hf.mem)
        exact ⟨x, hx, near_of hf.su hf.sv⟩
      · obtain ⟨x, hx, rfl⟩ := List.mem_map.1 (hte ▸ hf.mem)
        exact ⟨x, hx, near_swap (near_of hf.su hf.sv)⟩

end Verif.Cut
