import Verif.Proofs.CutHobby
/-! The pieces of a snapped cut are planar. -/
namespace Verif.Cut
open Verif Verif.Arb Verif.Contains Verif.PolySet Verif.Spec Verif.Spec.Arb Verif.Deform

/-- No point of the list lies strictly between consecutive points. -/
theorem chain_gap {R : Pt → Pt → Prop} (hR : ∀ a b, R a b → ¬ R b a) : ∀ (L : List Pt), L.Pairwise R → ∀ p ∈ chain L, ∀ r ∈ L, ¬ (R p.1 r ∧ R r p.2)
  | [], _, p, hp => by simp [chain] at hp
  | [a], _, p, hp => by simp [chain] at hp
  | a :: b :: l, h, p, hp => by
    intro r hr ⟨h1, h2⟩
    have h' := List.pairwise_cons.1 h
    have h'' := List.pairwise_cons.1 h'.2
    rcases List.mem_cons.1 hp with rfl | hp'
    · rcases List.mem_cons.1 hr with rfl | hr
      · exact hR _ _ h1 h1
      · rcases List.mem_cons.1 hr with rfl | hr
        · exact hR _ _ h2 h2
        · exact hR _ _ h2 (h''.1 r hr)
    · rcases List.mem_cons.1 hr with rfl | hr
      · obtain ⟨_, k2, _⟩ := chain_pairwise (b :: l) h'.2 p hp'
        exact hR _ _ h1 (h'.1 _ k2)
      · exact chain_gap hR (b :: l) h'.2 p hp' r hr ⟨h1, h2⟩

/-- The pieces of a snapped cut. -/
theorem snap_piece {fp : FP} (hfp : fp.Floor) {umin : Int} {E : List Ev} (hd : ∀ e ∈ E, Directed e.1) (hu : ∀ e ∈ E, umin ≤ min e.1.1.2 e.1.2.2)
    {j : Nat} {ev : Ev} (hj : E[j]? = some ev) {p : HE} (hp : p ∈ pieces ev.1 (divide fp umin (number 0 E) (0 + j))) :
    Piece (E.map Prod.fst) ev.1 p.1 p.2 := by
  have hm := List.mem_of_getElem? hj
  obtain ⟨s1, s2⟩ := ord_spec (e := ev.1) (snap_ok hfp hd hu hj).srt
  rw [pieces_eq] at hp
  obtain ⟨g1, g2, g3⟩ := chain_pairwise _ s1 p hp
  have k1 := (cut_snap hfp hd hu hj _).1 ((s2 _).1 g2)
  have k2 := (cut_snap hfp hd hu hj _).1 ((s2 _).1 g3)
  exact ⟨List.mem_map.2 ⟨ev, hm, rfl⟩, hd ev hm, g1, k1.1, k2.1, k1.2, k2.2, fun w hw hh =>
    chain_gap (along_asymm ev.1) _ s1 p hp w ((s2 _).2 ((cut_snap hfp hd hu hj _).2 ⟨hw, hh⟩))⟩

/-- A piece without its direction. -/
def PieceU (E : List HE) (x y : Pt) : Prop := (∃ e, Piece E e x y) ∨ ∃ e, Piece E e y x

theorem on_swap {x a b : ℝ × ℝ} (h : On x a b) : On x b a := by
  obtain ⟨t, t0, t1, ht⟩ := h
  refine ⟨1 - t, by linarith, by linarith, ?_⟩
  rw [ht]; unfold lin; apply Prod.ext
  · dsimp only; ring
  · dsimp only; ring

theorem pieceU_swap {E : List HE} {x y : Pt} (h : PieceU E x y) : PieceU E y x := h.symm

theorem pieceU_hot {E : List HE} {x y : Pt} (h : PieceU E x y) : Hot E x ∧ Hot E y := by
  rcases h with ⟨e, h⟩ | ⟨e, h⟩
  · exact ⟨h.hu, h.hv⟩
  · exact ⟨h.hv, h.hu⟩

theorem pieceU_on {E : List HE} {x y w : Pt} (h : PieceU E x y) (hw : Hot E w) (hon : On (rp w) (rp x) (rp y)) : w = x ∨ w = y := by
  rcases h with ⟨e, h⟩ | ⟨e, h⟩
  · exact piece_on h hw hon
  · exact (piece_on h hw (on_swap hon)).symm

theorem pieceU_share {E : List HE} {x y x' y' : Pt} (h : PieceU E x y) (h' : PieceU E x' y') {z : ℝ × ℝ}
    (hz : On z (rp x) (rp y)) (hz' : On z (rp x') (rp y')) : x = x' ∨ x = y' ∨ y = x' ∨ y = y' := by
  rcases h with ⟨e, h⟩ | ⟨e, h⟩ <;> rcases h' with ⟨f, h'⟩ | ⟨f, h'⟩
  · exact piece_share h h' hz hz'
  · have := piece_share h h' hz (on_swap hz'); tauto
  · have := piece_share h h' (on_swap hz) hz'; tauto
  · have := piece_share h h' (on_swap hz) (on_swap hz'); tauto

theorem rp_inj {a b : Pt} (h : rp a = rp b) : a = b := by
  unfold rp at h; rw [Prod.mk.injEq] at h
  exact Prod.ext (by exact_mod_cast h.1) (by exact_mod_cast h.2)

/-- Pieces from a common end point that have another point in common are equal. -/
theorem pieceU_ray {E : List HE} {w x x' : Pt} (h : PieceU E w x) (h' : PieceU E w x') (hx : x ≠ w) (hx' : x' ≠ w) {z : ℝ × ℝ}
    (hz : On z (rp w) (rp x)) (hz' : On z (rp w) (rp x')) (hne : z ≠ rp w) : x = x' := by
  obtain ⟨a, a0, a1, ha⟩ := hz
  obtain ⟨b, b0, b1, hb⟩ := hz'
  have ha' : 0 < a := by
    rcases a0.lt_or_eq with g | g
    · exact g
    · exfalso; apply hne; rw [ha, ← g]; unfold lin; ext <;> simp
  have hb' : 0 < b := by
    rcases b0.lt_or_eq with g | g
    · exact g
    · exfalso; apply hne; rw [hb, ← g]; unfold lin; ext <;> simp
  rw [ha] at hb
  unfold lin at hb
  rw [Prod.mk.injEq] at hb
  obtain ⟨k1, k2⟩ := hb
  rcases le_total b a with c | c
  · have hon : On (rp x) (rp w) (rp x') := by
      refine ⟨b / a, div_nonneg b0 a0, (div_le_one ha').2 c, ?_⟩
      unfold lin
      apply Prod.ext
      · dsimp only; field_simp; linear_combination k1
      · dsimp only; field_simp; linear_combination k2
    exact (pieceU_on h' (pieceU_hot h).2 hon).resolve_left hx
  · have hon : On (rp x') (rp w) (rp x) := by
      refine ⟨a / b, div_nonneg a0 b0, (div_le_one hb').2 c, ?_⟩
      unfold lin
      apply Prod.ext
      · dsimp only; field_simp; linear_combination -k1
      · dsimp only; field_simp; linear_combination -k2
    exact ((pieceU_on h (pieceU_hot h').2 hon).resolve_left hx').symm

theorem dir_ne {f : HE} (h : Directed f) : f.1 ≠ f.2 := by
  intro g; unfold Spec.Arb.Directed at h; rw [g] at h; omega

theorem rq_cq (p : Pt) : rq (cq p) = rp p := by unfold rq rp cq; ext <;> simp

theorem rq_inj {a b : ℚ × ℚ} (h : rq a = rq b) : a = b := by
  unfold rq at h; rw [Prod.mk.injEq] at h
  exact Prod.ext (by exact_mod_cast h.1) (by exact_mod_cast h.2)

theorem on_rq {e : HE} {q : ℚ × ℚ} (h : OnEdge e q) : On (rq q) (rp e.1) (rp e.2) := by
  obtain ⟨t, t0, t1, hx, hy⟩ := h
  refine ⟨(t : ℝ), by exact_mod_cast t0, by exact_mod_cast t1, ?_⟩
  unfold rq rp lin; apply Prod.ext
  · dsimp only; rw [hx]; push_cast; ring
  · dsimp only; rw [hy]; push_cast; ring

theorem pieceU_planar {E : List HE} {f g : HE} (hf : PieceU E f.1 f.2) (hg : PieceU E g.1 g.2) (df : Directed f) (dg : Directed g) (hne : f ≠ g)
    {q : ℚ × ℚ} (q1 : OnEdge f q) (q2 : OnEdge g q) : EndOf f q ∧ EndOf g q := by
  have o1 := on_rq q1
  have o2 := on_rq q2
  have nf := dir_ne df
  have ng := dir_ne dg
  have fin : ∀ {w : Pt}, (w = f.1 ∨ w = f.2) → (w = g.1 ∨ w = g.2) → rq q = rp w → EndOf f q ∧ EndOf g q := by
    intro w h1 h2 h3
    have : q = cq w := rq_inj (by rw [h3, rq_cq])
    rw [this]; exact ⟨endOf_cq h1, endOf_cq h2⟩
  rcases pieceU_share hf hg o1 o2 with h | h | h | h
  · by_cases c : rq q = rp f.1
    · exact fin (Or.inl rfl) (Or.inl h) c
    · exfalso
      have := pieceU_ray hf (h ▸ hg) nf.symm (by rw [h]; exact ng.symm) o1 (by rw [h]; exact o2) c
      exact hne (Prod.ext h this)
  · by_cases c : rq q = rp f.1
    · exact fin (Or.inl rfl) (Or.inr h) c
    · exfalso
      have := pieceU_ray hf (by rw [h]; exact pieceU_swap hg) nf.symm (by rw [h]; exact ng) o1 (by rw [h]; exact (on_swap o2)) c
      have h1 : f.2 = g.1 := this
      unfold Spec.Arb.Directed at df dg; rw [h, h1] at df; omega
  · by_cases c : rq q = rp f.2
    · exact fin (Or.inr rfl) (Or.inl h) c
    · exfalso
      have := pieceU_ray (pieceU_swap hf) (by rw [h]; exact hg) nf (by rw [h]; exact ng.symm) (on_swap o1) (by rw [h]; exact o2) c
      have h1 : f.1 = g.2 := this
      unfold Spec.Arb.Directed at df dg; rw [h, h1] at df; omega
  · by_cases c : rq q = rp f.2
    · exact fin (Or.inr rfl) (Or.inr h) c
    · exfalso
      have := pieceU_ray (pieceU_swap hf) (by rw [h]; exact pieceU_swap hg) nf (by rw [h]; exact ng) (on_swap o1) (by rw [h]; exact (on_swap o2)) c
      exact hne (Prod.ext this h)

theorem snap_finish {fp : FP} (hfp : fp.Floor) {umin : Int} {E : List Ev} (hd : ∀ e ∈ E, Directed e.1) (hu : ∀ e ∈ E, umin ≤ min e.1.1.2 e.1.2.2)
    {e : Ev} (he : e ∈ cut fp umin E) : Directed e.1 ∧ PieceU (E.map Prod.fst) e.1.1 e.1.2 := by
  obtain ⟨j, ev, h1, h2⟩ := (cutGo_mem _ _ _ _).1 he
  refine ⟨(pieces_dir (snap_ok hfp hd hu h1) e h2).1, ?_⟩
  obtain ⟨p, hp, rfl⟩ := List.mem_map.1 h2
  have hP := snap_piece hfp hd hu h1 hp
  have hv : ev.1.1.1 = ev.1.2.1 → p.1.1 = p.2.1 := by
    intro h
    have b1 := (inBox_iff _ _).1 (hits_box hP.su)
    have b2 := (inBox_iff _ _).1 (hits_box hP.sv)
    omega
  rcases (finish_spec hP.lt hv).2.2.1 with h | h
  · rw [h]; exact Or.inl ⟨_, hP⟩
  · rw [h]; exact Or.inr ⟨_, hP⟩

/-- With exact arithmetic the pieces of the cut segments meet only in common end points. -/
theorem snap_planar {fp : FP} (hfp : fp.Floor) {umin : Int} {E : List Ev} (hd : ∀ e ∈ E, Directed e.1) (hu : ∀ e ∈ E, umin ≤ min e.1.1.2 e.1.2.2) :
    Planar ((cut fp umin E).map Prod.fst) := by
  intro f hf g hg hne q q1 q2
  obtain ⟨f', hf', rfl⟩ := List.mem_map.1 hf
  obtain ⟨g', hg', rfl⟩ := List.mem_map.1 hg
  obtain ⟨df, pf⟩ := snap_finish hfp hd hu hf'
  obtain ⟨dg, pg⟩ := snap_finish hfp hd hu hg'
  exact pieceU_planar pf pg df dg hne q1 q2

end Verif.Cut
