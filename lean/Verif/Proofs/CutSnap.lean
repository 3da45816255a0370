import Verif.Proofs.CutFloor
/-! The points found on a segment: the hot points whose unit square it meets. -/
namespace Verif.Cut
open Verif Verif.Arb Verif.Contains Verif.PolySet Verif.Spec Verif.Spec.Arb

theorem corner_eq (q : ℚ × ℚ) : corner q = fl q := rfl

theorem floor_candidate {ev : Int → Pt → Pt → Int} {ptf : HE → HE → Option Pt}
    (hev : ∀ x p q, p.1 ≠ q.1 → ev x p q = ⌊Spec.lineY p q x⌋)
    (hpt : ∀ (e f : HE) (z : ℚ × ℚ), (e.2.1 - e.1.1) * (f.2.2 - f.1.2) ≠ (f.2.1 - f.1.1) * (e.2.2 - e.1.2) →
      (z.2 - e.1.2) * (e.2.1 - e.1.1) = (e.2.2 - e.1.2) * (z.1 - e.1.1) →
      (z.2 - f.1.2) * (f.2.1 - f.1.1) = (f.2.2 - f.1.2) * (z.1 - f.1.1) → ptf e f = some (⌊z.1⌋, ⌊z.2⌋))
    {a b : HE} (hda : Directed a) (hdb : Directed b) (hcr : cr a b ≠ 0) {q : ℚ × ℚ} (qa : OnEdge a q) (qb : OnEdge b q) :
    candidate ev ptf a b = some (fl q) := by
  have da := ((onEdge_lex hda q).1 qa).1
  have db := ((onEdge_lex hdb q).1 qb).1
  have ba := (inBox_iff _ _).1 (fl_box qa)
  have bb := (inBox_iff _ _).1 (fl_box qb)
  have hEval : ∀ (e : HE) (x : Int), ¬ e.1.1 = e.2.1 → dq q e = 0 → q.1 = x → evalAt ev x e.1 e.2 = ⌊q.2⌋ := by
    intro e x hv hdet hx
    unfold dq at hdet
    have hne : (e.2.1 : ℚ) - e.1.1 ≠ 0 := by
      intro h; apply hv
      have : (e.2.1 : ℚ) = e.1.1 := by linarith
      exact_mod_cast this.symm
    unfold evalAt
    by_cases g1 : e.1.2 = e.2.2
    · rw [if_pos g1]
      have g1q : (e.2.2 : ℚ) = e.1.2 := by exact_mod_cast g1.symm
      rw [g1q] at hdet
      have : (q.2 - e.1.2) * ((e.2.1 : ℚ) - e.1.1) = 0 := by linarith
      have := (mul_eq_zero.1 this).resolve_right hne
      have : q.2 = e.1.2 := by linarith
      rw [this, Int.floor_intCast]
    · rw [if_neg g1]
      by_cases g2 : x = e.1.1
      · rw [if_pos g2]
        rw [hx, g2] at hdet
        have : (q.2 - e.1.2) * ((e.2.1 : ℚ) - e.1.1) = 0 := by linarith
        have := (mul_eq_zero.1 this).resolve_right hne
        have : q.2 = e.1.2 := by linarith
        rw [this, Int.floor_intCast]
      · rw [if_neg g2, hev _ _ _ hv]
        congr 1
        unfold Spec.lineY
        rw [← hx]
        field_simp
        linarith
  unfold candidate
  rw [if_neg (by
    have : boxTouch a b = true := by
      rw [boxTouch_iff]; exact ⟨by omega, by omega, by omega, by omega⟩
    simp [this])]
  by_cases c1 : a.1.1 = a.2.1
  · rw [if_pos (by simpa [isVertical] using c1)]
    have c2 : ¬ b.1.1 = b.2.1 := by
      intro c2; apply hcr; unfold cr; rw [c1, c2]; ring
    rw [if_neg (by simpa [isVertical] using c2)]
    have hx : q.1 = a.1.1 := by
      have := on_box qa
      rw [← c1, min_self, max_self] at this
      exact le_antisymm this.2.1 this.1
    dsimp only
    rw [hEval b _ c2 db hx]
    have : fl q = (a.1.1, ⌊q.2⌋) := by unfold fl; rw [hx, Int.floor_intCast]
    rw [this] at ba ⊢
    rw [if_pos ba.2.2]
  · rw [if_neg (by simpa [isVertical] using c1)]
    by_cases c2 : b.1.1 = b.2.1
    · rw [if_pos (by simpa [isVertical] using c2)]
      have hx : q.1 = b.1.1 := by
        have := on_box qb
        rw [← c2, min_self, max_self] at this
        exact le_antisymm this.2.1 this.1
      dsimp only
      rw [hEval a _ c1 da hx]
      have : fl q = (b.1.1, ⌊q.2⌋) := by unfold fl; rw [hx, Int.floor_intCast]
      rw [this] at bb ⊢
      rw [if_pos bb.2.2]
    · rw [if_neg (by simpa [isVertical] using c2)]
      have c3 : ¬ (isHorizontal a && isHorizontal b) = true := by
        simp only [isHorizontal, Bool.and_eq_true, beq_iff_eq]
        rintro ⟨h1, h2⟩; apply hcr; unfold cr; rw [h1, h2]; ring
      rw [if_neg c3]
      have : ptf a b = some (fl q) := hpt a b q (by unfold cr at hcr; intro h; apply hcr; linarith) (by unfold dq at da; linarith) (by unfold dq at db; linarith)
      rw [this]
      have hy : (if isHorizontal b = true then b.1.2 else if isHorizontal a = true then a.1.2 else (fl q).2) = (fl q).2 := by
        split_ifs with g1 g2
        · simp only [isHorizontal, beq_iff_eq] at g1; omega
        · simp only [isHorizontal, beq_iff_eq] at g2; omega
        · rfl
      show (if (inBox a ((fl q).1, (if isHorizontal b = true then b.1.2 else if isHorizontal a = true then a.1.2 else (fl q).2)) &&
        inBox b ((fl q).1, (if isHorizontal b = true then b.1.2 else if isHorizontal a = true then a.1.2 else (fl q).2))) = true then
          some ((fl q).1, (if isHorizontal b = true then b.1.2 else if isHorizontal a = true then a.1.2 else (fl q).2)) else none) = _
      rw [hy, if_pos (by rw [Bool.and_eq_true]; exact ⟨fl_box qa, fl_box qb⟩)]

theorem floor_sound {fp : FP} (hfp : fp.Floor) {a b : HE} (hda : Directed a) (hdb : Directed b) {p : Pt} (h : computeIntersection fp a b = some p) :
    cr a b ≠ 0 ∧ ∃ q, OnEdge a q ∧ OnEdge b q ∧ fl q = p := by
  obtain ⟨hi, h1⟩ := compute_cases h
  have hcr : cr a b ≠ 0 := by
    intro hcr
    have k1 := par_candidate (ev := fp.yL) hda hdb hcr (hfp.parL a b (by unfold cr at hcr; linarith))
    have k2 := par_candidate (ev := fp.yE) hda hdb hcr (hfp.parE a b (by unfold cr at hcr; linarith))
    rw [k1, k2] at h1; simp at h1
  obtain ⟨q, qa, qb⟩ := intersects_common hda hdb hi
  refine ⟨hcr, q, qa, qb, ?_⟩
  have k1 := floor_candidate hfp.yL hfp.ptL hda hdb hcr qa qb
  have k2 := floor_candidate hfp.yE hfp.ptE hda hdb hcr qa qb
  rcases h1 with h1 | h1
  · rw [k1] at h1; exact Option.some_inj.1 h1
  · rw [k2] at h1; exact Option.some_inj.1 h1

theorem floor_complete {fp : FP} (hfp : fp.Floor) {a b : HE} (hda : Directed a) (hdb : Directed b) (hcr : cr a b ≠ 0) {q : ℚ × ℚ}
    (qa : InnerOn a q) (qb : InnerOn b q) : computeIntersection fp a b = some (fl q) :=
  compute_some (intersects_inner hda hdb hcr qa qb) (floor_candidate hfp.yL hfp.ptL hda hdb hcr qa.on qb.on)
    (grid_complete hda ((hits_iff _ _).2 ⟨q, qa.on, rfl⟩)) (grid_complete hdb ((hits_iff _ _).2 ⟨q, qb.on, rfl⟩))

/-- With exact arithmetic the points found on a segment are the hot points whose unit square it meets. -/
theorem snap_iff {fp : FP} (hfp : fp.Floor) {umin : Int} {L : List Seg} (hL : Inj L) (hd : ∀ s ∈ L, Directed s.1)
    (hu : ∀ s ∈ L, umin ≤ min s.1.1.2 s.1.2.2) {s : Seg} (hs : s ∈ L) (p : Pt) :
    p ∈ divide fp umin L s.2 ↔ Hot (L.map Prod.fst) p ∧ HitsSquare s.1 p := by
  have hm : ∀ {x : Seg}, x ∈ L → x.1 ∈ L.map Prod.fst := fun hx => List.mem_map.2 ⟨_, hx, rfl⟩
  have hn : ∀ x ∈ L, nrm x.1 = x.1 := fun x hx => nrm_dir (hd x hx)
  constructor
  · intro hp
    refine divide_inv fp umin L hL (N := Hot (L.map Prod.fst)) (B := HitsSquare) ?_ ?_ ?_ s hs p hp
    · exact fun a ha => ⟨Or.inl ⟨a.1, hm ha, Or.inl rfl⟩, Or.inl ⟨a.1, hm ha, Or.inr rfl⟩⟩
    · intro a ha b hb r h
      rw [hn a ha, hn b hb] at h
      obtain ⟨hc, q, qa, qb, rfl⟩ := floor_sound hfp (hd a ha) (hd b hb) h
      exact ⟨Or.inr ⟨a.1, hm ha, b.1, hm hb, by rw [parallel_iff]; exact hc, q, qa, qb, rfl⟩, (hits_iff _ _).2 ⟨q, qa, rfl⟩, (hits_iff _ _).2 ⟨q, qb, rfl⟩⟩
    · intro a ha r _ hg
      rw [hn a ha] at hg
      exact grid_hits (hd a ha) hg
  · rintro ⟨hH, hh⟩
    have hg : grid p (nrm s.1) = true := by rw [hn s hs]; exact grid_complete (hd s hs) hh
    have hend : ∀ b ∈ L.map Prod.fst, (p = b.1 ∨ p = b.2) → p ∈ divide fp umin L s.2 := by
      intro b hb h
      obtain ⟨b', hb', rfl⟩ := List.mem_map.1 hb
      exact divide_ends fp umin hs hb' h hg
    rcases hH with ⟨b, hb, h⟩ | ⟨a, ha, b, hb, hc, q, qa, qb, rfl⟩
    · exact hend b hb h
    · rw [parallel_iff] at hc
      obtain ⟨a', ha', rfl⟩ := List.mem_map.1 ha
      obtain ⟨b', hb', rfl⟩ := List.mem_map.1 hb
      have da := hd a' ha'
      have db := hd b' hb'
      rcases onEdge_cases qa with h | h | ia
      · exact hend a'.1 ha (Or.inl (by rw [corner_eq, h, fl_cq]))
      · exact hend a'.1 ha (Or.inr (by rw [corner_eq, h, fl_cq]))
      rcases onEdge_cases qb with h | h | ib
      · exact hend b'.1 hb (Or.inl (by rw [corner_eq, h, fl_cq]))
      · exact hend b'.1 hb (Or.inr (by rw [corner_eq, h, fl_cq]))
      have hc' : cr b'.1 a'.1 ≠ 0 := by rw [cr_symm]; omega
      refine divide_cross fp umin ha' hb' hs hu ?_ ?_ ?_ (fl_box qa) (fl_box qb) hg
      · rw [hn _ ha', hn _ hb']; exact floor_complete hfp da db hc ia ib
      · rw [hn _ ha', hn _ hb']; exact floor_complete hfp db da hc' ib ia
      · intro k hk
        rw [hn _ ha', hn _ hb'] at hk ⊢
        exact ⟨compared_inner da db hc ia ib hk, compared_inner db da hc' ib ia hk.symm⟩

theorem cut_snap {fp : FP} (hfp : fp.Floor) {umin : Int} {E : List Ev} (hd : ∀ e ∈ E, Directed e.1) (hu : ∀ e ∈ E, umin ≤ min e.1.1.2 e.1.2.2)
    {j : Nat} {ev : Ev} (hj : E[j]? = some ev) (p : Pt) :
    p ∈ divide fp umin (number 0 E) (0 + j) ↔ Hot (E.map Prod.fst) p ∧ HitsSquare ev.1 p := by
  have hm : ∀ s ∈ number 0 E, ∃ e ∈ E, s.1 = e.1 := by
    intro s hs
    obtain ⟨i, e, h1, rfl⟩ := (number_mem _ _ _).1 hs
    exact ⟨e, List.mem_of_getElem? h1, rfl⟩
  have := snap_iff hfp (umin := umin) (L := number 0 E) (fun s hs t ht => number_inj hs ht)
    (fun s hs => by obtain ⟨e, he, h⟩ := hm s hs; rw [h]; exact hd e he)
    (fun s hs => by obtain ⟨e, he, h⟩ := hm s hs; rw [h]; exact hu e he)
    (s := (ev.1, 0 + j)) ((number_mem _ _ _).2 ⟨j, ev, hj, rfl⟩) p
  rwa [number_edges] at this

theorem hits_fst (e : HE) : HitsSquare e e.1 := (hits_iff _ _).2 ⟨_, onEdge_fst e, fl_cq _⟩
theorem hits_snd (e : HE) : HitsSquare e e.2 := (hits_iff _ _).2 ⟨_, onEdge_snd e, fl_cq _⟩

theorem snap_ok {fp : FP} (hfp : fp.Floor) {umin : Int} {E : List Ev} (hd : ∀ e ∈ E, Directed e.1) (hu : ∀ e ∈ E, umin ≤ min e.1.1.2 e.1.2.2)
    {j : Nat} {ev : Ev} (hj : E[j]? = some ev) : OK ev.1 (divide fp umin (number 0 E) (0 + j)) := by
  have hm : ev.1 ∈ E.map Prod.fst := List.mem_map.2 ⟨ev, List.mem_of_getElem? hj, rfl⟩
  refine ⟨divide_srt _ _ _ _, ?_, ?_, ?_⟩
  · exact (cut_snap hfp hd hu hj _).2 ⟨Or.inl ⟨_, hm, Or.inl rfl⟩, hits_fst _⟩
  · exact (cut_snap hfp hd hu hj _).2 ⟨Or.inl ⟨_, hm, Or.inr rfl⟩, hits_snd _⟩
  · intro p hp; exact hits_box ((cut_snap hfp hd hu hj _).1 hp).2

/-! ### Exact arithmetic -/

theorem floorDiv_eq (n d : Int) (hd : d ≠ 0) : floorDiv n d = ⌊(n : ℚ) / d⌋ := by
  have hq : (d : ℚ) ≠ 0 := by exact_mod_cast hd
  have hpos : 0 < d * d := mul_self_pos.2 hd
  unfold floorDiv
  have : (n : ℚ) / d = ((n * d : Int) : ℚ) / ((d * d : Int) : ℚ) := by push_cast; field_simp
  obtain ⟨m, hm⟩ : ∃ m : ℕ, ((m : Int)) = d * d := ⟨(d * d).toNat, Int.toNat_of_nonneg hpos.le⟩
  rw [this, ← hm, Int.cast_natCast, Rat.floor_intCast_div_natCast]

theorem exactFP_floor : exactFP.Floor := by
  have hy : ∀ (x : Int) (p q : Pt), p.1 ≠ q.1 → p.2 + floorDiv ((x - p.1) * (q.2 - p.2)) (q.1 - p.1) = ⌊Spec.lineY p q x⌋ := by
    intro x p q h
    rw [floorDiv_eq _ _ (by omega), ← Int.floor_intCast_add]
    congr 1
    unfold Spec.lineY
    push_cast
    ring
  have hp : ∀ (e f : HE) (z : ℚ × ℚ), (e.2.1 - e.1.1) * (f.2.2 - f.1.2) ≠ (f.2.1 - f.1.1) * (e.2.2 - e.1.2) →
      (z.2 - e.1.2) * (e.2.1 - e.1.1) = (e.2.2 - e.1.2) * (z.1 - e.1.1) →
      (z.2 - f.1.2) * (f.2.1 - f.1.1) = (f.2.2 - f.1.2) * (z.1 - f.1.1) → exactFP.exactPt e f = some (⌊z.1⌋, ⌊z.2⌋) := by
    intro e f z h h1 h2
    unfold exactFP.exactPt
    dsimp only
    rw [if_neg h]
    have n1 : (e.2.2 - e.1.2) * (f.2.1 - f.1.1) - (f.2.2 - f.1.2) * (e.2.1 - e.1.1) ≠ 0 := by
      intro hc; apply h; linarith
    have n2 : (e.2.1 - e.1.1) * (f.2.2 - f.1.2) - (f.2.1 - f.1.1) * (e.2.2 - e.1.2) ≠ 0 := by
      intro hc; apply h; linarith
    rw [floorDiv_eq _ _ n1, floorDiv_eq _ _ n2]
    have q1 : (((e.2.2 - e.1.2) * (f.2.1 - f.1.1) - (f.2.2 - f.1.2) * (e.2.1 - e.1.1) : Int) : ℚ) ≠ 0 := by exact_mod_cast n1
    have q2 : (((e.2.1 - e.1.1) * (f.2.2 - f.1.2) - (f.2.1 - f.1.1) * (e.2.2 - e.1.2) : Int) : ℚ) ≠ 0 := by exact_mod_cast n2
    congr 2
    · congr 1
      rw [div_eq_iff q1]
      push_cast
      linear_combination ((f.2.1 : ℚ) - f.1.1) * h1 - ((e.2.1 : ℚ) - e.1.1) * h2
    · congr 1
      rw [div_eq_iff q2]
      push_cast
      linear_combination ((e.2.2 : ℚ) - e.1.2) * h2 - ((f.2.2 : ℚ) - f.1.2) * h1
  have hn : ∀ e f : HE, (e.2.1 - e.1.1) * (f.2.2 - f.1.2) = (f.2.1 - f.1.1) * (e.2.2 - e.1.2) → exactFP.exactPt e f = none := by
    intro e f h
    unfold exactFP.exactPt
    dsimp only
    rw [if_pos h]
  exact ⟨hy, hy, hp, hp, hn, hn⟩

theorem floor_accurate {fp : FP} (h : fp.Floor) : fp.Accurate := by
  have hy : ∀ (x y : Int) (p q : Pt), p.1 ≠ q.1 → (y - p.2) * (q.1 - p.1) = (q.2 - p.2) * (x - p.1) → ⌊Spec.lineY p q x⌋ = y := by
    intro x y p q h1 h2
    have hne : (q.1 : ℚ) - p.1 ≠ 0 := by
      have : q.1 - p.1 ≠ 0 := by omega
      exact_mod_cast this
    have h2 : ((y : ℚ) - p.2) * (q.1 - p.1) = (q.2 - p.2) * (x - p.1) := by exact_mod_cast h2
    have : Spec.lineY p q x = y := by
      unfold Spec.lineY
      rw [← h2]; field_simp; ring
    rw [this, Int.floor_intCast]
  refine ⟨fun x y p q h1 h2 => by rw [h.yL x p q h1, hy x y p q h1 h2], fun x y p q h1 h2 => by rw [h.yE x p q h1, hy x y p q h1 h2], ?_, ?_, h.parL, h.parE⟩
  · intro e f p h1 h2 h3
    have := h.ptL e f (cq p) h1 (by unfold cq; dsimp only; exact_mod_cast h2) (by unfold cq; dsimp only; exact_mod_cast h3)
    rw [this]
    unfold cq; simp
  · intro e f p h1 h2 h3
    have := h.ptE e f (cq p) h1 (by unfold cq; dsimp only; exact_mod_cast h2) (by unfold cq; dsimp only; exact_mod_cast h3)
    rw [this]
    unfold cq; simp

end Verif.Cut
