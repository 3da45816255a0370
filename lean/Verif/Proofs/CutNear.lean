import Verif.Proofs.CutPlanar
import Verif.Proofs.CutBool
/-! The pieces stay near the segments they come from, and the depth changes only there. -/
namespace Verif.Cut
open Verif Verif.Arb Verif.Contains Verif.PolySet Verif.Spec Verif.Spec.Arb Verif.Deform

theorem near_swap {p e : HE} (h : Near p e) : Near p.swap e := by
  intro q ⟨t, t0, t1, hx, hy⟩
  refine h q ⟨1 - t, by linarith, by linarith, ?_, ?_⟩
  · rw [hx]; simp only [Prod.fst_swap, Prod.snd_swap]; ring
  · rw [hy]; simp only [Prod.fst_swap, Prod.snd_swap]; ring

theorem near_of {e : HE} {u v : Pt} (hu : HitsSquare e u) (hv : HitsSquare e v) : Near (u, v) e := by
  obtain ⟨a, ⟨s, s0, s1, sx, sy⟩, a1, a2, a3, a4⟩ := hu
  obtain ⟨b, ⟨t, t0, t1, tx, ty⟩, b1, b2, b3, b4⟩ := hv
  rintro q ⟨r, r0, r1, hx, hy⟩
  dsimp only at hx hy
  have conv : ∀ x y : ℚ, 0 ≤ x → x < 1 → 0 ≤ y → y < 1 → 0 ≤ (1 - r) * x + r * y ∧ (1 - r) * x + r * y < 1 := by
    intro x y x0 x1 y0 y1
    constructor
    · have := mul_nonneg (sub_nonneg.2 r1) x0
      have := mul_nonneg r0 y0
      linarith
    · rcases r0.lt_or_eq with g | g
      · nlinarith
      · subst g; linarith
  have cx := conv (a.1 - u.1) (b.1 - v.1) (by linarith) (by linarith) (by linarith) (by linarith)
  have cy := conv (a.2 - u.2) (b.2 - v.2) (by linarith) (by linarith) (by linarith) (by linarith)
  refine ⟨(a.1 + r * (b.1 - a.1), a.2 + r * (b.2 - a.2)), ⟨s + r * (t - s), ?_, ?_, ?_, ?_⟩, ?_, ?_, ?_, ?_⟩
  · nlinarith [mul_nonneg (sub_nonneg.2 r1) s0, mul_nonneg r0 t0]
  · nlinarith [mul_nonneg (sub_nonneg.2 r1) (sub_nonneg.2 s1), mul_nonneg r0 (sub_nonneg.2 t1)]
  · dsimp only; rw [sx, tx]; ring
  · dsimp only; rw [sy, ty]; ring
  · dsimp only; rw [hx]; linarith [cx.1]
  · dsimp only; rw [hx]; linarith [cx.2]
  · dsimp only; rw [hy]; linarith [cy.1]
  · dsimp only; rw [hy]; linarith [cy.2]

/-- Between a point of a segment at or above the lower side of the square and one at or below it, there is a point of
the segment on it. -/
theorem level {e : HE} {z w : ℚ × ℚ} (hz : OnEdge e z) (hw : OnEdge e w) {y : ℚ} (h1 : z.2 ≤ y) (h2 : y ≤ w.2) :
    ∃ x, OnEdge e (x, y) ∧ min z.1 w.1 ≤ x ∧ x ≤ max z.1 w.1 := by
  obtain ⟨s, s0, s1, sx, sy⟩ := hz
  obtain ⟨t, t0, t1, tx, ty⟩ := hw
  obtain ⟨r, r0, r1, hr⟩ : ∃ r : ℚ, 0 ≤ r ∧ r ≤ 1 ∧ y = z.2 + r * (w.2 - z.2) := by
    rcases (h1.trans h2).lt_or_eq with g | g
    · refine ⟨(y - z.2) / (w.2 - z.2), div_nonneg (by linarith) (by linarith), (div_le_one (by linarith)).2 (by linarith), ?_⟩
      have : w.2 - z.2 ≠ 0 := by linarith
      field_simp; ring
    · exact ⟨0, le_refl _, zero_le_one, by linarith⟩
  refine ⟨z.1 + r * (w.1 - z.1), ⟨s + r * (t - s), ?_, ?_, ?_, ?_⟩, ?_, ?_⟩
  · nlinarith [mul_nonneg (sub_nonneg.2 r1) s0, mul_nonneg r0 t0]
  · nlinarith [mul_nonneg (sub_nonneg.2 r1) (sub_nonneg.2 s1), mul_nonneg r0 (sub_nonneg.2 t1)]
  · dsimp only; rw [sx, tx]; ring
  · dsimp only; rw [hr, sy, ty]; ring
  · rcases le_total z.1 w.1 with c | c
    · rw [min_eq_left c]; nlinarith
    · rw [min_eq_right c]; nlinarith
  · rcases le_total z.1 w.1 with c | c
    · rw [max_eq_right c]; nlinarith
    · rw [max_eq_left c]; nlinarith

theorem on_lineY {e : HE} (h : e.1.1 < e.2.1) {x : ℚ} (h1 : (e.1.1 : ℚ) ≤ x) (h2 : x ≤ e.2.1) : OnEdge e (x, lineY e.1 e.2 x) := by
  have hq : (e.1.1 : ℚ) < e.2.1 := by exact_mod_cast h
  have hne : (e.2.1 : ℚ) - e.1.1 ≠ 0 := by linarith
  refine ⟨(x - e.1.1) / (e.2.1 - e.1.1), div_nonneg (by linarith) (by linarith), (div_le_one (by linarith)).2 (by linarith), ?_, ?_⟩
  · dsimp only; field_simp; ring
  · dsimp only; unfold lineY; field_simp

/-- At a point whose square the segment does not meet, a piece is below exactly when the segment is. -/
theorem side_same {e : HE} (he : e.1.1 < e.2.1) {u w : Pt} (huw : u.1 < w.1) (hn : Near (u, w) e) {q : ℚ × ℚ} (h1 : (u.1 : ℚ) ≤ q.1) (h2 : q.1 ≤ w.1)
    (h3 : (e.1.1 : ℚ) ≤ q.1) (h4 : q.1 ≤ e.2.1) (hc : ∀ z, OnEdge e z → ¬ (q.1 ≤ z.1 ∧ z.1 < q.1 + 1 ∧ q.2 ≤ z.2 ∧ z.2 < q.2 + 1)) :
    lineY u w q.1 ≤ q.2 ↔ lineY e.1 e.2 q.1 ≤ q.2 := by
  obtain ⟨r, hr, r1, r2, r3, r4⟩ := hn _ (on_lineY (e := (u, w)) huw h1 h2)
  dsimp only at r1 r2 r3 r4
  have hz := on_lineY he h3 h4
  have lev : ∀ {z z' : ℚ × ℚ}, OnEdge e z → OnEdge e z' → z.2 ≤ q.2 → q.2 ≤ z'.2 → q.1 ≤ z.1 → q.1 ≤ z'.1 → z.1 < q.1 + 1 → z'.1 < q.1 + 1 → False := by
    intro z z' a b c d e1 e2 e3 e4
    obtain ⟨x, hx, x1, x2⟩ := level a b c d
    exact hc _ hx ⟨le_trans (le_min e1 e2) x1, lt_of_le_of_lt x2 (max_lt e3 e4), le_refl _, by dsimp only; linarith⟩
  constructor
  · intro k
    by_contra hk
    push Not at hk
    by_cases c : q.2 ≤ r.2
    · exact hc r hr ⟨r1, r2, c, by linarith⟩
    · exact lev hr hz (by linarith) hk.le r1 (le_refl _) r2 (by dsimp only; linarith)
  · intro k
    by_contra hk
    push Not at hk
    exact lev hz hr k (by linarith) (le_refl _) r1 (by dsimp only; linarith) r2

theorem finish_count {ev : Ev} (hd : Directed ev.1) {p : HE} (h : p.1.1 < p.2.1) (hv : ev.1.1.1 < ev.1.2.1) : finish ev p = (p, ev.2) := by
  have l1 : lessPoint p.1 p.2 = true := (Contains.lessPoint_iff _ _).2 (Or.inl h)
  have l2 : ¬ lessPoint p.2 p.1 = true := by rw [Contains.lessPoint_iff]; omega
  have l3 : lessPoint ev.1.1 ev.1.2 = true := (Contains.lessPoint_iff _ _).2 hd
  unfold finish
  dsimp only
  rw [l1, l3, if_neg l2, if_neg (show ¬ (true ≠ true) by simp), if_neg]
  rw [Bool.and_eq_true]
  simp only [isVertical, Bool.not_eq_true', beq_eq_false_iff_ne, beq_iff_eq]
  omega

/-- The contribution of one piece. -/
theorem near_passes {ev : Ev} (hd : Directed ev.1) {p : HE} (ha : along ev.1 p.1 p.2) (su : HitsSquare ev.1 p.1) (sv : HitsSquare ev.1 p.2) {q : ℚ × ℚ}
    (hc : ∀ z, OnEdge ev.1 z → ¬ (q.1 ≤ z.1 ∧ z.1 < q.1 + 1 ∧ q.2 ≤ z.2 ∧ z.2 < q.2 + 1)) :
    (if PassesBelow (finish ev p).1 q then (finish ev p).2.2 else 0) =
      ev.2.2 * (if ev.1.1.1 < ev.1.2.1 ∧ lineY ev.1.1 ev.1.2 q.1 ≤ q.2 then 1 else 0) *
        ((if (p.1.1 : ℚ) ≤ q.1 then 1 else 0) - (if (p.2.1 : ℚ) ≤ q.1 then 1 else 0)) := by
  have b1 := (inBox_iff _ _).1 (hits_box su)
  have b2 := (inBox_iff _ _).1 (hits_box sv)
  have hle : p.1.1 ≤ p.2.1 := by unfold along dlt plt at ha; omega
  have hev : ev.1.1.1 ≤ ev.1.2.1 := by unfold Spec.Arb.Directed at hd; omega
  rcases hle.lt_or_eq with hlt | heq
  · have hv : ev.1.1.1 < ev.1.2.1 := by omega
    rw [finish_count hd hlt hv]
    dsimp only
    have hq : (p.1.1 : ℚ) < p.2.1 := by exact_mod_cast hlt
    by_cases c3 : (p.1.1 : ℚ) ≤ q.1
    · by_cases c4 : (p.2.1 : ℚ) ≤ q.1
      · rw [if_neg (c := PassesBelow p q), if_pos c3, if_pos c4]; · ring
        rintro ⟨_, k, _⟩; linarith
      · push Not at c4
        have k1 : (ev.1.1.1 : ℚ) ≤ p.1.1 := by exact_mod_cast (show ev.1.1.1 ≤ p.1.1 by omega)
        have k2 : (p.2.1 : ℚ) ≤ ev.1.2.1 := by exact_mod_cast (show p.2.1 ≤ ev.1.2.1 by omega)
        have hs := side_same hv hlt (near_of su sv) c3 c4.le (by linarith) (by linarith) hc
        rw [if_pos c3, if_neg (not_le.2 c4)]
        by_cases c5 : lineY ev.1.1 ev.1.2 q.1 ≤ q.2
        · rw [if_pos (c := PassesBelow p q) ⟨c3, c4, hs.2 c5⟩, if_pos ⟨hv, c5⟩]; ring
        · rw [if_neg (c := PassesBelow p q) (fun h => c5 (hs.1 h.2.2)), if_neg (fun h => c5 h.2)]; ring
    · have c4 : ¬ (p.2.1 : ℚ) ≤ q.1 := by push Not at *; linarith
      rw [if_neg (c := PassesBelow p q), if_neg c3, if_neg c4]; · ring
      rintro ⟨k, _, _⟩; exact c3 k
  · have : ¬ PassesBelow (finish ev p).1 q := by
      rcases (finish_spec ha (fun _ => heq)).2.2.1 with h | h
      · rw [h]; rintro ⟨k1, k2, _⟩; rw [heq] at k1; linarith
      · rw [h]; rintro ⟨k1, k2, _⟩; simp only [Prod.fst_swap, Prod.snd_swap] at k1 k2; rw [heq] at k2; linarith
    rw [if_neg this, heq]; ring

theorem near_pieces {ev : Ev} (hd : Directed ev.1) {L : List Pt} (hok : OK ev.1 L) (ho : ∀ p ∈ L, HitsSquare ev.1 p) {q : ℚ × ℚ}
    (hc : ∀ z, OnEdge ev.1 z → ¬ (q.1 ≤ z.1 ∧ z.1 < q.1 + 1 ∧ q.2 ≤ z.2 ∧ z.2 < q.2 + 1)) :
    (((pieces ev.1 L).map (finish ev)).map (fun e => if PassesBelow e.1 q then e.2.2 else 0)).sum = if PassesBelow ev.1 q then ev.2.2 else 0 := by
  obtain ⟨r, h1, h2⟩ := ord_ends hok
  obtain ⟨s1, s2⟩ := ord_spec (e := ev.1) hok.srt
  rw [pieces_eq, List.map_map]
  have hlo : lo ev.1 = ev.1.1 := by
    unfold lo; rw [if_neg]; rw [Contains.lessPoint_iff]; unfold Spec.Arb.Directed at hd; omega
  have hhi : hi ev.1 = ev.1.2 := by
    unfold hi; rw [if_neg]; rw [Contains.lessPoint_iff]; unfold Spec.Arb.Directed at hd; omega
  generalize hg : (if ev.1.1.1 < ev.1.2.1 ∧ lineY ev.1.1 ev.1.2 q.1 ≤ q.2 then (1 : Int) else 0) = G
  have : (chain (ord ev.1 L)).map ((fun e : Ev => if PassesBelow e.1 q then e.2.2 else 0) ∘ finish ev) =
      (chain (ord ev.1 L)).map (fun p => (fun x : Pt => - (ev.2.2 * G * (if (x.1 : ℚ) ≤ q.1 then 1 else 0))) p.2
        - (fun x : Pt => - (ev.2.2 * G * (if (x.1 : ℚ) ≤ q.1 then 1 else 0))) p.1) := by
    apply List.map_congr_left
    intro p hp
    obtain ⟨g1, g2, g3⟩ := chain_pairwise _ s1 p hp
    rw [Function.comp, near_passes hd g1 (ho _ ((s2 _).1 g2)) (ho _ ((s2 _).1 g3)) hc, hg]; ring
  rw [this, h1, chain_sum (fun x : Pt => - (ev.2.2 * G * (if (x.1 : ℚ) ≤ q.1 then 1 else 0))), h2, hlo, hhi]
  have hp := passes_piece hd (onEdge_fst ev.1) (onEdge_snd ev.1) hd q
  rw [hg] at hp
  have hmul : (if PassesBelow ev.1 q then ev.2.2 else 0) = ev.2.2 * (if PassesBelow ev.1 q then 1 else 0) := by split_ifs <;> ring
  rw [hmul, show (if PassesBelow ev.1 q then (1 : Int) else 0) = _ from hp]; ring

theorem near_layer (ip : Pts) (q : ℚ × ℚ) (k : Int) : ∀ (E : List Ev) (i : Nat),
    (∀ j ev, E[j]? = some ev → Directed ev.1 ∧ OK ev.1 (ip (i + j)) ∧ (∀ p ∈ ip (i + j), HitsSquare ev.1 p) ∧
      (ev.2.1 = k → ∀ z, OnEdge ev.1 z → ¬ (q.1 ≤ z.1 ∧ z.1 < q.1 + 1 ∧ q.2 ≤ z.2 ∧ z.2 < q.2 + 1))) →
    depth (layer (cutGo ip i E) k) q = depth (layer E k) q
  | [], _, _ => rfl
  | ev :: r, i, h => by
    obtain ⟨h0, h1, h2, h3⟩ := h 0 ev rfl
    rw [Nat.add_zero] at h1 h2
    have ih := near_layer ip q k r (i + 1) (fun j e he => by rw [show i + 1 + j = i + (j + 1) by ring]; exact h (j + 1) e he)
    have key : ∀ A B : List Ev, layer (A ++ B) k = layer A k ++ layer B k := by
      intro A B; simp [layer]
    rw [cutGo, key, depth_append, ih, show ev :: r = [ev] ++ r from rfl, key, depth_append]
    congr 1
    have hk : ∀ e ∈ (pieces ev.1 (ip i)).map (finish ev), e.2.1 = ev.2.1 := fun e he => (pieces_dir h1 e he).2.1
    by_cases c : ev.2.1 = k
    · have hf := near_pieces h0 h1 h2 (h3 c)
      have l1 : layer ((pieces ev.1 (ip i)).map (finish ev)) k = ((pieces ev.1 (ip i)).map (finish ev)).map evC := by
        unfold layer; rw [List.filter_eq_self.2]
        · rfl
        · intro e he; rw [hk e he, c]; simp
      have l2 : layer [ev] k = [evC ev] := by simp [layer, c, evC]
      rw [l1, l2]
      unfold Spec.Arb.depth
      rw [List.map_map]
      simp only [List.map_map, List.map_cons, List.map_nil, List.sum_cons, List.sum_nil, add_zero] at hf ⊢
      exact hf
    · have l1 : layer ((pieces ev.1 (ip i)).map (finish ev)) k = [] := by
        unfold layer; rw [List.filter_eq_nil_iff.2, List.map_nil]
        intro e he; rw [hk e he]; simpa using c
      have l2 : layer [ev] k = [] := by simp [layer, c]
      rw [l1, l2]

theorem near_depth (ip : Pts) (q : ℚ × ℚ) (E : List Ev) (i : Nat)
    (h : ∀ j ev, E[j]? = some ev → Directed ev.1 ∧ OK ev.1 (ip (i + j)) ∧ (∀ p ∈ ip (i + j), HitsSquare ev.1 p) ∧
      ∀ z, OnEdge ev.1 z → ¬ (q.1 ≤ z.1 ∧ z.1 < q.1 + 1 ∧ q.2 ≤ z.2 ∧ z.2 < q.2 + 1)) (k : Int) :
    depth (layer (cutGo ip i E) k) q = depth (layer E k) q :=
  near_layer ip q k E i (fun j ev hj => ⟨(h j ev hj).1, (h j ev hj).2.1, (h j ev hj).2.2.1, fun _ => (h j ev hj).2.2.2⟩)

/-- What `execute` does with exact arithmetic. -/
theorem execute_snap {fp : FP} (hfp : fp.Floor) {umin : Int} (umax : Int) (op : Nat) {A B : Data} (hd : ∀ e ∈ A ++ B, Directed e.1)
    (hu : ∀ e ∈ A ++ B, umin ≤ min e.1.1.2 e.1.2.2) (hA : Closed A) (hB : Closed B) :
    ∃ out, execute fp op umin umax A B = some out ∧
      (∀ q, Clear ((A ++ B).map Prod.fst) q → depth out q = if inResult op (depth A q > 0) (depth B q > 0) then 1 else 0) ∧
      (∀ a ∈ out, Directed a.1 ∧ Hot ((A ++ B).map Prod.fst) a.1.1 ∧ Hot ((A ++ B).map Prod.fst) a.1.2 ∧
        (∃ e ∈ A ++ B, Near a.1 e.1) ∧ (a.2 = 1 ∨ a.2 = -1)) ∧
      (out.map Prod.fst).Nodup ∧ Planar (out.map Prod.fst) ∧ Closed out ∧ ∀ q, depth out q = 0 ∨ depth out q = 1 := by
  obtain ⟨l0, l1⟩ := layer_tag A B
  unfold execute
  dsimp only
  by_cases hem : (tag 0 A ++ tag 1 B).isEmpty = true
  · rw [if_pos hem]
    rw [List.isEmpty_iff, List.append_eq_nil_iff] at hem
    have a0 : A = [] := by cases A with | nil => rfl | cons => simp [tag] at hem
    have b0 : B = [] := by cases B with | nil => rfl | cons => simp [tag] at hem
    subst a0; subst b0
    have hn : ∀ q, ¬ inResult op (depth [] q > 0) (depth [] q > 0) := by
      intro q
      have : ¬ depth [] q > 0 := by unfold Spec.Arb.depth; simp
      unfold inResult; split <;> tauto
    refine ⟨[], rfl, fun q _ => ?_, by simp, by simp, by intro e he; simp at he, hA, fun q => Or.inl rfl⟩
    rw [if_neg (hn q)]; rfl
  · rw [if_neg hem]
    have hm : ∀ e ∈ tag 0 A ++ tag 1 B, ∃ x ∈ A ++ B, x.1 = e.1 := by
      intro e he
      have : e.1 ∈ (tag 0 A ++ tag 1 B).map Prod.fst := List.mem_map.2 ⟨e, he, rfl⟩
      rw [tag_edges] at this
      obtain ⟨x, hx, h⟩ := List.mem_map.1 this
      exact ⟨x, hx, h⟩
    have hEd : ∀ e ∈ tag 0 A ++ tag 1 B, Directed e.1 := fun e he => by obtain ⟨x, hx, h⟩ := hm e he; rw [← h]; exact hd x hx
    have hEu : ∀ e ∈ tag 0 A ++ tag 1 B, umin ≤ min e.1.1.2 e.1.2.2 := fun e he => by obtain ⟨x, hx, h⟩ := hm e he; rw [← h]; exact hu x hx
    have hte := tag_edges A B
    generalize hE : tag 0 A ++ tag 1 B = E at *
    have hcd : ∀ e ∈ cut fp umin E, Directed e.1 := fun e he => (snap_finish hfp hEd hEu he).1
    have hk : ∀ e ∈ cut fp umin E, e.2.1 = 0 ∨ e.2.1 = 1 := by
      intro e he
      obtain ⟨j, ev, h1, h2⟩ := (cutGo_mem _ _ _ _).1 he
      rw [(pieces_dir (snap_ok hfp hEd hEu h1) e h2).2.1]
      have h1 := List.mem_of_getElem? h1
      rw [← hE, List.mem_append] at h1
      unfold tag at h1
      rcases h1 with h1 | h1
      · obtain ⟨a, _, rfl⟩ := List.mem_map.1 h1; left; rfl
      · obtain ⟨a, _, rfl⟩ := List.mem_map.1 h1; right; rfl
    have hflow : ∀ k v, ((layer (cut fp umin E) k).map (fun e => inflow e v)).sum = ((layer E k).map (fun e => inflow e v)).sum :=
      cutGo_flow _ E 0 (fun j ev hj => snap_ok hfp hEd hEu hj)
    have hC : ∀ k, Closed (layer (cut fp umin E) k) := by
      intro k
      by_cases h0 : k = 0
      · subst h0; intro v; rw [hflow, l0]; exact hA v
      by_cases h1 : k = 1
      · subst h1; intro v; rw [hflow, l1]; exact hB v
      · rw [layer_none hk h0 h1]; intro v; rfl
    have hP := snap_planar hfp hEd hEu
    have hs := Properties.Arb.C68_sort _ hcd
    obtain ⟨out, o1, o2⟩ := Properties.Arb.C68_boolean_region op umin umax _ _ hcd hP hC hk hs.2.2.2.1 hs.2.2.2.2
    obtain ⟨out', p1, p2, p3, p4, p5⟩ := Properties.Arb.C69_boolean_canonical op umin umax _ _ hcd hP hC hk hs.2.2.2.1 hs.2.2.2.2
    rw [o1] at p1
    obtain rfl := Option.some_inj.1 p1
    refine ⟨out, o1, fun q hq => ?_, fun a ha => ?_, p3, p4, p5, fun q => by rw [o2 q]; split_ifs <;> simp⟩
    · have hdep : ∀ k, depth (layer (cut fp umin E) k) q = depth (layer E k) q := fun k => near_depth _ q E 0 (fun j ev hj =>
        ⟨hEd ev (List.mem_of_getElem? hj), snap_ok hfp hEd hEu hj, fun p hp => ((cut_snap hfp hEd hEu hj p).1 hp).2,
          fun z hz => hq ev.1 (by rw [← hte]; exact List.mem_map.2 ⟨ev, List.mem_of_getElem? hj, rfl⟩) z hz⟩) k
      rw [o2 q, hdep, hdep, l0, l1]
    · obtain ⟨e, he, h2⟩ := List.mem_map.1 (p2 a ha).1
      obtain ⟨g1, g2⟩ := snap_finish hfp hEd hEu he
      have hot := pieceU_hot g2
      rw [h2, hte] at hot
      refine ⟨h2 ▸ g1, hot.1, hot.2, ?_, (p2 a ha).2⟩
      rw [← h2]
      rcases g2 with ⟨f, hf⟩ | ⟨f, hf⟩
      · obtain ⟨x, hx, rfl⟩ := List.mem_map.1 (hte ▸ hf.mem)
        exact ⟨x, hx, near_of hf.su hf.sv⟩
      · obtain ⟨x, hx, rfl⟩ := List.mem_map.1 (hte ▸ hf.mem)
        exact ⟨x, hx, near_swap (near_of hf.su hf.sv)⟩

end Verif.Cut
