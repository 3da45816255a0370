import Verif.Proofs.CutLine
/-! When all meeting points are lattice points and no segment is bent, the cut edges are planar and cover the same depth. -/
namespace Verif.Cut
open Verif Verif.Arb Verif.Contains Verif.PolySet Verif.Spec Verif.Spec.Arb

/-- End points and computed intersections. -/
def Node (fp : FP) (E : List HE) (p : Pt) : Prop :=
  (∃ b ∈ E, p = b.1 ∨ p = b.2) ∨ ∃ a ∈ E, ∃ b ∈ E, computeIntersection fp a b = some p

structure Exact (fp : FP) (umin : Int) (E : List HE) : Prop where
  dir : ∀ a ∈ E, Directed a
  low : ∀ a ∈ E, umin ≤ min a.1.2 a.2.2
  int : ∀ a ∈ E, ∀ b ∈ E, ∀ p, computeIntersection fp a b = some p → OnEdge a (cq p) ∧ OnEdge b (cq p) ∧ cr a b ≠ 0 ∧
    (p = a.1 ∨ p = a.2 ∨ p = b.1 ∨ p = b.2 ∨ computeIntersection fp b a = some p)
  pix : ∀ p, Node fp E p → ∀ a ∈ E, grid p a = true → OnEdge a (cq p)
  meet : ∀ a ∈ E, ∀ b ∈ E, cr a b ≠ 0 → ∀ q, OnEdge a q → OnEdge b q → ∃ p, Node fp E p ∧ q = cq p

theorem onEdge_fst (e : HE) : OnEdge e (cq e.1) := ⟨0, le_refl _, by norm_num, by simp [cq], by simp [cq]⟩
theorem onEdge_snd (e : HE) : OnEdge e (cq e.2) := ⟨1, by norm_num, le_refl _, by simp [cq], by simp [cq]⟩

theorem x_lt {a : HE} (ha : Directed a) {p : Pt} (hp : OnEdge a (cq p)) (h1 : p ≠ a.1) (h2 : p ≠ a.2) :
    (a.1.1 < p.1 ∧ p.1 < a.2.1) ∨ (a.1.1 = p.1 ∧ a.2.1 = p.1) := by
  obtain ⟨k1, k2⟩ := (on_iff ha p).1 hp
  obtain ⟨_, l1, l2⟩ := (onEdge_lex ha _).1 hp
  have l1 := (lle_plt l1).resolve_left (fun h => h1 h.symm)
  have l2 := (lle_plt l2).resolve_left h2
  unfold det at k2
  by_cases c : a.1.1 < a.2.1
  · left
    unfold plt at l1 l2
    constructor
    · by_contra hc
      have hc : p.1 = a.1.1 := by omega
      rw [hc] at k2
      have : (p.2 - a.1.2) * (a.2.1 - a.1.1) = 0 := by linarith
      rcases mul_eq_zero.1 this with k | k <;> omega
    · by_contra hc
      have hc : p.1 = a.2.1 := by omega
      rw [hc] at k2
      have : (p.2 - a.2.2) * (a.2.1 - a.1.1) = 0 := by linarith
      rcases mul_eq_zero.1 this with k | k <;> omega
  · right
    unfold Spec.Arb.Directed at ha
    unfold plt at l1 l2
    omega

theorem compared_of {a b : HE} (ha : Directed a) (hb : Directed b) (hc : cr a b ≠ 0) {p : Pt} (pa : OnEdge a (cq p)) (pb : OnEdge b (cq p))
    (a1 : p ≠ a.1) (a2 : p ≠ a.2) (b1 : p ≠ b.1) (b2 : p ≠ b.2) {k : Int} (hk : above k a = true ∨ above k b = true) : Compared k a b := by
  have da := ((onEdge_lex ha _).1 pa).1
  have db := ((onEdge_lex hb _).1 pb).1
  refine ⟨hk, ?_, ?_, ?_, ?_⟩
  · rintro rfl; exact hc (cr_self a)
  · have xa := x_lt ha pa a1 a2
    have xb := x_lt hb pb b1 b2
    unfold minX maxX
    have : ¬ (a.1.1 = a.2.1 ∧ b.1.1 = b.2.1) := by
      rintro ⟨h1, h2⟩
      apply hc; unfold cr; rw [h1, h2]; ring
    omega
  · intro h
    apply a1
    apply cq_inj
    exact line_unique hc da db ((onEdge_lex ha _).1 (onEdge_fst a)).1 (by rw [h]; exact ((onEdge_lex hb _).1 (onEdge_fst b)).1)
  · intro h
    apply a2
    apply cq_inj
    exact line_unique hc da db ((onEdge_lex ha _).1 (onEdge_snd a)).1 (by rw [h]; exact ((onEdge_lex hb _).1 (onEdge_snd b)).1)

/-- Every segment is cut exactly at the nodes on it. -/
theorem exact_iff {fp : FP} {umin : Int} {L : List Seg} (h : Exact fp umin (L.map Prod.fst)) (hL : Inj L) {s : Seg} (hs : s ∈ L) (p : Pt) :
    p ∈ divide fp umin L s.2 ↔ Node fp (L.map Prod.fst) p ∧ OnEdge s.1 (cq p) := by
  have hm : ∀ {x : Seg}, x ∈ L → x.1 ∈ L.map Prod.fst := fun hx => List.mem_map.2 ⟨_, hx, rfl⟩
  have hn : ∀ x ∈ L, nrm x.1 = x.1 := fun x hx => nrm_dir (h.dir _ (hm hx))
  constructor
  · intro hp
    refine divide_inv fp umin L hL (N := Node fp (L.map Prod.fst)) (B := fun e p => OnEdge e (cq p)) ?_ ?_ ?_ s hs p hp
    · intro t ht; exact ⟨Or.inl ⟨t.1, hm ht, Or.inl rfl⟩, Or.inl ⟨t.1, hm ht, Or.inr rfl⟩⟩
    · intro a ha b hb q hq
      rw [hn a ha, hn b hb] at hq
      obtain ⟨h1, h2, _⟩ := h.int _ (hm ha) _ (hm hb) q hq
      exact ⟨Or.inr ⟨_, hm ha, _, hm hb, hq⟩, h1, h2⟩
    · intro a ha q hN hg
      rw [hn a ha] at hg
      exact h.pix q hN _ (hm ha) hg
  · rintro ⟨hN, ho⟩
    have hg : grid p (nrm s.1) = true := by rw [hn s hs]; exact grid_on (h.dir _ (hm hs)) ho
    have hends : (∃ b ∈ L, p = b.1.1 ∨ p = b.1.2) → p ∈ divide fp umin L s.2 := by
      rintro ⟨b, hb, hp⟩
      exact divide_ends fp umin hs hb hp hg
    rcases hN with ⟨b, hb, hp⟩ | ⟨a, ha, b, hb, hp⟩
    · obtain ⟨b', hb', rfl⟩ := List.mem_map.1 hb
      exact hends ⟨b', hb', hp⟩
    · obtain ⟨a', ha', rfl⟩ := List.mem_map.1 ha
      obtain ⟨b', hb', rfl⟩ := List.mem_map.1 hb
      by_cases e1 : p = a'.1.1 ∨ p = a'.1.2
      · exact hends ⟨a', ha', e1⟩
      · by_cases e2 : p = b'.1.1 ∨ p = b'.1.2
        · exact hends ⟨b', hb', e2⟩
        · rw [not_or] at e1 e2
          obtain ⟨h1, h2, h3, h4⟩ := h.int _ ha _ hb p hp
          have h4 : computeIntersection fp b'.1 a'.1 = some p := by tauto
          have da := h.dir _ ha
          have db := h.dir _ hb
          refine divide_cross fp umin ha' hb' hs (fun t ht => h.low _ (hm ht)) (by rw [hn a' ha', hn b' hb']; exact hp)
            (by rw [hn a' ha', hn b' hb']; exact h4) ?_ ((on_iff da p).1 h1).1 ((on_iff db p).1 h2).1 hg
          intro k hk
          rw [hn a' ha', hn b' hb'] at hk ⊢
          exact ⟨compared_of da db h3 h1 h2 e1.1 e1.2 e2.1 e2.2 hk,
            compared_of db da (by rw [cr_symm]; omega) h2 h1 e2.1 e2.2 e1.1 e1.2 hk.symm⟩

/-! ### The pieces of a segment cut at points of it -/

theorem sortDown_id : ∀ L : List Pt, L.Pairwise dlt → sortDown L = L
  | [], _ => rfl
  | a :: r, h => by
    rw [List.pairwise_cons] at h
    rw [sortDown, sortDown_id r h.2]
    cases r with
    | nil => rfl
    | cons b r =>
      rw [insertDown, if_neg]
      rw [lessDown_iff]
      exact dlt_asymm _ _ (h.1 b (List.mem_cons_self ..))

theorem pieces_on {e : HE} (hd : Directed e) {L : List Pt} (hs : L.Pairwise plt) (ho : ∀ p ∈ L, OnEdge e (cq p)) : pieces e L = chain L := by
  rw [pieces_eq]
  unfold ord
  split_ifs with c
  · rw [down_iff] at c
    rw [sortDown_id]
    refine hs.imp_of_mem ?_
    intro a b ha hb hab
    have h1 := ((on_iff hd a).1 (ho a ha)).2
    have h2 := ((on_iff hd b).1 (ho b hb)).2
    unfold plt at hab; unfold dlt
    rcases hab with g | ⟨g, k⟩
    · exact Or.inl g
    · exfalso
      unfold det at h1 h2
      unfold Falls at c; unfold Spec.Arb.Directed at hd
      rw [g] at h1
      have : (b.2 - a.2) * (e.2.1 - e.1.1) = 0 := by linarith
      rcases mul_eq_zero.1 this with j | j <;> omega
  · rfl

theorem chain_dir {L : List Pt} (hs : L.Pairwise plt) {p : HE} (hp : p ∈ chain L) : Directed p ∧ p.1 ∈ L ∧ p.2 ∈ L :=
  chain_pairwise L hs p hp

theorem vert_on {e : HE} (hd : Directed e) {p q : Pt} (hp : OnEdge e (cq p)) (hq : OnEdge e (cq q)) (h : plt p q) : (p.1 = q.1 ↔ e.1.1 = e.2.1) := by
  have h1 := ((on_iff hd p).1 hp)
  have h2 := ((on_iff hd q).1 hq)
  rw [inBox_iff] at h1 h2
  unfold det at h1 h2; unfold plt at h; unfold Spec.Arb.Directed at hd
  constructor
  · intro g
    have h1 := h1.2
    rw [g] at h1
    have : (q.2 - p.2) * (e.2.1 - e.1.1) = 0 := by linarith
    rcases mul_eq_zero.1 this with j | j <;> omega
  · omega

theorem finish_on {ev : Ev} (hd : Directed ev.1) {p : HE} (h1 : OnEdge ev.1 (cq p.1)) (h2 : OnEdge ev.1 (cq p.2)) (h : plt p.1 p.2) : finish ev p = (p, ev.2) := by
  have l1 : lessPoint p.1 p.2 = true := (Contains.lessPoint_iff _ _).2 h
  have l2 : ¬ lessPoint p.2 p.1 = true := by rw [Contains.lessPoint_iff]; unfold plt at h; omega
  have l3 : lessPoint ev.1.1 ev.1.2 = true := (Contains.lessPoint_iff _ _).2 hd
  have hv := vert_on hd h1 h2 h
  unfold finish
  dsimp only
  rw [l1, l3, if_neg l2, if_neg (show ¬ (true ≠ true) by simp), if_neg]
  rw [Bool.and_eq_true]
  simp only [isVertical, Bool.not_eq_true', beq_eq_false_iff_ne, beq_iff_eq]
  tauto

/-- No point of the list lies strictly between consecutive points. -/
theorem chain_consec : ∀ (L : List Pt), L.Pairwise plt → ∀ p ∈ chain L, ∀ r ∈ L, ¬ (plt p.1 r ∧ plt r p.2)
  | [], _, p, hp => by simp [chain] at hp
  | [a], _, p, hp => by simp [chain] at hp
  | a :: b :: l, h, p, hp => by
    intro r hr ⟨h1, h2⟩
    have h' := List.pairwise_cons.1 h
    have h'' := List.pairwise_cons.1 h'.2
    rcases List.mem_cons.1 hp with rfl | hp'
    · rcases List.mem_cons.1 hr with rfl | hr
      · exact plt_asymm _ _ h1 h1
      · rcases List.mem_cons.1 hr with rfl | hr
        · exact plt_asymm _ _ h2 h2
        · exact plt_asymm _ _ h2 (h''.1 r hr)
    · rcases List.mem_cons.1 hr with rfl | hr
      · obtain ⟨_, k2, _⟩ := chain_pairwise (b :: l) h'.2 p hp'
        exact plt_asymm _ _ h1 (h'.1 _ k2)
      · exact chain_consec (b :: l) h'.2 p hp' r hr ⟨h1, h2⟩

/-! ### Depth -/

theorem passes_piece {e : HE} (hd : Directed e) {u w : Pt} (h1 : OnEdge e (cq u)) (h2 : OnEdge e (cq w)) (h : plt u w) (q : ℚ × ℚ) :
    (if PassesBelow (u, w) q then (1 : Int) else 0) =
      (if e.1.1 < e.2.1 ∧ lineY e.1 e.2 q.1 ≤ q.2 then 1 else 0) * ((if (u.1 : ℚ) ≤ q.1 then 1 else 0) - (if (w.1 : ℚ) ≤ q.1 then 1 else 0)) := by
  have hv := vert_on hd h1 h2 h
  by_cases c : e.1.1 < e.2.1
  · have hlt : u.1 < w.1 := by unfold plt at h; omega
    have hq : (u.1 : ℚ) < w.1 := by exact_mod_cast hlt
    have heq : lineY u w q.1 = lineY e.1 e.2 q.1 := by
      have d1 := ((onEdge_lex hd _).1 h1).1
      have d2 := ((onEdge_lex hd _).1 h2).1
      have he : (e.1.1 : ℚ) < e.2.1 := by exact_mod_cast c
      have n1 : ((w.1 : ℚ) - u.1) ≠ 0 := by linarith
      have n2 : ((e.2.1 : ℚ) - e.1.1) ≠ 0 := by linarith
      unfold dq cq at d1 d2
      dsimp only at d1 d2
      unfold lineY
      field_simp
      linear_combination ((w.1 : ℚ) - q.1) * d1 - ((u.1 : ℚ) - q.1) * d2
    by_cases c2 : lineY e.1 e.2 q.1 ≤ q.2
    · rw [if_pos (c := e.1.1 < e.2.1 ∧ _) ⟨c, c2⟩]
      by_cases c3 : (u.1 : ℚ) ≤ q.1
      · by_cases c4 : (w.1 : ℚ) ≤ q.1
        · rw [if_neg, if_pos c3, if_pos c4]; · ring
          rintro ⟨_, k, _⟩; dsimp only at k; linarith
        · rw [if_pos, if_pos c3, if_neg c4]; · ring
          exact ⟨c3, by push Not at c4; exact c4, by dsimp only; rw [heq]; exact c2⟩
      · have c4 : ¬ (w.1 : ℚ) ≤ q.1 := by push Not at *; linarith
        rw [if_neg, if_neg c3, if_neg c4]; · ring
        rintro ⟨k, _, _⟩; exact c3 k
    · rw [if_neg (c := e.1.1 < e.2.1 ∧ _) (fun h => c2 h.2), if_neg]; · ring
      rintro ⟨_, _, k⟩; dsimp only at k; rw [heq] at k; exact c2 k
  · have huw : u.1 = w.1 := hv.2 (by unfold Spec.Arb.Directed at hd; omega)
    rw [if_neg (c := e.1.1 < e.2.1 ∧ _) (fun h => c h.1), if_neg]; · ring
    rintro ⟨k1, k2, _⟩
    dsimp only at k1 k2
    rw [huw] at k1; linarith

theorem pieces_depth {ev : Ev} (hd : Directed ev.1) {L : List Pt} (hok : OK ev.1 L) (ho : ∀ p ∈ L, OnEdge ev.1 (cq p)) (q : ℚ × ℚ) :
    (((pieces ev.1 L).map (finish ev)).map (fun e => if PassesBelow e.1 q then e.2.2 else 0)).sum = if PassesBelow ev.1 q then ev.2.2 else 0 := by
  have hmul : ∀ (P : Prop) [Decidable P] (c : Int), (if P then c else 0) = c * (if P then 1 else 0) := by
    intro P _ c; split_ifs <;> ring
  obtain ⟨r, h1, h2⟩ := ord_ends hok
  have hord : ord ev.1 L = L := by
    have := pieces_on hd hok.srt ho
    unfold ord
    split_ifs with c
    · have h3 : L.Pairwise dlt := by
        rw [down_iff] at c
        refine hok.srt.imp_of_mem ?_
        intro a b ha hb hab
        have hv := vert_on hd (ho a ha) (ho b hb) hab
        unfold Falls at c; unfold plt at hab; unfold dlt; omega
      exact sortDown_id L h3
    · rfl
  rw [pieces_on hd hok.srt ho, List.map_map]
  rw [hord] at h1
  have hlo : lo ev.1 = ev.1.1 := by
    unfold lo; rw [if_neg]; rw [Contains.lessPoint_iff]; unfold Spec.Arb.Directed at hd; omega
  have hhi : hi ev.1 = ev.1.2 := by
    unfold hi; rw [if_neg]; rw [Contains.lessPoint_iff]; unfold Spec.Arb.Directed at hd; omega
  generalize hg : (if ev.1.1.1 < ev.1.2.1 ∧ lineY ev.1.1 ev.1.2 q.1 ≤ q.2 then (1 : Int) else 0) = G
  have : (chain L).map ((fun e : Ev => if PassesBelow e.1 q then e.2.2 else 0) ∘ finish ev) =
      (chain L).map (fun p => (fun x : Pt => - (ev.2.2 * G * (if (x.1 : ℚ) ≤ q.1 then 1 else 0))) p.2
        - (fun x : Pt => - (ev.2.2 * G * (if (x.1 : ℚ) ≤ q.1 then 1 else 0))) p.1) := by
    apply List.map_congr_left
    intro p hp
    obtain ⟨g1, g2, g3⟩ := chain_pairwise _ hok.srt p hp
    rw [Function.comp, finish_on hd (ho _ g2) (ho _ g3) g1]
    dsimp only
    rw [hmul, passes_piece hd (ho _ g2) (ho _ g3) g1, hg]; ring
  rw [this, h1, chain_sum (fun x : Pt => - (ev.2.2 * G * (if (x.1 : ℚ) ≤ q.1 then 1 else 0))), h2, hlo, hhi, hmul (PassesBelow ev.1 q)]
  have hp := passes_piece hd (onEdge_fst ev.1) (onEdge_snd ev.1) hd q
  rw [hg] at hp
  rw [show (if PassesBelow ev.1 q then (1 : Int) else 0) = _ from hp]; ring

theorem cutGo_depth (ip : Pts) (q : ℚ × ℚ) : ∀ (E : List Ev) (i : Nat),
    (∀ j ev, E[j]? = some ev → Directed ev.1 ∧ OK ev.1 (ip (i + j)) ∧ ∀ p ∈ ip (i + j), OnEdge ev.1 (cq p)) → ∀ k,
    depth (layer (cutGo ip i E) k) q = depth (layer E k) q
  | [], _, _, _ => rfl
  | ev :: r, i, h, k => by
    obtain ⟨h0, h1, h2⟩ := h 0 ev rfl
    rw [Nat.add_zero] at h1 h2
    have ih := cutGo_depth ip q r (i + 1) (fun j e he => by rw [show i + 1 + j = i + (j + 1) by ring]; exact h (j + 1) e he) k
    have key : ∀ A B : List Ev, layer (A ++ B) k = layer A k ++ layer B k := by
      intro A B; simp [layer]
    rw [cutGo, key, depth_append, ih, show ev :: r = [ev] ++ r from rfl, key, depth_append]
    congr 1
    have hk : ∀ e ∈ (pieces ev.1 (ip i)).map (finish ev), e.2.1 = ev.2.1 := fun e he => (pieces_dir h1 e he).2.1
    have hf := pieces_depth h0 h1 h2 q
    by_cases c : ev.2.1 = k
    · have l1 : layer ((pieces ev.1 (ip i)).map (finish ev)) k = ((pieces ev.1 (ip i)).map (finish ev)).map evC := by
        unfold layer; rw [List.filter_eq_self.2]
        · rfl
        · intro e he; rw [hk e he, c]; simp
      have l2 : layer [ev] k = [evC ev] := by simp [layer, c, evC]
      rw [l1, l2]
      unfold Spec.Arb.depth
      rw [List.map_map]
      simp only [List.map_map, List.map_cons, List.map_nil, List.sum_cons, List.sum_nil, add_zero] at hf ⊢
      exact hf
    · have l1 : layer ((pieces ev.1 (ip i)).map (finish ev)) k = [] := by
        unfold layer; rw [List.filter_eq_nil_iff.2, List.map_nil]
        intro e he; rw [hk e he]; simpa using c
      have l2 : layer [ev] k = [] := by simp [layer, c]
      rw [l1, l2]

/-! ### Planarity -/

theorem number_edges (E : List Ev) : ∀ i, (number i E).map Prod.fst = E.map Prod.fst := by
  induction E with
  | nil => intro i; rfl
  | cons a r ih => intro i; simp [number, ih]

theorem exact_cut {fp : FP} {umin : Int} {E : List Ev} (h : Exact fp umin (E.map Prod.fst)) {j : Nat} {ev : Ev} (hj : E[j]? = some ev) (p : Pt) :
    p ∈ divide fp umin (number 0 E) (0 + j) ↔ Node fp (E.map Prod.fst) p ∧ OnEdge ev.1 (cq p) := by
  have := exact_iff (L := number 0 E) (by rw [number_edges]; exact h) (fun s hs t ht => number_inj hs ht) (s := (ev.1, 0 + j))
    ((number_mem _ _ _).2 ⟨j, ev, hj, rfl⟩) p
  rwa [number_edges] at this

theorem exact_ok {fp : FP} {umin : Int} {E : List Ev} (h : Exact fp umin (E.map Prod.fst)) {j : Nat} {ev : Ev} (hj : E[j]? = some ev) :
    Directed ev.1 ∧ OK ev.1 (divide fp umin (number 0 E) (0 + j)) ∧ ∀ p ∈ divide fp umin (number 0 E) (0 + j), OnEdge ev.1 (cq p) := by
  have hm : ev.1 ∈ E.map Prod.fst := List.mem_map.2 ⟨ev, List.mem_of_getElem? hj, rfl⟩
  have hd := h.dir _ hm
  refine ⟨hd, ⟨divide_srt _ _ _ _, ?_, ?_, ?_⟩, fun p hp => ((exact_cut h hj p).1 hp).2⟩
  · exact (exact_cut h hj _).2 ⟨Or.inl ⟨_, hm, Or.inl rfl⟩, onEdge_fst _⟩
  · exact (exact_cut h hj _).2 ⟨Or.inl ⟨_, hm, Or.inr rfl⟩, onEdge_snd _⟩
  · intro p hp; exact ((on_iff hd p).1 ((exact_cut h hj p).1 hp).2).1

theorem cut_piece {fp : FP} {umin : Int} {E : List Ev} (h : Exact fp umin (E.map Prod.fst)) {e : Ev} (he : e ∈ cut fp umin E) :
    ∃ j ev, E[j]? = some ev ∧ e.1 ∈ chain (divide fp umin (number 0 E) (0 + j)) ∧ e.2 = ev.2 := by
  obtain ⟨j, ev, h1, h2⟩ := (cutGo_mem _ _ _ _).1 he
  obtain ⟨hd, hok, ho⟩ := exact_ok h h1
  obtain ⟨p, hp, rfl⟩ := List.mem_map.1 h2
  rw [pieces_on hd hok.srt ho] at hp
  obtain ⟨g1, g2, g3⟩ := chain_pairwise _ hok.srt p hp
  rw [finish_on hd (ho _ g2) (ho _ g3) g1]
  exact ⟨j, ev, h1, hp, rfl⟩

theorem inner_end {L : List Pt} {e : HE} (hs : L.Pairwise plt) (he : e ∈ chain L) {p : Pt} (hp : p ∈ L) (h1 : lle (cq e.1) (cq p)) (h2 : lle (cq p) (cq e.2)) :
    p = e.1 ∨ p = e.2 := by
  by_contra hc
  rw [not_or] at hc
  exact chain_consec L hs e he p hp ⟨(lle_plt h1).resolve_left (fun h => hc.1 h.symm), (lle_plt h2).resolve_left hc.2⟩

theorem endOf_cq {e : HE} {p : Pt} (h : p = e.1 ∨ p = e.2) : EndOf e (cq p) := by
  rcases h with rfl | rfl
  · exact Or.inl ⟨rfl, rfl⟩
  · exact Or.inr ⟨rfl, rfl⟩

theorem same_piece {fp : FP} {E : List HE} {a b : HE} {A B : List Pt} (ha : Directed a) (hb : Directed b)
    (hA : ∀ p, p ∈ A ↔ Node fp E p ∧ OnEdge a (cq p)) (hB : ∀ p, p ∈ B ↔ Node fp E p ∧ OnEdge b (cq p)) (sA : A.Pairwise plt) (sB : B.Pairwise plt)
    (hc : cr a b = 0) {e f : HE} (he : e ∈ chain A) (hf : f ∈ chain B) {q : ℚ × ℚ} (q1 : OnEdge e q) (q2 : OnEdge f q) (hq : ¬ EndOf e q) : e = f := by
  obtain ⟨de, e1, e2⟩ := chain_dir sA he
  obtain ⟨df, f1, f2⟩ := chain_dir sB hf
  have e1' := (hA _).1 e1
  have e2' := (hA _).1 e2
  have f1' := (hB _).1 f1
  have f2' := (hB _).1 f2
  have qa := ((onEdge_lex ha _).1 (sub_onEdge ha de e1'.2 e2'.2 q1)).1
  have qb := ((onEdge_lex hb _).1 (sub_onEdge hb df f1'.2 f2'.2 q2)).1
  obtain ⟨_, u1, u2⟩ := (onEdge_lex de _).1 q1
  obtain ⟨_, v1, v2⟩ := (onEdge_lex df _).1 q2
  have hc' : cr b a = 0 := by rw [cr_symm, hc]; rfl
  have ab : ∀ {r : Pt}, OnEdge b (cq r) → dq (cq r) a = 0 := fun hr => line_same hb hc qa qb ((onEdge_lex hb _).1 hr).1
  have ba : ∀ {r : Pt}, OnEdge a (cq r) → dq (cq r) b = 0 := fun hr => line_same ha hc' qb qa ((onEdge_lex ha _).1 hr).1
  obtain ⟨_, x1, x2⟩ := (onEdge_lex ha _).1 e1'.2
  obtain ⟨_, y1, y2⟩ := (onEdge_lex ha _).1 e2'.2
  obtain ⟨_, z1, z2⟩ := (onEdge_lex hb _).1 f1'.2
  obtain ⟨_, w1, w2⟩ := (onEdge_lex hb _).1 f2'.2
  -- an end of `f` between the ends of `e` is an end of `e`
  have kA : ∀ r, Node fp E r → OnEdge b (cq r) → lle (cq e.1) (cq r) → lle (cq r) (cq e.2) → r = e.1 ∨ r = e.2 := by
    intro r hN hr l1 l2
    exact inner_end sA he ((hA r).2 ⟨hN, (onEdge_lex ha _).2 ⟨ab hr, lle_trans x1 l1, lle_trans l2 y2⟩⟩) l1 l2
  have kB : ∀ r, Node fp E r → OnEdge a (cq r) → lle (cq f.1) (cq r) → lle (cq r) (cq f.2) → r = f.1 ∨ r = f.2 := by
    intro r hN hr l1 l2
    exact inner_end sB hf ((hB r).2 ⟨hN, (onEdge_lex hb _).2 ⟨ba hr, lle_trans z1 l1, lle_trans l2 w2⟩⟩) l1 l2
  have nq1 : q ≠ cq e.1 := fun h => hq (h ▸ endOf_cq (Or.inl rfl))
  have nq2 : q ≠ cq e.2 := fun h => hq (h ▸ endOf_cq (Or.inr rfl))
  -- first ends
  have g1 : lle (cq f.1) (cq e.1) := by
    by_contra hcon
    have l := (lle_total (cq f.1) (cq e.1)).resolve_left hcon
    rcases kA f.1 f1'.1 f1'.2 l (lle_trans v1 u2) with h | h
    · exact hcon (by rw [h]; exact Or.inr ⟨rfl, le_refl _⟩)
    · exact nq2 (lle_antisymm u2 (h ▸ v1))
  have g2 : lle (cq e.2) (cq f.2) := by
    by_contra hcon
    have l := (lle_total (cq e.2) (cq f.2)).resolve_left hcon
    rcases kA f.2 f2'.1 f2'.2 (lle_trans u1 v2) l with h | h
    · exact nq1 (lle_antisymm (h ▸ v2) u1)
    · exact hcon (by rw [h]; exact Or.inr ⟨rfl, le_refl _⟩)
  have h1 : e.1 = f.1 := by
    rcases kB e.1 e1'.1 e1'.2 g1 (lle_trans (plt_lle de) g2) with h | h
    · exact h
    · exfalso
      exact plt_not de (h ▸ g2)
  have h2 : e.2 = f.2 := by
    rcases kB e.2 e2'.1 e2'.2 (lle_trans g1 (plt_lle de)) g2 with h | h
    · exfalso
      exact plt_not de (h ▸ g1)
    · exact h
  exact Prod.ext h1 h2

theorem exact_planar {fp : FP} {umin : Int} {E : List Ev} (h : Exact fp umin (E.map Prod.fst)) : Planar ((cut fp umin E).map Prod.fst) := by
  intro e he f hf hne q q1 q2
  obtain ⟨e', he', rfl⟩ := List.mem_map.1 he
  obtain ⟨f', hf', rfl⟩ := List.mem_map.1 hf
  obtain ⟨i, a, ha, ca, _⟩ := cut_piece h he'
  obtain ⟨j, b, hb, cb, _⟩ := cut_piece h hf'
  obtain ⟨da, oka, oa⟩ := exact_ok h ha
  obtain ⟨db, okb, ob⟩ := exact_ok h hb
  have hma : a.1 ∈ E.map Prod.fst := List.mem_map.2 ⟨a, List.mem_of_getElem? ha, rfl⟩
  have hmb : b.1 ∈ E.map Prod.fst := List.mem_map.2 ⟨b, List.mem_of_getElem? hb, rfl⟩
  by_cases hc : cr a.1 b.1 = 0
  · constructor
    · by_contra hq
      exact hne (same_piece da db (exact_cut h ha) (exact_cut h hb) oka.srt okb.srt hc ca cb q1 q2 hq)
    · by_contra hq
      exact hne (same_piece db da (exact_cut h hb) (exact_cut h ha) okb.srt oka.srt (by rw [cr_symm, hc]; rfl) cb ca q2 q1 hq).symm
  · obtain ⟨de, e1, e2⟩ := chain_dir oka.srt ca
    obtain ⟨df, f1, f2⟩ := chain_dir okb.srt cb
    have qa := sub_onEdge da de (oa _ e1) (oa _ e2) q1
    have qb := sub_onEdge db df (ob _ f1) (ob _ f2) q2
    obtain ⟨p, hN, rfl⟩ := h.meet _ hma _ hmb hc q qa qb
    obtain ⟨_, u1, u2⟩ := (onEdge_lex de _).1 q1
    obtain ⟨_, v1, v2⟩ := (onEdge_lex df _).1 q2
    exact ⟨endOf_cq (inner_end oka.srt ca ((exact_cut h ha p).2 ⟨hN, qa⟩) u1 u2),
      endOf_cq (inner_end okb.srt cb ((exact_cut h hb p).2 ⟨hN, qb⟩) v1 v2)⟩

end Verif.Cut
