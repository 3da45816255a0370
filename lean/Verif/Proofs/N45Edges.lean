import Verif.Proofs.N45Local
/-!
# The edges between consecutive vertices of 45-degree data
-/
namespace Verif.N45
open Verif.Deg45 Verif.Set45 Verif.Spec.Deg45
open Verif.F45 (qat rho erho Oct2)
open Verif.ArbForm (V)

/-- The line of slope `r` through a point. -/
def lk (r : Int) (p : P) : Int := if r = 2 then p.1 else p.2 - r * p.1

/-- The edges along one line. -/
def edgesOn (r : Int) : Int → List VC → List V
  | acc, v :: u :: L => (if acc + qat v.2 r = 0 then [] else [((v.1, u.1), acc + qat v.2 r)]) ++ edgesOn r (acc + qat v.2 r) (u :: L)
  | _, _ => []

instance (p q : P) : Decidable (PLt p q) := inferInstanceAs (Decidable (_ ∨ _))

/-- The vertices off a line. -/
def off (r k : Int) (E : List VC) : List VC := E.filter (fun w => !decide (lk r w.1 = k))

/-- The edges of one slope. -/
def edges (r : Int) : List VC → List V
  | [] => []
  | v :: E => edgesOn r 0 (v :: E.filter (fun w => decide (lk r w.1 = lk r v.1))) ++ edges r (off r (lk r v.1) E)
termination_by E => E.length
decreasing_by
  simp only [List.length_cons]
  exact Nat.lt_succ_of_le (List.length_filter_le _ _)

def esum (D : List V) (f : P → Int) : Int := (D.map (fun e => e.2 * (f e.1.1 - f e.1.2))).sum
def vsum (r : Int) (E : List VC) (f : P → Int) : Int := (E.map (fun v => qat v.2 r * f v.1)).sum

theorem esum_append (D D' : List V) (f : P → Int) : esum (D ++ D') f = esum D f + esum D' f := by simp [esum]

theorem edgesOn_sum (r : Int) (f : P → Int) : ∀ (L : List VC) (v : VC) (acc : Int), acc + ((v :: L).map (fun v => qat v.2 r)).sum = 0 →
    esum (edgesOn r acc (v :: L)) f = acc * f v.1 + vsum r (v :: L) f
  | [], v, acc, h => by
    simp only [List.map_cons, List.map_nil, List.sum_cons, List.sum_nil] at h
    have : acc = -qat v.2 r := by omega
    simp [edgesOn, esum, vsum, this]
  | u :: L, v, acc, h => by
    have ih := edgesOn_sum r f L u (acc + qat v.2 r) (by simp only [List.map_cons, List.sum_cons] at h ⊢; omega)
    rw [edgesOn, esum_append, ih]
    have e1 : esum (if acc + qat v.2 r = 0 then [] else [((v.1, u.1), acc + qat v.2 r)]) f = (acc + qat v.2 r) * (f v.1 - f u.1) := by
      by_cases c : acc + qat v.2 r = 0
      · rw [if_pos c, c]; simp [esum]
      · rw [if_neg c]; simp [esum]
    rw [e1]
    simp only [vsum, List.map_cons, List.sum_cons]
    ring

theorem sum_split {α : Type} (p : α → Bool) (f : α → Int) : ∀ L : List α, (L.map f).sum = ((L.filter p).map f).sum + ((L.filter (fun a => !p a)).map f).sum
  | [] => rfl
  | a :: L => by
    have ih := sum_split p f L
    by_cases c : p a = true
    · rw [List.filter_cons_of_pos (by simpa using c), List.filter_cons_of_neg (by simp [c])]
      simp only [List.map_cons, List.sum_cons]
      omega
    · rw [List.filter_cons_of_neg (by simpa using c), List.filter_cons_of_pos (by simpa using c)]
      simp only [List.map_cons, List.sum_cons]
      omega

theorem edges_sum (r : Int) (f : P → Int) (E : List VC) (h : ∀ k, ((E.filter (fun w => decide (lk r w.1 = k))).map (fun v => qat v.2 r)).sum = 0) :
    esum (edges r E) f = vsum r E f := by
  induction E using edges.induct r with
  | case1 => simp [edges, esum, vsum]
  | case2 v E ih =>
    have hk := h (lk r v.1)
    rw [List.filter_cons_of_pos (by simp)] at hk
    rw [edges, esum_append, edgesOn_sum r f _ v 0 (by rw [zero_add]; exact hk), ih ?_]
    · have := sum_split (fun w : VC => decide (lk r w.1 = lk r v.1)) (fun v => qat v.2 r * f v.1) E
      simp only [vsum, List.map_cons, List.sum_cons, off]
      rw [this]
      ring
    · intro k
      unfold off
      rw [List.filter_filter]
      by_cases c : k = lk r v.1
      · rw [List.filter_eq_nil_iff.2]
        · rfl
        · intro a _
          simp [c]
      · have := h k
        rw [List.filter_cons_of_neg (by simpa using Ne.symm c)] at this
        rw [← this]
        congr 2
        apply List.filter_congr
        intro a _
        by_cases d : lk r a.1 = k
        · simp [d, c]
        · simp [d]

/-- What an edge of one line says. -/
theorem edgesOn_mem {r : Int} : ∀ {L : List VC} {acc : Int}, L.Pairwise (fun v w => PLt v.1 w.1) → ∀ e ∈ edgesOn r acc L,
    ∃ v ∈ L, ∃ u ∈ L, e.1 = (v.1, u.1) ∧ PLt v.1 u.1 ∧ (∀ w ∈ L, ¬ (PLt v.1 w.1 ∧ PLt w.1 u.1)) ∧ e.2 ≠ 0 ∧
      e.2 = acc + ((L.filter (fun w => !decide (PLt v.1 w.1))).map (fun w => qat w.2 r)).sum
  | [], acc, _, e, he => by simp [edgesOn] at he
  | [v], acc, _, e, he => by simp [edgesOn] at he
  | v :: u :: L, acc, hs, e, he => by
    obtain ⟨hs1, hs2⟩ := List.pairwise_cons.1 hs
    rw [edgesOn, List.mem_append] at he
    rcases he with he | he
    · by_cases c : acc + qat v.2 r = 0
      · rw [if_pos c] at he; simp at he
      · rw [if_neg c, List.mem_singleton] at he
        subst he
        refine ⟨v, List.mem_cons_self, u, by simp, rfl, hs1 u List.mem_cons_self, ?_, c, ?_⟩
        · intro w hw ⟨h1, h2⟩
          rcases List.mem_cons.1 hw with rfl | hw
          · unfold PLt at h1; omega
          · rcases List.mem_cons.1 hw with rfl | hw
            · unfold PLt at h2; omega
            · have := (List.pairwise_cons.1 hs2).1 w hw
              unfold PLt at this h2; omega
        · rw [List.filter_cons_of_pos (by simp [PLt]), List.filter_eq_nil_iff.2]
          · simp
          · intro a ha
            simpa using hs1 a ha
    · obtain ⟨v', hv', u', hu', h1, h2, h3, h4, h5⟩ := edgesOn_mem hs2 e he
      have hvv := hs1 v' hv'
      refine ⟨v', List.mem_cons_of_mem _ hv', u', List.mem_cons_of_mem _ hu', h1, h2, ?_, h4, ?_⟩
      · intro w hw ⟨g1, g2⟩
        rcases List.mem_cons.1 hw with rfl | hw
        · unfold PLt at g1 hvv; omega
        · exact h3 w hw ⟨g1, g2⟩
      · rw [List.filter_cons_of_pos (by simp only [Bool.not_eq_true', decide_eq_false_iff_not]; unfold PLt at hvv ⊢; omega), List.map_cons, List.sum_cons, h5]
        ring

theorem edges_mem {r : Int} {E : List VC} (hs : E.Pairwise (fun v w => PLt v.1 w.1)) : ∀ e ∈ edges r E,
    ∃ v ∈ E, ∃ u ∈ E, e.1 = (v.1, u.1) ∧ PLt v.1 u.1 ∧ lk r v.1 = lk r u.1 ∧ (∀ w ∈ E, lk r w.1 = lk r v.1 → ¬ (PLt v.1 w.1 ∧ PLt w.1 u.1)) ∧ e.2 ≠ 0 ∧
      e.2 = tot E (fun a => decide (lk r a = lk r v.1 ∧ ¬ PLt v.1 a)) (fun c => qat c r) := by
  induction E using edges.induct r with
  | case1 => intro e he; simp [edges] at he
  | case2 v E ih =>
    intro e he
    rw [edges, List.mem_append] at he
    obtain ⟨hs1, hs2⟩ := List.pairwise_cons.1 hs
    rcases he with he | he
    · have hsf : (v :: E.filter (fun w => decide (lk r w.1 = lk r v.1))).Pairwise (fun v w => PLt v.1 w.1) :=
        hs.sublist (List.Sublist.cons_cons v List.filter_sublist)
      obtain ⟨v', hv', u', hu', h1, h2, h3, h4, h5⟩ := edgesOn_mem hsf e he
      have key : ∀ w, w ∈ v :: E.filter (fun w => decide (lk r w.1 = lk r v.1)) ↔ w ∈ v :: E ∧ lk r w.1 = lk r v.1 := by
        intro w
        rw [List.mem_cons, List.mem_filter, List.mem_cons]
        constructor
        · rintro (rfl | h)
          · exact ⟨Or.inl rfl, rfl⟩
          · exact ⟨Or.inr h.1, by simpa using h.2⟩
        · rintro ⟨rfl | h, hk⟩
          · exact Or.inl rfl
          · exact Or.inr ⟨h, by simpa using hk⟩
      obtain ⟨hv1, hv2⟩ := (key v').1 hv'
      obtain ⟨hu1, hu2⟩ := (key u').1 hu'
      refine ⟨v', hv1, u', hu1, h1, h2, hv2.trans hu2.symm, ?_, h4, ?_⟩
      · intro w hw hk
        exact h3 w ((key w).2 ⟨hw, hk.trans hv2⟩)
      · rw [h5, zero_add, hv2, ← sum_filter_tot]
        congr 2
        have e1 : v :: E.filter (fun w => decide (lk r w.1 = lk r v.1)) = (v :: E).filter (fun w => decide (lk r w.1 = lk r v.1)) := by
          rw [List.filter_cons_of_pos (by simp)]
        rw [e1, List.filter_filter]
        apply List.filter_congr
        intro a _
        by_cases c : lk r a.1 = lk r v.1 <;> by_cases d : PLt v'.1 a.1 <;> simp [c, d]
    · obtain ⟨v', hv', u', hu', h1, h2, h3, h4, h5, h6⟩ := ih (hs2.sublist List.filter_sublist) e he
      obtain ⟨hv1, hv2⟩ := List.mem_filter.1 hv'
      obtain ⟨hu1, hu2⟩ := List.mem_filter.1 hu'
      have hv3 : lk r v'.1 ≠ lk r v.1 := by simpa using hv2
      refine ⟨v', List.mem_cons_of_mem _ hv1, u', List.mem_cons_of_mem _ hu1, h1, h2, h3, ?_, h5, ?_⟩
      · intro w hw hk
        rcases List.mem_cons.1 hw with rfl | hw
        · exact absurd hk.symm hv3
        · exact h4 w (List.mem_filter.2 ⟨hw, by simpa using hk.trans_ne hv3⟩) hk
      · rw [h6, tot_cons, if_neg (by simp [Ne.symm hv3]), zero_add, off, tot_filter E _ (fun p => !decide (lk r p = lk r v.1))]
        apply tot_congr
        intro a _
        by_cases c : lk r a.1 = lk r v'.1
        · simp [c, hv3]
        · simp [c]

theorem edgesOn_sorted {r : Int} : ∀ {L : List VC} {acc : Int}, L.Pairwise (fun v w => PLt v.1 w.1) → (edgesOn r acc L).Pairwise (fun e f => PLt e.1.1 f.1.1)
  | [], acc, _ => by simp [edgesOn]
  | [v], acc, _ => by simp [edgesOn]
  | v :: u :: L, acc, hs => by
    obtain ⟨hs1, hs2⟩ := List.pairwise_cons.1 hs
    have ih := edgesOn_sorted (r := r) (acc := acc + qat v.2 r) hs2
    rw [edgesOn]
    by_cases c : acc + qat v.2 r = 0
    · rw [if_pos c, List.nil_append]; exact ih
    · rw [if_neg c]
      refine List.pairwise_cons.2 ⟨?_, ih⟩
      intro e he
      obtain ⟨v', hv', u', hu', h1, -⟩ := edgesOn_mem hs2 e he
      rw [h1]
      exact hs1 v' hv'

theorem edges_nodup {r : Int} {E : List VC} (hs : E.Pairwise (fun v w => PLt v.1 w.1)) : ((edges r E).map Prod.fst).Nodup := by
  induction E using edges.induct r with
  | case1 => simp [edges]
  | case2 v E ih =>
    obtain ⟨hs1, hs2⟩ := List.pairwise_cons.1 hs
    have hsf : (v :: E.filter (fun w => decide (lk r w.1 = lk r v.1))).Pairwise (fun v w => PLt v.1 w.1) :=
      hs.sublist (List.Sublist.cons_cons v List.filter_sublist)
    rw [edges, List.map_append]
    refine List.Nodup.append ?_ (ih (hs2.sublist List.filter_sublist)) ?_
    · have := edgesOn_sorted (r := r) (acc := 0) hsf
      rw [List.Nodup, List.pairwise_map]
      refine this.imp ?_
      intro a b h hab
      rw [hab] at h
      unfold PLt at h; omega
    · intro a h1 h2
      obtain ⟨e, he, rfl⟩ := List.mem_map.1 h1
      obtain ⟨f, hf, hef⟩ := List.mem_map.1 h2
      obtain ⟨v1, hv1, u1, -, g1, -⟩ := edgesOn_mem hsf e he
      obtain ⟨v2, hv2, u2, -, g2, -⟩ := edges_mem (hs2.sublist List.filter_sublist) f hf
      have hk2 := (List.mem_filter.1 hv2).2
      have heq : v1.1 = v2.1 := by
        have : e.1.1 = f.1.1 := by rw [hef]
        rw [g1, g2] at this
        exact this
      have hk1 : lk r v1.1 = lk r v.1 := by
        rcases List.mem_cons.1 hv1 with rfl | h
        · rfl
        · simpa using (List.mem_filter.1 h).2
      rw [← heq, hk1] at hk2
      simp at hk2

/-! ### All slopes -/

def allEdges (E : List VC) : List V := edges (-1) E ++ edges 0 E ++ edges 1 E ++ edges 2 E

def Slope (r : Int) : Prop := r = -1 ∨ r = 0 ∨ r = 1 ∨ r = 2

theorem mem_all {E : List VC} {e : V} : e ∈ allEdges E ↔ ∃ r, Slope r ∧ e ∈ edges r E := by
  unfold allEdges Slope
  simp only [List.mem_append]
  constructor
  · rintro (((h | h) | h) | h)
    · exact ⟨-1, by simp, h⟩
    · exact ⟨0, by simp, h⟩
    · exact ⟨1, by simp, h⟩
    · exact ⟨2, by simp, h⟩
  · rintro ⟨r, rfl | rfl | rfl | rfl, h⟩ <;> simp [h]

theorem rho_line {r : Int} (hr : Slope r) {a b : P} (h : PLt a b) (hk : lk r a = lk r b) : rho a b = r ∧ Oct2 a b := by
  unfold PLt at h
  rcases hr with rfl | rfl | rfl | rfl
  all_goals
    simp only [lk] at hk
    norm_num at hk
  · have : a.1 ≠ b.1 := by omega
    refine ⟨?_, by unfold Oct2; omega⟩
    unfold rho
    rw [if_neg (by omega), if_neg (by omega), if_neg (by omega)]
  · refine ⟨?_, by unfold Oct2; omega⟩
    unfold rho
    rw [if_neg (by omega), if_pos (by omega)]
  · refine ⟨?_, by unfold Oct2; omega⟩
    unfold rho
    rw [if_neg (by omega), if_neg (by omega), if_pos (by omega)]
  · refine ⟨?_, by unfold Oct2; omega⟩
    unfold rho
    rw [if_pos (by omega)]

theorem edges_rho {r : Int} (hr : Slope r) {E : List VC} (hs : E.Pairwise (fun v w => PLt v.1 w.1)) {e : V} (he : e ∈ edges r E) :
    erho e = r ∧ Oct2 e.1.1 e.1.2 := by
  obtain ⟨v, -, u, -, h1, h2, h3, -⟩ := edges_mem hs e he
  unfold erho
  rw [h1]
  exact rho_line hr h2 h3

theorem filter_slope {r s : Int} (hs' : Slope s) {E : List VC} (hs : E.Pairwise (fun v w => PLt v.1 w.1)) :
    (edges s E).filter (fun e => decide (erho e = r)) = if s = r then edges s E else [] := by
  by_cases c : s = r
  · rw [if_pos c]
    apply List.filter_eq_self.2
    intro e he
    simp [(edges_rho hs' hs he).1, c]
  · rw [if_neg c]
    apply List.filter_eq_nil_iff.2
    intro e he
    simp [(edges_rho hs' hs he).1, c]

theorem filter_all {r : Int} (hr : Slope r) {E : List VC} (hs : E.Pairwise (fun v w => PLt v.1 w.1)) :
    (allEdges E).filter (fun e => decide (erho e = r)) = edges r E := by
  unfold allEdges
  rw [List.filter_append, List.filter_append, List.filter_append, filter_slope (by simp [Slope]) hs, filter_slope (by simp [Slope]) hs,
    filter_slope (by simp [Slope]) hs, filter_slope (by simp [Slope]) hs]
  rcases hr with rfl | rfl | rfl | rfl <;> simp

theorem all_nodup {E : List VC} (hs : E.Pairwise (fun v w => PLt v.1 w.1)) : ((allEdges E).map Prod.fst).Nodup := by
  have dj : ∀ r s, Slope r → Slope s → r ≠ s → ∀ a ∈ (edges r E).map Prod.fst, ∀ b ∈ (edges s E).map Prod.fst, a ≠ b := by
    intro r s hr hs' hrs a h1 b h2 hab
    obtain ⟨e, he, rfl⟩ := List.mem_map.1 h1
    obtain ⟨f, hf, rfl⟩ := List.mem_map.1 h2
    have g1 := (edges_rho hr hs he).1
    have g2 := (edges_rho hs' hs hf).1
    unfold erho at g1 g2
    rw [hab] at g1
    exact hrs (g1.symm.trans g2)
  unfold allEdges
  simp only [List.map_append]
  simp only [List.nodup_append, edges_nodup hs, true_and, List.mem_append]
  refine ⟨⟨?_, ?_⟩, ?_⟩
  · exact dj _ _ (by simp [Slope]) (by simp [Slope]) (by decide)
  · rintro a (h | h)
    · exact dj _ _ (by simp [Slope]) (by simp [Slope]) (by decide) a h
    · exact dj _ _ (by simp [Slope]) (by simp [Slope]) (by decide) a h
  · rintro a ((h | h) | h)
    · exact dj _ _ (by simp [Slope]) (by simp [Slope]) (by decide) a h
    · exact dj _ _ (by simp [Slope]) (by simp [Slope]) (by decide) a h
    · exact dj _ _ (by simp [Slope]) (by simp [Slope]) (by decide) a h

/-! ### Closed data -/

theorem vsum_tot (r : Int) (E : List VC) (f : P → Bool) : vsum r E (fun p => if f p then 1 else 0) = tot E f (fun c => qat c r) := by
  unfold vsum tot
  congr 1
  apply List.map_congr_left
  intro v _
  by_cases c : f v.1 = true <;> simp [c]

theorem line_zero {E : List VC} (hc : Closed (C := Int) E) {r : Int} (hr : Slope r) (k : Int) :
    ((E.filter (fun w => decide (lk r w.1 = k))).map (fun v => qat v.2 r)).sum = 0 := by
  rw [sum_filter_tot (C := Int) E (fun p => decide (lk r p = k)) (fun c => qat c r)]
  rcases hr with rfl | rfl | rfl | rfl
  · rw [← hc.down k]
    refine tot_congr _ (fun (v : VC) _ => ?_)
    have : lk (-1) v.1 = v.1.1 + v.1.2 := by simp [lk]; omega
    rw [this]
  · refine Eq.trans (tot_congr _ (fun (v : VC) _ => ?_)) (hc.flat k)
    have : lk 0 v.1 = v.1.2 := by simp [lk]
    rw [this]
  · rw [← hc.up k]
    refine tot_congr _ (fun (v : VC) _ => ?_)
    have : lk 1 v.1 = v.1.2 - v.1.1 := by simp [lk]
    rw [this]
  · rw [← hc.vert k]
    refine tot_congr _ (fun (v : VC) _ => ?_)
    have : lk 2 v.1 = v.1.1 := by simp [lk]
    rw [this]

theorem edges_tot {E : List VC} (hc : Closed E) {r : Int} (hr : Slope r) (f : P → Bool) :
    esum (edges r E) (fun p => if f p then 1 else 0) = tot E f (fun c => qat c r) := by
  rw [edges_sum r _ E (line_zero hc hr), vsum_tot]

/-- One vertex. -/
theorem tot_at {E : List VC} (hs : E.Pairwise (fun v w => PLt v.1 w.1)) {v : VC} (hv : v ∈ E) (w : Quad Int → Int) :
    tot E (fun a => decide (a = v.1)) w = w v.2 := by
  induction E with
  | nil => simp at hv
  | cons u E ih =>
    obtain ⟨hs1, hs2⟩ := List.pairwise_cons.1 hs
    rw [tot_cons]
    rcases List.mem_cons.1 hv with rfl | h
    · have : tot E (fun a => decide (a = v.1)) w = 0 := by
        unfold tot
        apply List.sum_eq_zero
        intro x hx
        obtain ⟨y, hy, rfl⟩ := List.mem_map.1 hx
        have := hs1 y hy
        rw [if_neg]
        intro hh
        have : y.1 = v.1 := by simpa using hh
        rename_i h2
        rw [this] at h2
        unfold PLt at h2; omega
      rw [this]; simp
    · have := hs1 v h
      rw [if_neg, ih hs2 h, zero_add]
      intro hh
      have h3 : u.1 = v.1 := by simpa using hh
      rw [h3] at this
      unfold PLt at this; omega

theorem slot_all {E : List VC} (hs : E.Pairwise (fun v w => PLt v.1 w.1)) (hc : Closed E) {v : VC} (hv : v ∈ E) {r : Int} (hr : Slope r) :
    qat v.2 r = F45.sumS (allEdges E) v.1 r - F45.sumE (allEdges E) v.1 r := by
  have h := edges_tot hc hr (fun a => decide (a = v.1))
  rw [tot_at hs hv (fun c => qat c r)] at h
  rw [← h]
  have e1 : ∀ g : V → Prop, [DecidablePred g] → ((allEdges E).filter (fun e => decide (g e ∧ erho e = r))) = (edges r E).filter (fun e => decide (g e)) := by
    intro g _
    rw [← filter_all hr hs, List.filter_filter]
    apply List.filter_congr
    intro e _
    by_cases c : g e <;> simp [c]
  unfold F45.sumS F45.sumE
  rw [e1 (fun e => e.1.1 = v.1), e1 (fun e => e.1.2 = v.1)]
  unfold esum
  generalize edges r E = D
  induction D with
  | nil => rfl
  | cons e D ih =>
    simp only [List.map_cons, List.sum_cons]
    rw [ih]
    by_cases c1 : e.1.1 = v.1 <;> by_cases c2 : e.1.2 = v.1 <;> simp [c1, c2] <;> ring

theorem closed_all {E : List VC} (hs : E.Pairwise (fun v w => PLt v.1 w.1)) (hc : Closed E) : Verif.Spec.Arb.Closed (allEdges E) := by
  intro p
  have e1 : ∀ r, Slope r → r ≠ 2 → ((edges r E).map (fun e => Verif.Spec.Arb.inflow e p)).sum = -tot E (fun a => decide (a = p)) (fun c => qat c r) := by
    intro r hr h2
    rw [← edges_tot hc hr]
    have hrho : ∀ e ∈ edges r E, e.1.1.1 ≠ e.1.2.1 := by
      intro e he h
      have := (edges_rho hr hs he).1
      unfold erho at this
      rw [← this, Ne, F45.rho_two] at h2
      exact h2 h.symm
    unfold esum Verif.Spec.Arb.inflow
    generalize edges r E = D at hrho ⊢
    induction D with
    | nil => rfl
    | cons e D ih =>
      simp only [List.map_cons, List.sum_cons]
      rw [ih (fun f hf => hrho f (List.mem_cons_of_mem _ hf)), if_neg (hrho e List.mem_cons_self)]
      simp only [decide_eq_true_eq]
      ring
  have e2 : ((edges 2 E).map (fun e => Verif.Spec.Arb.inflow e p)).sum = tot E (fun a => decide (a = p)) (fun c => qat c 2) := by
    rw [← edges_tot hc (by simp [Slope])]
    have hrho : ∀ e ∈ edges 2 E, e.1.1.1 = e.1.2.1 := by
      intro e he
      have := (edges_rho (by simp [Slope]) hs he).1
      unfold erho at this
      rw [F45.rho_two] at this
      exact this.symm
    unfold esum Verif.Spec.Arb.inflow
    generalize edges 2 E = D at hrho ⊢
    induction D with
    | nil => rfl
    | cons e D ih =>
      simp only [List.map_cons, List.sum_cons]
      rw [ih (fun f hf => hrho f (List.mem_cons_of_mem _ hf)), if_pos (hrho e List.mem_cons_self)]
      simp only [decide_eq_true_eq]
      ring
  unfold allEdges
  simp only [List.map_append, List.sum_append]
  rw [e1 (-1) (by simp [Slope]) (by decide), e1 0 (by simp [Slope]) (by decide), e1 1 (by simp [Slope]) (by decide), e2]
  have := hc.point p
  rw [tot_add, tot_add] at this
  have h1 : (fun c : Quad Int => qat c (-1)) = Quad.n := rfl
  have h2 : (fun c : Quad Int => qat c 0) = Quad.z := rfl
  have h3 : (fun c : Quad Int => qat c 1) = Quad.p := rfl
  have h4 : (fun c : Quad Int => qat c 2) = Quad.v := rfl
  rw [h1, h2, h3, h4]
  omega

theorem depth_all {E : List VC} (hs : E.Pairwise (fun v w => PLt v.1 w.1)) (hc : Closed E) (q : ℚ × ℚ) : Verif.Spec.Arb.depth (allEdges E) q = depth E q := by
  have e1 : ∀ r, Slope r → r ≠ 2 → ((edges r E).map (fun e => if Verif.Spec.Arb.PassesBelow e.1 q then e.2 else 0)).sum = tot E (reach q r) (fun c => qat c r) := by
    intro r hr h2
    rw [← edges_tot hc hr]
    have hrho : ∀ e ∈ edges r E, erho e = r ∧ Oct2 e.1.1 e.1.2 ∧ e.1.1.1 < e.1.2.1 := by
      intro e he
      have h := edges_rho hr hs he
      refine ⟨h.1, h.2, ?_⟩
      obtain ⟨v, -, u, -, g1, g2, g3, -⟩ := edges_mem hs e he
      have h1 := h.1
      unfold erho at h1
      rw [← h1, Ne, F45.rho_two] at h2
      rw [g1] at h2 ⊢
      dsimp only at h2 ⊢
      unfold PLt at g2
      omega
    unfold esum
    generalize edges r E = D at hrho ⊢
    induction D with
    | nil => rfl
    | cons e D ih =>
      simp only [List.map_cons, List.sum_cons]
      rw [ih (fun f hf => hrho f (List.mem_cons_of_mem _ hf))]
      congr 1
      obtain ⟨h3, h4, h5⟩ := hrho e List.mem_cons_self
      have hY := F45.Y_rho (e := e.1) h5 h4 q.1
      have hY2 := F45.Y_rho (e := e.1) h5 h4 e.1.2.1
      unfold erho at h3
      rw [h3] at hY hY2
      have hx : (e.1.1.1 : ℚ) < e.1.2.1 := by exact_mod_cast h5
      have hend : (e.1.2.2 : ℚ) = e.1.1.2 + r * (e.1.2.1 - e.1.1.1) := by
        rw [← hY2]
        unfold Verif.Arb.Y Verif.Spec.lineY
        have : (e.1.2.1 : ℚ) - e.1.1.1 ≠ 0 := by linarith
        field_simp
        ring
      unfold Verif.Arb.Y at hY
      have eP : Verif.Spec.Arb.PassesBelow e.1 q ↔ ((e.1.1.1 : ℚ) ≤ q.1 ∧ q.1 < e.1.2.1 ∧ (e.1.1.2 : ℚ) + r * (q.1 - e.1.1.1) ≤ q.2) := by
        unfold Verif.Spec.Arb.PassesBelow
        rw [hY]
      simp only [eP]
      unfold reach
      have e3 : (e.1.2.2 : ℚ) + r * (q.1 - e.1.2.1) = e.1.1.2 + r * (q.1 - e.1.1.1) := by rw [hend]; ring
      rw [e3]
      simp only [decide_eq_true_eq]
      by_cases c1 : (e.1.1.1 : ℚ) ≤ q.1 <;> by_cases c2 : q.1 < e.1.2.1 <;> by_cases c3 : (e.1.1.2 : ℚ) + r * (q.1 - e.1.1.1) ≤ q.2
      all_goals simp only [c1, c2, c3, true_and, false_and, and_false, and_true, if_true, if_false, sub_self, mul_zero, sub_zero, mul_one]
      · rw [if_neg (by linarith), sub_zero, mul_one]
      · rw [if_pos (by linarith), sub_self, mul_zero]
      · rw [if_neg (by linarith)]; simp
      · exact absurd (lt_trans (lt_of_not_ge c1) hx) (by intro h; exact c2 h)
  have e2 : ((edges 2 E).map (fun e => if Verif.Spec.Arb.PassesBelow e.1 q then e.2 else 0)).sum = 0 := by
    apply List.sum_eq_zero
    intro x hx
    obtain ⟨e, he, rfl⟩ := List.mem_map.1 hx
    rw [if_neg]
    rintro ⟨h1, h2, -⟩
    have := (edges_rho (by simp [Slope]) hs he).1
    unfold erho at this
    rw [F45.rho_two] at this
    rw [this] at h2
    linarith
  unfold Verif.Spec.Arb.depth allEdges
  simp only [List.map_append, List.sum_append]
  rw [e1 (-1) (by simp [Slope]) (by decide), e1 0 (by simp [Slope]) (by decide), e1 1 (by simp [Slope]) (by decide), e2, depth_tot, add_zero]
  rfl

end Verif.N45
