import Verif.Proofs.S45Mid2
/-! # A whole column of the 45-degree scanline -/
namespace Verif.Deg45

variable {C : Type} [AddCommGroup C] [DecidableEq C]
variable {g : C → Bool} {X : Int} {Lold : List (El C)} {done ins : List (Vert C)} {EV : Prop}
  {lo hi H Lpre : List (El C)} {Q : List P} {out : List V45} {V : C} {yp yv : Int} {ws : List (Vert C)}

omit [DecidableEq C] in
theorem accumulate_append : ∀ (ws tail : List (Vert C)) (v : Vert C), (∀ t ∈ tail.head?, t.1 ≠ v.1) →
    accumulate v (ws ++ tail) = ((accumulate v ws).1, (accumulate v ws).2 ++ tail) := by
  intro ws
  induction ws with
  | nil =>
    intro tail v h
    cases tail with
    | nil => simp [accumulate]
    | cons t tail =>
      have := h t rfl
      simp only [List.nil_append]
      unfold accumulate
      rw [if_neg this]; rfl
  | cons w ws ih =>
    intro tail v h
    simp only [List.cons_append]
    unfold accumulate
    by_cases c : w.1 = v.1
    · rw [if_pos c, if_pos c]; exact ih tail (v.1, v.2.add w.2) h
    · rw [if_neg c, if_neg c]; rfl

/-- The state when a column is done: everything up to the abscissa is represented by the scanline. -/
structure Done (g : C → Bool) (X : Int) (vs : List (Vert C)) (L : List (El C)) (Q : List P) (out : List V45) : Prop where
  good : Good X L Q
  rin : Eqv (rays vs) (deltas id 0 L)
  rout : Eqv (oRays out) (deltas (gi g) 0 L)
  bal : ∀ pt, bal out pt = 0

theorem mid_end (hC : Col X Lold ins EV) (m : Mid g X Lold done ins EV lo hi H Lpre Q out V yp yv []) :
    Done g X (done ++ ins) (lo ++ hi) Q out ∧ (EV → ∀ e ∈ lo ++ hi, EvenEl e) := by
  have hV : V = 0 := by have := m.vsum; simpa using this
  have hc : lastc 0 lo = lastc 0 Lpre := by have := m.cnt; rwa [hV, sub_zero] at this
  have hnx : ∀ z, yp < z → isX X Lold z = false := by
    intro z hz
    by_contra h
    obtain ⟨w, hw, _⟩ := m.coverX z hz (by simpa using h)
    simp at hw
  have hhi : hi = H := by
    rw [m.hi_eq, List.filter_eq_self.2]
    intro e he; rw [hnx _ (m.H_gt e he)]; rfl
  have hin : ins.filter (fun v => decide (yp < v.1.2)) = [] := by
    rw [List.filter_eq_nil_iff]
    intro v hv h
    obtain ⟨w, hw, _⟩ := m.coverI v hv (by simpa using h)
    simp at hw
  have hHL : ∀ e ∈ H, e ∈ Lold := fun e he => by rw [m.split]; simp [he]
  refine ⟨{ good := ?_, rin := ?_, rout := ?_, bal := ?_ }, ?_⟩
  · refine { slope := ?_, sorted := m.sorted, chain := m.chain, orig := ?_, qsorted := m.qsorted, qgt := m.qgt }
    · intro e he
      rcases List.mem_append.1 he with h | h
      · exact m.slope e h
      · rw [hhi] at h; exact hC.slope e (hHL e h)
    · intro e he
      rcases List.mem_append.1 he with h | h
      · exact m.orig e h
      · rw [hhi] at h; exact le_of_lt (hC.orig e (hHL e h))
  · intro f
    rw [m.rin f, hin, deltas_append, sumOn_append, hc, hhi]
    simp [rays]
  · intro f
    rw [m.rout f, deltas_append, sumOn_append, hc, hhi]
    congr 1
    have : ∀ e ∈ H, isX X Lold (e.eval X) = false := fun e he => hnx _ (m.H_gt e he)
    clear hc hhi hHL m
    generalize lastc 0 Lpre = b
    induction H generalizing b with
    | nil => rfl
    | cons e H ih =>
      simp only [deltas, sumOn_cons]
      rw [ih (fun e he => this e (by simp [he])), atX_line, this e (by simp)]
      simp
  · intro pt
    by_cases h : pt.1 = X
    · have e : pt = (X, pt.2) := by rw [← h]
      rw [e, m.balX pt.2, hc]
      simp only [sub_self, ite_self, zero_sub, neg_eq_zero]
      split_ifs with hx
      · by_cases c : yp < pt.2
        · rw [hnx _ c] at hx; simp at hx
        · rw [sumOn_deltas_none]
          intro f hf; have := m.H_gt f hf; rw [atX_line]; simp; omega
      · rfl
    · exact m.bal0 pt h
  · intro hE e he
    rcases List.mem_append.1 he with h | h
    · exact m.even hE e h
    · rw [hhi] at h; exact hC.evenL hE e (hHL e h)

theorem procLoop_spec (hC : Col X Lold ins EV) : ∀ (k : Nat) (lo hi H Lpre : List (El C)) (Q : List P) (out : List V45)
    (V : C) (yp yv : Int) (ws tail : List (Vert C)) (prev : P) (nxt : Option (El C)),
    Mid g X Lold done ins EV lo hi H Lpre Q out V yp yv ws → (V ≠ 0 → prev = (X, yv)) → (V ≠ 0 → nxt = hi.head?) →
    (∀ t ∈ tail.head?, t.1.1 ≠ X) → ws.length + tail.length + hi.length ≤ k →
    (∃ L' Q' out', procLoop g X k (ws ++ tail) (lo ++ hi) Q out V prev nxt = .ok (tail, L', Q', out') ∧
      Done g X (done ++ ins) L' Q' out' ∧ (EV → ∀ e ∈ L', EvenEl e) ∧ Ext X out out') ∨
    (procLoop g X k (ws ++ tail) (lo ++ hi) Q out V prev nxt = .error .precision ∧ ¬ EV) := by
  intro k
  induction k with
  | zero =>
    intro lo hi H Lpre Q out V yp yv ws tail prev nxt m _ _ _ hk
    have h1 : ws = [] := List.eq_nil_of_length_eq_zero (by omega)
    have h2 : tail = [] := List.eq_nil_of_length_eq_zero (by omega)
    subst h1; subst h2
    left
    obtain ⟨d, de⟩ := mid_end hC m
    exact ⟨_, _, _, by simp [procLoop], d, de, Ext.refl _ _⟩
  | succ k ih =>
    intro lo hi H Lpre Q out V yp yv ws tail prev nxt m hprev hnxt htail hk
    cases ws with
    | nil =>
      left
      obtain ⟨d, de⟩ := mid_end hC m
      refine ⟨lo ++ hi, Q, out, ?_, d, de, Ext.refl _ _⟩
      cases tail with
      | nil => simp [procLoop]
      | cons t tail =>
        simp only [List.nil_append]
        unfold procLoop
        rw [if_pos (htail t rfl)]
    | cons w ws =>
      obtain ⟨hwx, hwy⟩ := m.ws_gt w (by simp)
      have hws : ∀ u ∈ w :: ws, w.1.2 ≤ u.1.2 := by
        intro u hu
        rcases List.mem_cons.1 hu with rfl | hu
        · exact le_refl _
        · exact (List.pairwise_cons.1 m.ws_sorted).1 u hu
      have hHx : ∀ e ∈ H, isX X Lold (e.eval X) = true → w.1.2 ≤ e.eval X := by
        intro e he hx
        obtain ⟨u, hu, hue⟩ := m.coverX _ (m.H_gt e he) hx
        have := hws u hu; omega
      have hhi : ∀ e ∈ H, isX X Lold (e.eval X) = false → e ∈ hi := by
        intro e he hx
        rw [m.hi_eq]; exact List.mem_filter.2 ⟨he, by rw [hx]; rfl⟩
      have hhis : hi.Pairwise (LtA X) := (List.pairwise_append.1 m.sorted).2.1
      have hhigt : ∀ e ∈ hi, yp < e.eval X := by
        intro e he; rw [m.hi_eq] at he; exact m.H_gt e (List.mem_filter.1 he).1
      -- which event comes next
      have key : ∀ (y : Int), yp < y → y ≤ w.1.2 → (V ≠ 0 → ∀ e ∈ hi, y ≤ e.eval X) →
          (nextV X w (ws ++ tail) V nxt) = (((X, y), totQ y (w :: ws)),
            (w :: ws).filter (fun u => decide (y < u.1.2)) ++ tail) →
          (y = w.1.2 ∨ ∃ e ∈ hi, e.eval X = y) →
          (∃ L' Q' out', procLoop g X (k + 1) (w :: ws ++ tail) (lo ++ hi) Q out V prev nxt = .ok (tail, L', Q', out') ∧
            Done g X (done ++ ins) L' Q' out' ∧ (EV → ∀ e ∈ L', EvenEl e) ∧ Ext X out out') ∨
          (procLoop g X (k + 1) (w :: ws ++ tail) (lo ++ hi) Q out V prev nxt = .error .precision ∧ ¬ EV) := by
        intro y hy1 hy2 hyV hnv hyc
        obtain ⟨S, hi', H', e0, m'⟩ := mid_skip hC m hy1 (by
          intro hV e he
          by_cases c : isX X Lold (e.eval X) = true
          · have := hHx e he c; omega
          · exact hyV hV e (hhi e he (by simpa using c))) (fun u hu => le_trans hy2 (hws u hu))
        have eL : lo ++ hi = (lo ++ S) ++ hi' := by rw [e0]; simp
        simp only [List.cons_append]
        rw [procLoop_cons g X k w (ws ++ tail) _ _ _ _ _ _ hwx, hnv]
        simp only
        rw [eL]
        rcases mid_event hC m' hprev with ⟨lo2, hi2, H2, Lpre2, Q2, out2, s1, s2, s3, s4, s5, -⟩ | ⟨s1, s2⟩
        · rw [s1]
          simp only
          have hlen : ((w :: ws).filter (fun u => decide (y < u.1.2))).length + tail.length + hi2.length ≤ k := by
            have h1 := List.length_filter_le (fun u : Vert C => decide (y < u.1.2)) ws
            have h2 := List.length_filter_le (fun u : Vert C => decide (y < u.1.2)) (w :: ws)
            have h3 : hi'.length ≤ hi.length := by rw [e0]; simp
            simp only [List.length_cons] at hk h2
            rcases hyc with h | ⟨e, he, hey⟩
            · rw [List.filter_cons_of_neg (by simp; omega)]; omega
            · have h4 : e ∈ hi' := by
                rw [e0] at he
                rcases List.mem_append.1 he with h | h
                · have := m'.lo_le e (by simp [h]); omega
                · exact h
              have := s5 ⟨e, h4, hey⟩
              omega
          rcases ih lo2 hi2 H2 Lpre2 Q2 out2 _ y y _ tail (X, y) hi2.head? s2 (fun _ => rfl) (fun _ => rfl) htail hlen with
            ⟨L', Q', out', t1, t2, t3, t4⟩ | t
          · left; exact ⟨L', Q', out', t1, t2, t3, s3.trans t4⟩
          · right; exact t
        · right; rw [s1]; exact ⟨rfl, s2⟩
      have hacc : accumulate w (ws ++ tail) = (((X, w.1.2), totQ w.1.2 (w :: ws)),
          (w :: ws).filter (fun u => decide (w.1.2 < u.1.2)) ++ tail) := by
        rw [accumulate_append ws tail w (fun t ht h => htail t ht (by rw [h]; exact hwx)),
          accumulate_eq ws w (fun u hu => (m.ws_gt u hu).1) m.ws_sorted, List.filter_cons_of_neg (by simp), ← hwx]
      by_cases cV : V ≠ 0
      · have hn := hnxt cV
        rcases hhd : hi with _ | ⟨e, hr⟩
        · rw [hhd] at hn
          rw [← hhd]
          refine key w.1.2 hwy (le_refl _) (fun _ f hf => by rw [hhd] at hf; simp at hf) ?_ (Or.inl rfl)
          rw [← hacc, hn]; rfl
        · rw [hhd] at hn
          simp only [List.head?_cons] at hn
          have hmin : ∀ f ∈ hi, e.eval X ≤ f.eval X := by
            intro f hf
            rw [hhd] at hf hhis
            rcases List.mem_cons.1 hf with rfl | hf
            · exact le_refl _
            · have := (List.pairwise_cons.1 hhis).1 f hf; unfold LtA at this; omega
          rw [← hhd]
          by_cases c : e.eval X < w.1.2
          · refine key (e.eval X) (hhigt e (by rw [hhd]; simp)) (le_of_lt c) (fun _ => hmin) ?_
              (Or.inr ⟨e, by rw [hhd]; simp, rfl⟩)
            rw [hn, totQ_none (fun u hu => by have := hws u hu; omega),
              List.filter_eq_self.2 (fun u hu => by have := hws u hu; simp; omega)]
            unfold nextV
            simp only
            rw [if_pos ⟨cV, c⟩]; rfl
          · refine key w.1.2 hwy (le_refl _) (fun _ f hf => by have := hmin f hf; omega) ?_ (Or.inl rfl)
            rw [← hacc, hn]
            unfold nextV
            simp only
            rw [if_neg (fun h => c h.2)]
      · refine key w.1.2 hwy (le_refl _) (fun h => absurd h cV) ?_ (Or.inl rfl)
        rw [← hacc]
        unfold nextV
        cases nxt with
        | none => rfl
        | some e => simp only; rw [if_neg (fun h => cV h.1)]

end Verif.Deg45
