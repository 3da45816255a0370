import Verif.Proofs.S45Event
/-! # The column of a stop of the 45-degree scanline, halfway -/
namespace Verif.Deg45

variable {C : Type} [AddCommGroup C] [DecidableEq C]

/-- A vertex whose diagonal half lines have an even sum of coordinates. -/
def EvenV (v : Vert C) : Prop := v.2.n ≠ 0 ∨ v.2.p ≠ 0 → (v.1.1 + v.1.2) % 2 = 0

/-- What is fixed while a column is worked through: the scanline on arrival and the vertices of the column. -/
structure Col (X : Int) (Lold : List (El C)) (ins : List (Vert C)) (EV : Prop) : Prop where
  slope : ∀ e ∈ Lold, Slope e
  sorted : Lold.Pairwise (fun a b => a.eval X < b.eval X ∨ (a.eval X = b.eval X ∧ b.rise < a.rise))
  orig : ∀ e ∈ Lold, e.x < X
  insx : ∀ v ∈ ins, v.1.1 = X
  balanced : ∀ y, (totQ y ins).n + (totQ y ins).z + (totQ y ins).p = (totQ y ins).v
  evenL : EV → ∀ e ∈ Lold, EvenEl e
  evenI : EV → ∀ v ∈ ins, EvenV v

/-- The crossing counts at a height. -/
def cq (X : Int) (Lold : List (El C)) (y : Int) : Quad C := crossQ (lastc 0 (ltAt X Lold y)) (grpAt X Lold y)

/-- The state after the events up to the height `yp`; `lo` is new, `hi` is what is left of the old scanline above,
`H` the same with the edges that cross at this abscissa. -/
structure Mid (g : C → Bool) (X : Int) (Lold : List (El C)) (done ins : List (Vert C)) (EV : Prop)
    (lo hi H Lpre : List (El C)) (Q : List P) (out : List V45) (V : C) (yp yv : Int) (ws : List (Vert C)) : Prop where
  split : Lold = Lpre ++ H
  hi_eq : hi = H.filter (fun e => !isX X Lold (e.eval X))
  pre_le : ∀ e ∈ Lpre, e.eval X ≤ yp
  H_gt : ∀ e ∈ H, yp < e.eval X
  lo_le : ∀ e ∈ lo, e.eval X ≤ yp
  ws_gt : ∀ w ∈ ws, w.1.1 = X ∧ yp < w.1.2
  ws_sorted : YSorted ws
  slope : ∀ e ∈ lo, Slope e
  orig : ∀ e ∈ lo, e.x ≤ X
  sorted : (lo ++ hi).Pairwise (LtA X)
  chain : (lo ++ hi).IsChain (Sched Q)
  qsorted : QSorted Q
  qgt : ∀ p ∈ Q, X < p.1
  cnt : lastc 0 lo - V = lastc 0 Lpre
  rin : ∀ f, sumOn f (rays (done ++ ins)) = sumOn f (deltas id 0 lo) + sumOn f (deltas id (lastc 0 Lpre) H) +
    sumOn f (rays (ins.filter (fun v => decide (yp < v.1.2))))
  rout : ∀ f, sumOn f (oRays out) = sumOn f (deltas (gi g) 0 lo) +
    sumOn (fun l => f l && !isX X Lold (atX l X)) (deltas (gi g) (lastc 0 Lpre) H)
  bal0 : ∀ pt : P, pt.1 ≠ X → bal out pt = 0
  balX : ∀ y, bal out (X, y) = (if y = yv then gi g (lastc 0 lo) - gi g (lastc 0 Lpre) else 0) -
    (if isX X Lold y then sumOn (fun l => decide (atX l X = y)) (deltas (gi g) (lastc 0 Lpre) H) else 0)
  tot : ∀ y, yp < y → totQ y ws = (totQ y ins).add (if isX X Lold y then cq X Lold y else ⟨0, 0, 0, 0⟩)
  coverI : ∀ v ∈ ins, yp < v.1.2 → ∃ w ∈ ws, w.1.2 = v.1.2
  coverX : ∀ y, yp < y → isX X Lold y = true → ∃ w ∈ ws, w.1.2 = y
  even : EV → ∀ e ∈ lo, EvenEl e
  vsum : V + (ws.map (fun w => w.2.v)).sum = 0

variable {g : C → Bool} {X : Int} {Lold : List (El C)} {done ins : List (Vert C)} {EV : Prop}
  {lo hi H Lpre : List (El C)} {Q : List P} {out : List V45} {V : C} {yp yv : Int} {ws : List (Vert C)}

theorem atX_line (e : El C) (X : Int) : atX e.line X = e.eval X := (El.eval_line e X).symm

/-- Nothing happens up to just below the height `y`. -/
theorem mid_skip (hC : Col X Lold ins EV) (m : Mid g X Lold done ins EV lo hi H Lpre Q out V yp yv ws) {y : Int}
    (hy : yp < y) (hV : V ≠ 0 → ∀ e ∈ H, y ≤ e.eval X) (hw : ∀ w ∈ ws, y ≤ w.1.2) :
    ∃ S hi' H', hi = S ++ hi' ∧
      Mid g X Lold done ins EV (lo ++ S) hi' H' (Lpre ++ S) Q out V (y - 1) yv ws := by
  have hsH : H.Pairwise (fun a b => a.eval X ≤ b.eval X) := by
    have := hC.sorted
    rw [m.split] at this
    exact (List.pairwise_append.1 this).2.1.imp (fun h => by omega)
  have tl := takeWhile_lt (fun e : El C => e.eval X) hsH y
  have hsplit : H = H.filter (fun e => decide (e.eval X < y)) ++ H.filter (fun e => decide (¬ e.eval X < y)) := by
    conv_lhs => rw [← List.takeWhile_append_dropWhile (p := fun e : El C => decide (e.eval X < y)) (l := H)]
    rw [tl.1, tl.2]
  generalize hS : H.filter (fun e => decide (e.eval X < y)) = S at hsplit
  generalize hH' : H.filter (fun e => decide (¬ e.eval X < y)) = H' at hsplit
  have mS : ∀ e ∈ S, e ∈ H ∧ e.eval X < y := by
    intro e he; rw [← hS] at he; have := List.mem_filter.1 he; exact ⟨this.1, by simpa using this.2⟩
  have mH' : ∀ e ∈ H', e ∈ H ∧ y ≤ e.eval X := by
    intro e he; rw [← hH'] at he; have := List.mem_filter.1 he; exact ⟨this.1, by simpa using this.2⟩
  have hnx : ∀ z, yp < z → z < y → isX X Lold z = false := by
    intro z h1 h2
    by_contra hc
    obtain ⟨w, hw1, hw2⟩ := m.coverX z h1 (by simpa using hc)
    have := hw w hw1; omega
  have hSx : ∀ e ∈ S, isX X Lold (e.eval X) = false := fun e he => hnx _ (m.H_gt e (mS e he).1) (mS e he).2
  have hfS : S.filter (fun e => !isX X Lold (e.eval X)) = S :=
    List.filter_eq_self.2 (fun e he => by rw [hSx e he]; rfl)
  have hV' : lastc 0 lo = lastc 0 Lpre ∨ S = [] := by
    by_cases c : V = 0
    · left; have := m.cnt; rwa [c, sub_zero] at this
    · right
      rw [← hS, List.filter_eq_nil_iff]
      intro e he; have := hV c e he; simp; omega
  have hins : ins.filter (fun v => decide (yp < v.1.2)) = ins.filter (fun v => decide (y - 1 < v.1.2)) := by
    apply List.filter_congr
    intro v hv
    by_cases c : yp < v.1.2
    · obtain ⟨w, hw1, hw2⟩ := m.coverI v hv c
      have := hw w hw1
      rw [decide_eq_true c, decide_eq_true (by omega)]
    · rw [decide_eq_false c, decide_eq_false (by omega)]
  have hc1 : lastc 0 (lo ++ S) - V = lastc 0 (Lpre ++ S) := by
    rcases hV' with h | h
    · have := m.cnt
      have hV0 : V = 0 := by rw [h] at this; exact sub_eq_self.1 this
      rw [lastc_append, lastc_append, h, hV0, sub_zero]
    · rw [h]; simpa using m.cnt
  have hdel : ∀ {A : Type} [AddCommGroup A] (φ : C → A),
      deltas φ 0 (lo ++ S) = deltas φ 0 lo ++ deltas φ (lastc 0 Lpre) S := by
    intro A _ φ
    rw [deltas_append]
    rcases hV' with h | h
    · rw [h]
    · rw [h]; simp [deltas]
  refine ⟨S, H'.filter (fun e => !isX X Lold (e.eval X)), H', ?_, ?_⟩
  · rw [m.hi_eq, hsplit, List.filter_append, hfS]
  have hhi : lo ++ hi = (lo ++ S) ++ H'.filter (fun e => !isX X Lold (e.eval X)) := by
    rw [m.hi_eq, hsplit, List.filter_append, hfS]; simp
  refine { split := by rw [m.split, hsplit]; simp, hi_eq := rfl, pre_le := ?_, H_gt := ?_, lo_le := ?_, ws_gt := ?_
           ws_sorted := m.ws_sorted, slope := ?_, orig := ?_, sorted := hhi ▸ m.sorted, chain := hhi ▸ m.chain
           qsorted := m.qsorted, qgt := m.qgt, cnt := hc1, rin := ?_, rout := ?_, bal0 := m.bal0, balX := ?_
           tot := fun z hz => m.tot z (by omega), coverI := fun v hv hz => m.coverI v hv (by omega)
           coverX := fun z hz => m.coverX z (by omega), even := ?_, vsum := m.vsum }
  · intro e he
    rcases List.mem_append.1 he with h | h
    · have := m.pre_le e h; omega
    · have := (mS e h).2; omega
  · intro e he; have := (mH' e he).2; omega
  · intro e he
    rcases List.mem_append.1 he with h | h
    · have := m.lo_le e h; omega
    · have := (mS e h).2; omega
  · intro w h; have h1 := m.ws_gt w h; have := hw w h; exact ⟨h1.1, by omega⟩
  · intro e he
    rcases List.mem_append.1 he with h | h
    · exact m.slope e h
    · exact hC.slope e (by rw [m.split]; simp [(mS e h).1])
  · intro e he
    rcases List.mem_append.1 he with h | h
    · exact m.orig e h
    · exact le_of_lt (hC.orig e (by rw [m.split]; simp [(mS e h).1]))
  · intro f
    rw [m.rin f, ← hins, hdel, sumOn_append]
    conv_lhs => rw [hsplit, deltas_append, sumOn_append]
    rw [lastc_append]
    abel
  · intro f
    rw [m.rout f, hdel, sumOn_append]
    conv_lhs => rw [hsplit, deltas_append, sumOn_append]
    rw [lastc_append]
    have : sumOn (fun l => f l && !isX X Lold (atX l X)) (deltas (gi g) (lastc 0 Lpre) S) =
        sumOn f (deltas (gi g) (lastc 0 Lpre) S) := by
      clear hfS hsplit hS mS hV' hc1 hdel hhi
      generalize lastc 0 Lpre = b
      induction S generalizing b with
      | nil => rfl
      | cons e S ih =>
        simp only [deltas, sumOn_cons]
        rw [ih (fun e he => hSx e (by simp [he])), atX_line, hSx e (by simp)]
        simp
    rw [this]
    ring
  · intro z
    rw [m.balX z]
    have t1 : (if z = yv then gi g (lastc 0 (lo ++ S)) - gi g (lastc 0 (Lpre ++ S)) else 0) =
        (if z = yv then gi g (lastc 0 lo) - gi g (lastc 0 Lpre) else 0) := by
      rcases hV' with h | h
      · rw [lastc_append, lastc_append, h]; simp
      · rw [h]; simp
    rw [t1]
    congr 1
    by_cases c : isX X Lold z = true
    · rw [if_pos c, if_pos c]
      conv_lhs => rw [hsplit, deltas_append, sumOn_append]
      rw [lastc_append, sumOn_deltas_none (gi g) _ _ S, zero_add]
      intro e he
      rw [atX_line]
      simp only [decide_eq_false_iff_not]
      intro h
      have := hSx e he
      rw [h, c] at this; simp at this
    · rw [if_neg c, if_neg c]
  · intro h e he
    rcases List.mem_append.1 he with h' | h'
    · exact m.even h e h'
    · exact hC.evenL h e (by rw [m.split]; simp [(mS e h').1])

end Verif.Deg45
