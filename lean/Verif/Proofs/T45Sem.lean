import Verif.Proofs.T45Col
import Mathlib.Tactic.Linarith
import Mathlib.Data.Rat.Floor
/-! # The counts next to a point of the 45-degree scanline -/
namespace Verif.Deg45

variable {C : Type} [AddCommGroup C] [DecidableEq C]
variable {g : C → Bool} {EV : Prop}

/-- The count of the vertices at a point. -/
def dep (D : List (Vert C)) (q : ℚ × ℚ) : C := sumOn (under q) (rays (D.filter (fun v => decide ((v.1.1 : ℚ) ≤ q.1))))

/-- The count that the scanline tells. -/
def sval (L : List (El C)) (q : ℚ × ℚ) : C := lastc 0 (L.filter (fun e => under q e.line))

/-- Two points are close to each other. -/
def Close (ε : ℚ) (p q : ℚ × ℚ) : Prop := (-ε < q.1 - p.1 ∧ q.1 - p.1 < ε) ∧ (-ε < q.2 - p.2 ∧ q.2 - p.2 < ε)

/-- The count comes up next to the point. -/
def Near (D : List (Vert C)) (p : P) (c : C) : Prop := ∀ ε : ℚ, 0 < ε → ∃ q, Close ε ((p.1 : ℚ), (p.2 : ℚ)) q ∧ dep D q = c

/-- All counts next to the point, other than zero, are in calls at one point. -/
def Cov (D : List (Vert C)) (raw : List (CallG C)) (p : ℚ × ℚ) : Prop :=
  ∃ ε : ℚ, 0 < ε ∧ ∃ m, ∀ q, Close ε p q → dep D q ≠ 0 → AtP raw m (dep D q)

theorem Cov.mono {D : List (Vert C)} {raw raw' : List (CallG C)} (h : ∀ k ∈ raw, k ∈ raw') {p : ℚ × ℚ} (c : Cov D raw p) : Cov D raw' p := by
  obtain ⟨ε, h1, m, h2⟩ := c
  exact ⟨ε, h1, m, fun q hq h0 => (h2 q hq h0).mono h⟩

theorem sval_split {L A B : List (El C)} {q : ℚ × ℚ} (e : L = A ++ B) (hA : ∀ e ∈ A, under q e.line = true) (hB : ∀ e ∈ B, under q e.line = false) : sval L q = lastc 0 A := by
  unfold sval
  rw [e, List.filter_append, List.filter_eq_self.2 hA, List.filter_eq_nil_iff.2 (fun e he => by rw [hB e he]; simp), List.append_nil]

theorem dep_sval {x X : Int} {done rem : List (Vert C)} {L : List (El C)} {Q : List P} {out : List V45}
    (d : Done g x done L Q out) (hd : ∀ v ∈ done, v.1.1 ≤ x) (hX : x < X) (hQ : ∀ p ∈ Q, X ≤ p.1) {q : ℚ × ℚ}
    (h1 : (x : ℚ) ≤ q.1) (h2 : q.1 ≤ X) (hr : ∀ v ∈ rem, q.1 < v.1.1) : dep (done ++ rem) q = sval L q := by
  have hs := good_between d.good hX hQ q.1 h1 h2
  obtain ⟨A, B, e, hA, hB⟩ := split_le (fun e : El C => lineQ e.line q.1) q.2 hs
  have hA' : ∀ e ∈ A, under q e.line = true := fun e he => by unfold under; simpa using hA e he
  have hB' : ∀ e ∈ B, under q e.line = false := fun e he => by unfold under; simpa using hB e he
  rw [sval_split e hA' hB']
  unfold dep
  rw [List.filter_append, filter_le_all (f := fun v : Vert C => v.1.1) hd h1, (List.filter_eq_nil_iff (l := rem)).2
    (fun v hv => by simpa using hr v hv), List.append_nil]
  rw [d.rin, e, deltas_append, sumOn_append, sumOn_deltas_all _ _ _ _ hA', sumOn_deltas_none _ _ _ _ hB']
  simp

omit [AddCommGroup C] [DecidableEq C] in
theorem line_at (e : El C) (X : Int) (t : ℚ) : lineQ e.line t = e.eval X + e.rise * (t - X) := by
  have := lineQ_int e X
  have h2 : lineQ e.line t = lineQ e.line X + e.rise * (t - X) := by
    unfold lineQ; rw [line_fst]; ring
  rw [h2, this]

omit [AddCommGroup C] [DecidableEq C] in
theorem slope_abs {e : El C} (h : Slope e) (s : ℚ) {ε : ℚ} (h1 : -ε < s) (h2 : s < ε) : -ε < e.rise * s ∧ e.rise * s < ε := by
  rcases h with h | h | h <;> rw [h] <;> push_cast <;> constructor <;> linarith

theorem near_vals {X : Int} {L : List (El C)} (hs : L.Pairwise (fun a b => a.eval X ≤ b.eval X)) (hsl : ∀ e ∈ L, Slope e) (y0 : ℚ) :
    ∃ ε : ℚ, 0 < ε ∧ ε < 1 ∧ ∀ q : ℚ × ℚ, Close ε ((X : ℚ), y0) q → sval L q ∈ vals X L ⌈y0⌉ := by
  have c1 : (⌈y0⌉ : ℚ) < y0 + 1 := Int.ceil_lt_add_one y0
  have c2 : y0 ≤ (⌈y0⌉ : ℚ) := Int.le_ceil y0
  generalize ⌈y0⌉ = y at *
  refine ⟨(y0 + 1 - y) / 2, by linarith, by linarith, fun q hq => ?_⟩
  obtain ⟨⟨a1, a2⟩, b1, b2⟩ := hq
  dsimp only at a1 a2 b1 b2
  generalize hε : (y0 + 1 - y) / 2 = ε at *
  have sp := split3 (fun e : El C => e.eval X) hs y
  have e1 : L.filter (fun e => decide (e.eval X < y)) = ltAt X L y := rfl
  have e2 : L.filter (fun e => decide (e.eval X = y)) = grpAt X L y := rfl
  rw [e1, e2] at sp
  have hA : ∀ e ∈ ltAt X L y, under q e.line = true := by
    intro e he
    have h1 := List.mem_filter.1 he
    have h2 : e.eval X ≤ y - 1 := by have := h1.2; simp at this; omega
    have h3 : (e.eval X : ℚ) ≤ y - 1 := by exact_mod_cast h2
    have := slope_abs (hsl e h1.1) (q.1 - X) a1 a2
    unfold under
    rw [line_at e X, decide_eq_true_eq]
    linarith
  have hB : ∀ e ∈ L.filter (fun e => decide (y < e.eval X)), under q e.line = false := by
    intro e he
    have h1 := List.mem_filter.1 he
    have h2 : y + 1 ≤ e.eval X := by have := h1.2; simp at this; omega
    have h3 : (y : ℚ) + 1 ≤ e.eval X := by exact_mod_cast h2
    have := slope_abs (hsl e h1.1) (q.1 - X) a1 a2
    unfold under
    rw [line_at e X, decide_eq_false_iff_not]
    linarith
  unfold sval vals
  have ef : L.filter (fun e => under q e.line) = ltAt X L y ++ (grpAt X L y).filter (fun e => under q e.line) := by
    conv_lhs => rw [sp]
    rw [List.filter_append, List.filter_append, List.filter_eq_self.2 hA,
      (List.filter_eq_nil_iff (l := L.filter (fun e => decide (y < e.eval X)))).2 (fun e he => by rw [hB e he]; simp), List.append_nil]
  rw [ef, lastc_append]
  have := lastc_mem ((grpAt X L y).filter (fun e => under q e.line)) (lastc 0 (ltAt X L y))
  rcases List.mem_cons.1 this with h | h
  · rw [h]; simp
  · obtain ⟨e, he, h'⟩ := List.mem_map.1 h
    rw [← h']
    exact List.mem_cons_of_mem _ (List.mem_map.2 ⟨e, (List.mem_filter.1 he).1, rfl⟩)

/-- The order of a scanline on one side of an abscissa. -/
def SideSorted (σ X : Int) (L : List (El C)) : Prop := L.Pairwise (fun a b => a.eval X < b.eval X ∨ (a.eval X = b.eval X ∧ σ * a.rise < σ * b.rise))

omit [AddCommGroup C] [DecidableEq C] in
theorem side_lt {σ X : Int} (hσ : σ = 1 ∨ σ = -1) {a b : El C} (ha : Slope a) (hb : Slope b) (h : a.eval X < b.eval X ∨ (a.eval X = b.eval X ∧ σ * a.rise < σ * b.rise))
    {t : ℚ} (t0 : 0 < t) (t1 : t < 1 / 4) : lineQ a.line (X + σ * t) < lineQ b.line (X + σ * t) := by
  rw [line_at a X, line_at b X]
  have es : (X : ℚ) + σ * t - X = σ * t := by ring
  rw [es]
  have hs : -(1 / 4) < (σ : ℚ) * t ∧ (σ : ℚ) * t < 1 / 4 := by
    rcases hσ with h | h <;> rw [h] <;> push_cast <;> constructor <;> linarith
  rcases h with h | ⟨h, h'⟩
  · have h3 : (a.eval X : ℚ) + 1 ≤ b.eval X := by exact_mod_cast h
    have := slope_abs ha _ hs.1 hs.2
    have := slope_abs hb _ hs.1 hs.2
    linarith
  · rw [h]
    have h4 : ((σ * a.rise : Int) : ℚ) < ((σ * b.rise : Int) : ℚ) := by exact_mod_cast h'
    push_cast at h4
    have h5 := mul_lt_mul_of_pos_right h4 t0
    nlinarith

theorem vals_near {σ X : Int} (hσ : σ = 1 ∨ σ = -1) {L : List (El C)} (hs : SideSorted σ X L) (hsl : ∀ e ∈ L, Slope e) {y : Int} {c : C} (hc : c ∈ vals X L y) {ε : ℚ} (hε : 0 < ε) :
    ∃ t z : ℚ, 0 < t ∧ t < 1 / 4 ∧ Close ε ((X : ℚ), (y : ℚ)) (X + σ * t, z) ∧ sval L (X + σ * t, z) = c := by
  obtain ⟨t, t0, t1, t2⟩ : ∃ t : ℚ, 0 < t ∧ t < 1 / 4 ∧ 2 * t < ε :=
    ⟨min (1 / 8) (ε / 4), lt_min (by norm_num) (by linarith), lt_of_le_of_lt (min_le_left _ _) (by norm_num), by have := min_le_right (1 / 8) (ε / 4); linarith⟩
  have hst : -t ≤ (σ : ℚ) * t ∧ (σ : ℚ) * t ≤ t := by
    rcases hσ with h | h <;> rw [h] <;> push_cast <;> constructor <;> linarith
  have es : (X : ℚ) + σ * t - X = σ * t := by ring
  have habs : ∀ e ∈ L, -t ≤ e.rise * ((σ : ℚ) * t) ∧ e.rise * ((σ : ℚ) * t) ≤ t := by
    intro e he
    rcases hsl e he with h | h | h <;> rw [h] <;> push_cast <;> constructor <;> linarith [hst.1, hst.2]
  have hle : L.Pairwise (fun a b => a.eval X ≤ b.eval X) := hs.imp (fun h => by omega)
  unfold vals at hc
  rcases List.mem_cons.1 hc with hc | hc
  · refine ⟨t, y - 2 * t, t0, t1, ⟨⟨?_, ?_⟩, ?_, ?_⟩, ?_⟩
    · rw [es]; linarith [hst.1]
    · rw [es]; linarith [hst.2]
    · dsimp only; linarith
    · dsimp only; linarith
    · have sp := split3 (fun e : El C => e.eval X) hle y
      have e1 : L.filter (fun e => decide (e.eval X < y)) = ltAt X L y := rfl
      rw [e1] at sp
      rw [hc]
      refine sval_split sp (fun e he => ?_) (fun e he => ?_)
      · have h1 := List.mem_filter.1 he
        have h2 : e.eval X ≤ y - 1 := by have := h1.2; simp at this; omega
        have h3 : (e.eval X : ℚ) ≤ y - 1 := by exact_mod_cast h2
        unfold under
        rw [line_at e X, decide_eq_true_eq]
        dsimp only
        rw [es]
        linarith [(habs e h1.1).2]
      · have h0 : e ∈ L ∧ y ≤ e.eval X := by
          rcases List.mem_append.1 he with he | he
          · have h1 := List.mem_filter.1 he; refine ⟨h1.1, ?_⟩; have := h1.2; simp at this; omega
          · have h1 := List.mem_filter.1 he; refine ⟨h1.1, ?_⟩; have := h1.2; simp at this; omega
        have h3 : (y : ℚ) ≤ e.eval X := by exact_mod_cast h0.2
        unfold under
        rw [line_at e X, decide_eq_false_iff_not]
        dsimp only
        rw [es]
        linarith [(habs e h0.1).1]
  · obtain ⟨e, he, rfl⟩ := List.mem_map.1 hc
    obtain ⟨heL, hey⟩ := mem_grpAt he
    refine ⟨t, lineQ e.line (X + σ * t), t0, t1, ⟨⟨?_, ?_⟩, ?_, ?_⟩, ?_⟩
    · rw [es]; linarith [hst.1]
    · rw [es]; linarith [hst.2]
    · dsimp only; rw [line_at e X, es, hey]; linarith [(habs e heL).1]
    · dsimp only; rw [line_at e X, es, hey]; linarith [(habs e heL).2]
    · obtain ⟨A, B, eL⟩ := List.append_of_mem heL
      have hp := hs
      unfold SideSorted at hp
      rw [eL] at hp hsl
      have h1 := List.pairwise_append.1 hp
      have h2 := List.pairwise_cons.1 h1.2.1
      have eL' : L = (A ++ [e]) ++ B := by rw [eL]; simp
      rw [sval_split eL', lastc_append]
      · rfl
      · intro f hf
        unfold under
        rw [decide_eq_true_eq]
        rcases List.mem_append.1 hf with hf | hf
        · exact le_of_lt (side_lt hσ (hsl f (by simp [hf])) (hsl e (by simp)) (h1.2.2 f hf e (by simp)) t0 t1)
        · rw [List.mem_singleton.1 hf]
      · intro f hf
        unfold under
        rw [decide_eq_false_iff_not, not_le]
        exact side_lt hσ (hsl e (by simp)) (hsl f (by simp [hf])) (h2.1 f hf) t0 t1

/-! ### Between two stops -/

omit [AddCommGroup C] [DecidableEq C] in
theorem good_strict {x X : Int} {L : List (El C)} {Q : List P} (h : Good x L Q) (hX : x < X)
    (hQ : ∀ p ∈ Q, X ≤ p.1) (t : ℚ) (h1 : (x : ℚ) < t) (h2 : t < X) :
    L.Pairwise (fun a b => lineQ a.line t < lineQ b.line t) := by
  refine ((good_move h hX hQ).and h.sorted).imp ?_
  rintro a b ⟨hb, ha⟩
  have ga : (a.eval X : ℚ) ≤ b.eval X := by
    unfold LeB at hb; have : a.eval X ≤ b.eval X := by omega
    exact_mod_cast this
  have e1 := line_at a x (X : ℚ)
  have e2 := line_at b x (X : ℚ)
  rw [lineQ_int] at e1 e2
  rw [line_at a x t, line_at b x t]
  rcases ha with ha | ⟨ha, hr⟩
  · have gb : (a.eval x : ℚ) < b.eval x := by exact_mod_cast ha
    have p1 : 0 < (b.eval x - a.eval x : ℚ) * (X - t) := mul_pos (by linarith) (by linarith)
    have p2 : 0 ≤ (b.eval X - a.eval X : ℚ) * (t - x) := mul_nonneg (by linarith) (by linarith)
    have p3 : (0 : ℚ) < X - x := by linarith
    have key : ((b.eval x + b.rise * (t - x)) - (a.eval x + a.rise * (t - x)) : ℚ) * (X - x) =
        (b.eval x - a.eval x : ℚ) * (X - t) + (b.eval X - a.eval X : ℚ) * (t - x) := by
      rw [e1, e2]; ring
    by_contra hn
    push Not at hn
    have : ((b.eval x + b.rise * (t - x)) - (a.eval x + a.rise * (t - x)) : ℚ) * (X - x) ≤ 0 :=
      mul_nonpos_of_nonpos_of_nonneg (by linarith) (le_of_lt p3)
    linarith
  · have gb : (a.eval x : ℚ) = b.eval x := by exact_mod_cast ha
    have hr' : (a.rise : ℚ) < b.rise := by exact_mod_cast hr
    have := mul_lt_mul_of_pos_right hr' (show (0 : ℚ) < t - x by linarith)
    linarith

theorem gap : ∀ L : List ℚ, (∀ a ∈ L, 0 < a) → ∃ ε : ℚ, 0 < ε ∧ ∀ a ∈ L, ε ≤ a
  | [], _ => ⟨1, by norm_num, by simp⟩
  | a :: L, h => by
    obtain ⟨ε, h1, h2⟩ := gap L (fun b hb => h b (List.mem_cons_of_mem _ hb))
    refine ⟨min ε a, lt_min h1 (h a List.mem_cons_self), fun b hb => ?_⟩
    rcases List.mem_cons.1 hb with rfl | hb
    · exact min_le_right _ _
    · exact le_trans (min_le_left _ _) (h2 b hb)

theorem interior {t : ℚ} {L : List (El C)} (hs : L.Pairwise (fun a b => lineQ a.line t < lineQ b.line t)) (hsl : ∀ e ∈ L, Slope e) {raw : List (CallG C)}
    (ho : Orig raw 0 L) (y0 : ℚ) : ∃ ε : ℚ, 0 < ε ∧ ∃ m, ∀ q : ℚ × ℚ, Close ε (t, y0) q → sval L q ≠ 0 → AtP raw m (sval L q) := by
  obtain ⟨A, B, e, hA, hB⟩ := split_le (fun e : El C => lineQ e.line t) y0 (hs.imp le_of_lt)
  -- the gap on both sides
  have hgap : ∃ ε : ℚ, 0 < ε ∧ ∀ e ∈ L, lineQ e.line t = y0 ∨ lineQ e.line t + 2 * ε ≤ y0 ∨ y0 + 2 * ε ≤ lineQ e.line t := by
    obtain ⟨ε, h1, h2⟩ := gap ((L.filter (fun e => decide (lineQ e.line t ≠ y0))).map (fun e => |lineQ e.line t - y0|)) (by
      intro a ha
      obtain ⟨e, he, rfl⟩ := List.mem_map.1 ha
      have := (List.mem_filter.1 he).2
      simp at this
      exact abs_pos.2 (sub_ne_zero.2 this))
    refine ⟨ε / 2, by linarith, fun e he => ?_⟩
    by_cases c : lineQ e.line t = y0
    · exact Or.inl c
    · right
      have := h2 _ (List.mem_map.2 ⟨e, List.mem_filter.2 ⟨he, by simpa using c⟩, rfl⟩)
      rcases le_abs.1 this with h | h
      · right; linarith
      · left; linarith
  obtain ⟨ε, h1, h2⟩ := hgap
  have mv : ∀ (e : El C), e ∈ L → ∀ q : ℚ × ℚ, Close ε (t, y0) q → (lineQ e.line t + 2 * ε ≤ y0 → under q e.line = true) ∧
      (y0 + 2 * ε ≤ lineQ e.line t → under q e.line = false) := by
    intro e he q hq
    obtain ⟨⟨a1, a2⟩, b1, b2⟩ := hq
    dsimp only at a1 a2 b1 b2
    have e1 : lineQ e.line q.1 = lineQ e.line t + e.rise * (q.1 - t) := by
      unfold lineQ; rw [line_fst]; ring
    have := slope_abs (hsl e he) (q.1 - t) a1 a2
    unfold under
    rw [e1]
    refine ⟨fun h => ?_, fun h => ?_⟩
    · rw [decide_eq_true_eq]; linarith
    · rw [decide_eq_false_iff_not]; linarith
  have hB2 : ∀ b ∈ B, y0 + 2 * ε ≤ lineQ b.line t := by
    intro b hb
    rcases h2 b (by rw [e]; simp [hb]) with h | h | h
    · exact absurd (le_of_eq h) (hB b hb)
    · exact absurd (by linarith) (hB b hb)
    · exact h
  refine ⟨ε, h1, ?_⟩
  rcases A.eq_nil_or_concat with hn | ⟨A', a, hn⟩
  · refine ⟨(0, 0), fun q hq h0 => absurd ?_ h0⟩
    rw [hn] at e
    rw [sval_split e (by simp) (fun b hb => (mv b (by rw [e]; simp [hb]) q hq).2 (hB2 b hb))]
    rfl
  · rw [List.concat_eq_append] at hn
    have heL : L = A' ++ a :: B := by rw [e, hn]; simp
    have hoa : ((lastc 0 A', a.count), (a.x, a.y)) ∈ raw := by
      rw [heL, orig_append] at ho
      exact ho.2.1
    have hp := hs
    rw [heL] at hp
    have hp1 := List.pairwise_append.1 hp
    have hay : lineQ a.line t ≤ y0 := hA a (by rw [hn]; simp)
    have hA2 : ∀ b ∈ A', lineQ b.line t + 2 * ε ≤ y0 := by
      intro b hb
      have h3 := hp1.2.2 b hb a (by simp)
      rcases h2 b (by rw [heL]; simp [hb]) with h | h | h
      · linarith
      · exact h
      · linarith
    refine ⟨(a.x, a.y), fun q hq h0 => ⟨_, hoa, rfl, ?_⟩⟩
    have mA : ∀ b ∈ A', under q b.line = true := fun b hb => (mv b (by rw [heL]; simp [hb]) q hq).1 (hA2 b hb)
    have mB : ∀ b ∈ B, under q b.line = false := fun b hb => (mv b (by rw [heL]; simp [hb]) q hq).2 (hB2 b hb)
    cases hu : under q a.line with
    | true =>
      right
      have heL' : L = (A' ++ [a]) ++ B := by rw [heL]; simp
      rw [sval_split heL' (fun b hb => by
        rcases List.mem_append.1 hb with hb | hb
        · exact mA b hb
        · rw [List.mem_singleton.1 hb]; exact hu) mB, lastc_append]
      rfl
    | false =>
      left
      rw [sval_split heL mA (fun b hb => by
        rcases List.mem_cons.1 hb with rfl | hb
        · exact hu
        · exact mB b hb)]

/-! ### A column -/

theorem col_sem {D : List (Vert C)} {X : Int} {Lold L' : List (El C)} {raw0 raw : List (CallG C)} (r : RDone X Lold L' raw0 raw)
    (hl : ∀ q : ℚ × ℚ, (X : ℚ) - 1 ≤ q.1 → q.1 < X → dep D q = sval Lold q) (hr : ∀ q : ℚ × ℚ, (X : ℚ) ≤ q.1 → q.1 < X + 1 → dep D q = sval L' q)
    (s1 : SideSorted (-1) X Lold) (s2 : SideSorted 1 X L') (p1 : ∀ e ∈ Lold, Slope e) (p2 : ∀ e ∈ L', Slope e) :
    ∃ t, raw = raw0 ++ t ∧ (∀ k ∈ t, k.2.1 = X ∧ ∀ c, (k.1.1 = c ∨ k.1.2 = c) → Near D k.2 c) ∧ ∀ y0 : ℚ, Cov D raw ((X : ℚ), y0) := by
  obtain ⟨t, ht, h⟩ := r.new
  refine ⟨t, ht, fun k hk => ⟨(h k hk).1, fun c hc ε hε => ?_⟩, fun y0 => ?_⟩
  · rcases (h k hk).2 c hc with hv | hv
    · obtain ⟨s, z, a1, a2, a3, a4⟩ := vals_near (Or.inr rfl) s1 p1 hv hε
      refine ⟨_, by rw [(h k hk).1]; exact a3, ?_⟩
      rw [hl _ (by push_cast; linarith) (by push_cast; linarith)]
      exact a4
    · obtain ⟨s, z, a1, a2, a3, a4⟩ := vals_near (Or.inl rfl) s2 p2 hv hε
      refine ⟨_, by rw [(h k hk).1]; exact a3, ?_⟩
      rw [hr _ (by push_cast; linarith) (by push_cast; linarith)]
      exact a4
  · obtain ⟨ε1, a1, b1, c1⟩ := near_vals (X := X) (s1.imp (fun h => by omega)) p1 y0
    obtain ⟨ε2, a2, b2, c2⟩ := near_vals (X := X) (s2.imp (fun h => by omega)) p2 y0
    obtain ⟨m, hm⟩ := r.seen ⌈y0⌉
    have hcl : ∀ {ε : ℚ} {q : ℚ × ℚ}, min ε1 ε2 ≤ ε → Close (min ε1 ε2) ((X : ℚ), y0) q → Close ε ((X : ℚ), y0) q := by
      rintro ε q hε ⟨⟨x1, x2⟩, x3, x4⟩
      exact ⟨⟨by linarith, by linarith⟩, by linarith, by linarith⟩
    refine ⟨min ε1 ε2, lt_min a1 a2, m, fun q hq h0 => ?_⟩
    have q1 := hcl (min_le_left _ _) hq
    have q2 := hcl (min_le_right _ _) hq
    by_cases c : q.1 < X
    · have e := hl q (by have := q1.1.1; dsimp only at this; linarith) c
      rw [e] at h0 ⊢
      exact hm _ (List.mem_append_left _ (c1 q q1)) h0
    · push Not at c
      have e := hr q c (by have := q2.1.2; dsimp only at this; linarith)
      rw [e] at h0 ⊢
      exact hm _ (List.mem_append_right _ (c2 q q2)) h0

end Verif.Deg45
