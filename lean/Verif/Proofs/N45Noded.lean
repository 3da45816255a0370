import Verif.Proofs.N45Edges
import Verif.Proofs.F45Form
/-!
# Noded 45-degree data describes clean edges
-/
namespace Verif.N45
open Verif.Deg45 Verif.Set45 Verif.Spec.Deg45
open Verif.F45 (qat rho erho Oct2)
open Verif.ArbForm (V)
open Verif.Spec.Arb (OnEdge EndOf Planar)

/-- Two lines that are not vertical go through the point. -/
def Cross2 (E : List VC) (q : ℚ × ℚ) : Prop := (W E q 1 ≠ 0 ∧ W E q 0 ≠ 0) ∨ (W E q 1 ≠ 0 ∧ W E q (-1) ≠ 0) ∨ (W E q 0 ≠ 0 ∧ W E q (-1) ≠ 0)

/-- Data with one vertex at each point, no idle vertices and a vertex wherever lines cross in a grid point. -/
structure Noded (E : List VC) : Prop where
  srt : E.Pairwise (fun v w => PLt v.1 w.1)
  closed : Closed E
  d01 : ∀ q, depth E q = 0 ∨ depth E q = 1
  live : ∀ v ∈ E, (∀ r, Slope r → qat v.2 r = 0) → ∃ r, Slope r ∧ W E ((v.1.1 : ℚ), (v.1.2 : ℚ)) r ≠ 0
  cross : ∀ p : P, (∀ v ∈ E, v.1 ≠ p) → ¬ Cross2 E ((p.1 : ℚ), (p.2 : ℚ))

theorem tot_ne {E : List VC} {f : P → Bool} {w : Quad Int → Int} (h : tot E f w ≠ 0) : ∃ v ∈ E, f v.1 = true := by
  by_contra hn
  push Not at hn
  apply h
  unfold tot
  apply List.sum_eq_zero
  intro x hx
  obtain ⟨v, hv, rfl⟩ := List.mem_map.1 hx
  rw [if_neg (hn v hv)]

theorem F_zero {E : List VC} {q : ℚ × ℚ} (h : ∀ v ∈ E, ¬ ((v.1.1 : ℚ) = q.1 ∧ (v.1.2 : ℚ) = q.2)) (r : Int) : F E q r = 0 := by
  by_contra hn
  obtain ⟨v, hv, h1⟩ := tot_ne hn
  exact h v hv (by simpa using h1)

theorem W_before {E : List VC} {q : ℚ × ℚ} {r : Int} (h : W E q r ≠ 0) : ∃ v ∈ E, Before r q v.1 := by
  obtain ⟨v, hv, h1⟩ := tot_ne h
  exact ⟨v, hv, by simpa using h1⟩

/-- Strictly inside an edge. -/
def Inside (a b : P) (q : ℚ × ℚ) : Prop :=
  ∃ t : ℚ, 0 < t ∧ t < 1 ∧ q.1 = a.1 + t * (b.1 - a.1) ∧ q.2 = a.2 + t * (b.2 - a.2)

theorem onEdge_cases {a b : P} {q : ℚ × ℚ} (h : OnEdge (a, b) q) : EndOf (a, b) q ∨ Inside a b q := by
  obtain ⟨t, h0, h1, hx, hy⟩ := h
  dsimp only at hx hy
  rcases eq_or_lt_of_le h0 with rfl | h0
  · left; left; exact ⟨by rw [hx]; ring, by rw [hy]; ring⟩
  · rcases eq_or_lt_of_le h1 with rfl | h1
    · left; right; exact ⟨by rw [hx]; ring, by rw [hy]; ring⟩
    · right; exact ⟨t, h0, h1, hx, hy⟩

/-- The rational line. -/
theorem inside_before {r : Int} (hr : Slope r) {v u : P} (h : PLt v u) (hk : lk r v = lk r u) {q : ℚ × ℚ} (hq : Inside v u q) (a : P) :
    Before r q a ↔ (lk r a = lk r v ∧ PLt a u ∧ (if r = 2 then (a.2 : ℚ) < q.2 else (a.1 : ℚ) < q.1)) := by
  obtain ⟨t, t0, t1, hx, hy⟩ := hq
  unfold Before lk at *
  unfold PLt at *
  by_cases c : r = 2
  · simp only [c, if_true] at *
    have hx' : q.1 = v.1 := by rw [hx, ← hk]; ring
    rw [hx']
    have l2 : v.2 < u.2 := by omega
    have l2' : (v.2 : ℚ) < u.2 := by exact_mod_cast l2
    have lq : q.2 < u.2 := by rw [hy]; nlinarith
    constructor
    · rintro ⟨h1, h2⟩
      have h1' : a.1 = v.1 := by exact_mod_cast h1
      have : (a.2 : ℚ) < u.2 := by linarith
      have : a.2 < u.2 := by exact_mod_cast this
      exact ⟨h1', by omega, h2⟩
    · rintro ⟨h1, -, h2⟩
      exact ⟨by exact_mod_cast h1, h2⟩
  · simp only [c, if_false] at *
    have l1 : v.1 < u.1 := by
      rcases h with h | ⟨h, h'⟩
      · exact h
      · rw [h] at hk; omega
    have l1' : (v.1 : ℚ) < u.1 := by exact_mod_cast l1
    have lq : q.1 < u.1 := by rw [hx]; nlinarith
    have hkq : (v.2 : ℚ) - r * v.1 = u.2 - r * u.1 := by exact_mod_cast hk
    have hq2 : q.2 = (v.2 : ℚ) + r * (q.1 - v.1) := by
      rw [hy, hx]
      have : (u.2 : ℚ) - v.2 = r * (u.1 - v.1) := by linarith
      rw [this]; ring
    constructor
    · rintro ⟨h1, h2⟩
      have h3 : (a.2 : ℚ) - r * a.1 = v.2 - r * v.1 := by rw [hq2] at h2; linarith
      have : (a.1 : ℚ) < u.1 := by linarith
      have : a.1 < u.1 := by exact_mod_cast this
      exact ⟨by exact_mod_cast h3, Or.inl this, h1⟩
    · rintro ⟨h1, -, h2⟩
      have h3 : (a.2 : ℚ) - r * a.1 = v.2 - r * v.1 := by exact_mod_cast h1
      exact ⟨h2, by rw [hq2]; linarith⟩

theorem inside_le {r : Int} (hr : Slope r) {v u a : P} (h : PLt v u) (hk : lk r v = lk r u) {q : ℚ × ℚ} (hq : Inside v u q) (ha : lk r a = lk r v) :
    (¬ PLt v a → Before r q a) ∧ (¬ PLt a u → ¬ Before r q a) := by
  rw [inside_before hr h hk hq]
  obtain ⟨t, t0, t1, hx, hy⟩ := hq
  unfold lk at *
  unfold PLt at *
  by_cases c : r = 2
  · simp only [c, if_true] at *
    have l2 : v.2 < u.2 := by omega
    have l2' : (v.2 : ℚ) < u.2 := by exact_mod_cast l2
    have lq : (v.2 : ℚ) < q.2 := by rw [hy]; nlinarith
    refine ⟨fun hn => ⟨ha, by omega, ?_⟩, fun hn h' => hn h'.2.1⟩
    have : a.2 ≤ v.2 := by omega
    have : (a.2 : ℚ) ≤ v.2 := by exact_mod_cast this
    linarith
  · simp only [c, if_false] at *
    have l1 : v.1 < u.1 := by
      rcases h with h | ⟨h, h'⟩
      · exact h
      · rw [h] at hk; omega
    have l1' : (v.1 : ℚ) < u.1 := by exact_mod_cast l1
    have lq : (v.1 : ℚ) < q.1 := by rw [hx]; nlinarith
    refine ⟨fun hn => ⟨ha, by omega, ?_⟩, fun hn h' => hn h'.2.1⟩
    have : a.1 ≤ v.1 := by omega
    have : (a.1 : ℚ) ≤ v.1 := by exact_mod_cast this
    linarith

/-- Inside an edge the line carries the count of the edge. -/
theorem W_inside {r : Int} (hr : Slope r) {E : List VC} {v u : P} (h : PLt v u) (hk : lk r v = lk r u)
    (hn : ∀ w ∈ E, lk r w.1 = lk r v → ¬ (PLt v w.1 ∧ PLt w.1 u)) {q : ℚ × ℚ} (hq : Inside v u q) :
    W E q r = tot E (fun a => decide (lk r a = lk r v ∧ ¬ PLt v a)) (fun c => qat c r) := by
  unfold W
  apply tot_congr
  intro w hw
  rw [decide_eq_decide]
  constructor
  · intro hb
    have h1 := ((inside_before hr h hk hq w.1).1 hb)
    exact ⟨h1.1, fun h2 => hn w hw h1.1 ⟨h2, h1.2.1⟩⟩
  · rintro ⟨h1, h2⟩
    exact (inside_le hr h hk hq h1).1 h2

/-- No vertex lies inside an edge. -/
theorem inside_grid {r : Int} (hr : Slope r) {v u w : P} (h : PLt v u) (hk : lk r v = lk r u) (hq : Inside v u ((w.1 : ℚ), (w.2 : ℚ))) :
    lk r w = lk r v ∧ PLt v w ∧ PLt w u := by
  obtain ⟨t, t0, t1, hx, hy⟩ := hq
  dsimp only at hx hy
  unfold lk at *
  unfold PLt at *
  by_cases c : r = 2
  · simp only [c, if_true] at *
    have l2 : v.2 < u.2 := by omega
    have l2' : (v.2 : ℚ) < u.2 := by exact_mod_cast l2
    have e1 : (w.1 : ℚ) = v.1 := by rw [hx, ← hk]; ring
    have e1' : w.1 = v.1 := by exact_mod_cast e1
    have e2 : (v.2 : ℚ) < w.2 := by rw [hy]; nlinarith
    have e3 : (w.2 : ℚ) < u.2 := by rw [hy]; nlinarith
    have e2' : v.2 < w.2 := by exact_mod_cast e2
    have e3' : w.2 < u.2 := by exact_mod_cast e3
    omega
  · simp only [c, if_false] at *
    have l1 : v.1 < u.1 := by
      rcases h with h | ⟨h, h'⟩
      · exact h
      · rw [h] at hk; omega
    have l1' : (v.1 : ℚ) < u.1 := by exact_mod_cast l1
    have e2 : (v.1 : ℚ) < w.1 := by rw [hx]; nlinarith
    have e3 : (w.1 : ℚ) < u.1 := by rw [hx]; nlinarith
    have e2' : v.1 < w.1 := by exact_mod_cast e2
    have e3' : w.1 < u.1 := by exact_mod_cast e3
    have hkq : (v.2 : ℚ) - r * v.1 = u.2 - r * u.1 := by exact_mod_cast hk
    have hw : (w.2 : ℚ) - r * w.1 = v.2 - r * v.1 := by
      rw [hy, hx]
      have : (u.2 : ℚ) - v.2 = r * (u.1 - v.1) := by linarith
      rw [this]; ring
    exact ⟨by exact_mod_cast hw, Or.inl e2', Or.inl e3'⟩

/-- A line that crosses another line at a point with an integer coordinate. -/
theorem grid_of {E : List VC} {q : ℚ × ℚ} (h1 : Cross2 E q) (h2 : W E q 0 ≠ 0 ∨ W E q 2 ≠ 0) : ∃ p : P, q = ((p.1 : ℚ), (p.2 : ℚ)) := by
  have hx : ∀ r : Int, Slope r → r ≠ 2 → W E q r ≠ 0 → ∃ k : Int, q.2 - r * q.1 = (k : ℚ) := by
    intro r _ h2 hw
    obtain ⟨v, -, hb⟩ := W_before hw
    unfold Before at hb
    rw [if_neg h2] at hb
    refine ⟨v.1.2 - r * v.1.1, ?_⟩
    push_cast
    linarith [hb.2]
  have gen : ∀ x y : Int, q.1 = (x : ℚ) → q.2 = (y : ℚ) → ∃ p : P, q = ((p.1 : ℚ), (p.2 : ℚ)) := by
    intro x y hx hy
    exact ⟨(x, y), Prod.ext hx hy⟩
  rcases h2 with h2 | h2
  · obtain ⟨k, hk⟩ := hx 0 (by simp [Slope]) (by decide) h2
    have hk' : q.2 = (k : ℚ) := by push_cast at hk; linarith
    have : W E q 1 ≠ 0 ∨ W E q (-1) ≠ 0 := by
      rcases h1 with h | h | h
      · exact Or.inl h.1
      · exact Or.inl h.1
      · exact Or.inr h.2
    rcases this with h | h
    · obtain ⟨m, hm⟩ := hx 1 (by simp [Slope]) (by decide) h
      exact gen (k - m) k (by push_cast at hm ⊢; linarith) hk'
    · obtain ⟨m, hm⟩ := hx (-1) (by simp [Slope]) (by decide) h
      exact gen (m - k) k (by push_cast at hm ⊢; linarith) hk'
  · obtain ⟨v, -, hb⟩ := W_before h2
    unfold Before at hb
    rw [if_pos rfl] at hb
    have : ∃ r, Slope r ∧ r ≠ 2 ∧ W E q r ≠ 0 := by
      rcases h1 with h | h | h
      · exact ⟨1, by simp [Slope], by decide, h.1⟩
      · exact ⟨1, by simp [Slope], by decide, h.1⟩
      · exact ⟨0, by simp [Slope], by decide, h.1⟩
    obtain ⟨r, h3, h4, h5⟩ := this
    obtain ⟨k, hk⟩ := hx r h3 h4 h5
    refine gen v.1.1 (k + r * v.1.1) hb.1.symm ?_
    push_cast
    rw [hb.1]
    linarith

variable {E : List VC}

/-- An interior point of an edge is not a vertex. -/
theorem Noded.inside_free (n : Noded E) {r : Int} (hr : Slope r) {e : V} (he : e ∈ edges r E) {q : ℚ × ℚ} (hq : Inside e.1.1 e.1.2 q) :
    (∀ v ∈ E, ¬ ((v.1.1 : ℚ) = q.1 ∧ (v.1.2 : ℚ) = q.2)) ∧ W E q r = e.2 := by
  obtain ⟨v, hv, u, hu, h1, h2, h3, h4, h5, h6⟩ := edges_mem n.srt e he
  rw [h1] at hq
  dsimp only at hq
  refine ⟨?_, by rw [W_inside hr h2 h3 h4 hq, h6]⟩
  rintro w hw ⟨hx, hy⟩
  have : q = ((w.1.1 : ℚ), (w.1.2 : ℚ)) := Prod.ext hx.symm hy.symm
  rw [this] at hq
  have g := inside_grid hr h2 h3 hq
  exact h4 w hw g.1 g.2

theorem mid_inside (a b : P) : Inside a b (((a.1 : ℚ) + b.1) / 2, ((a.2 : ℚ) + b.2) / 2) :=
  ⟨1 / 2, by norm_num, by norm_num, by dsimp only; ring, by dsimp only; ring⟩

theorem Noded.units (n : Noded E) : ∀ e ∈ allEdges E, e.2 = 1 ∨ e.2 = -1 := by
  intro e he
  obtain ⟨r, hr, he⟩ := mem_all.1 he
  have hq := mid_inside e.1.1 e.1.2
  obtain ⟨h1, h2⟩ := n.inside_free hr he hq
  have h3 : e.2 ≠ 0 := by
    obtain ⟨v, hv, u, hu, -, -, -, -, h5, -⟩ := edges_mem n.srt e he
    exact h5
  rw [← h2] at h3 ⊢
  exact unit n.closed n.d01 (F_zero h1) hr h3

theorem Noded.directed (n : Noded E) : ∀ e ∈ allEdges E, Verif.Spec.Arb.Directed e.1 := by
  intro e he
  obtain ⟨r, hr, he⟩ := mem_all.1 he
  obtain ⟨v, hv, u, hu, h1, h2, -⟩ := edges_mem n.srt e he
  rw [h1]
  exact h2

theorem Noded.planar (n : Noded E) : Planar ((allEdges E).map Prod.fst) := by
  intro e0 he0 f0 hf0 hef q hqe hqf
  obtain ⟨e, he, rfl⟩ := List.mem_map.1 he0
  obtain ⟨f, hf, rfl⟩ := List.mem_map.1 hf0
  obtain ⟨r, hr, he⟩ := mem_all.1 he
  obtain ⟨s, hs, hf⟩ := mem_all.1 hf
  have endE : ∀ {r : Int} {e : V}, e ∈ edges r E → EndOf e.1 q → ∃ v ∈ E, (v.1.1 : ℚ) = q.1 ∧ (v.1.2 : ℚ) = q.2 := by
    intro r e he hq
    obtain ⟨v, hv, u, hu, h1, -⟩ := edges_mem n.srt e he
    rw [h1] at hq
    rcases hq with hq | hq
    · exact ⟨v, hv, hq.1.symm, hq.2.symm⟩
    · exact ⟨u, hu, hq.1.symm, hq.2.symm⟩
  rcases onEdge_cases hqe with ce | ce <;> rcases onEdge_cases hqf with cf | cf
  · exact ⟨ce, cf⟩
  · obtain ⟨v, hv, h⟩ := endE he ce
    exact absurd h ((n.inside_free hs hf cf).1 v hv)
  · obtain ⟨v, hv, h⟩ := endE hf cf
    exact absurd h ((n.inside_free hr he ce).1 v hv)
  · exfalso
    obtain ⟨h1, h2⟩ := n.inside_free hr he ce
    obtain ⟨h3, h4⟩ := n.inside_free hs hf cf
    obtain ⟨v, hv, u, hu, g1, g2, g3, g4, g5, -⟩ := edges_mem n.srt e he
    obtain ⟨v', hv', u', hu', k1, k2, k3, k4, k5, -⟩ := edges_mem n.srt f hf
    by_cases c : r = s
    · subst c
      apply hef
      have i1 : e.1.1 = v.1 := congrArg Prod.fst g1
      have i2 : e.1.2 = u.1 := congrArg Prod.snd g1
      have i3 : f.1.1 = v'.1 := congrArg Prod.fst k1
      have i4 : f.1.2 = u'.1 := congrArg Prod.snd k1
      rw [i1, i2] at ce
      rw [i3, i4] at cf
      -- both edges lie on the line through the point
      have b1 := (inside_le hr g2 g3 ce rfl).1 (by unfold PLt; omega)
      have b2 := (inside_le hr k2 k3 cf rfl).1 (by unfold PLt; omega)
      have c1 := (inside_le hr g2 g3 ce g3.symm).2 (by unfold PLt; omega)
      have c2 := (inside_le hr k2 k3 cf k3.symm).2 (by unfold PLt; omega)
      have l1 := (inside_before hr g2 g3 ce v'.1).1 b2
      have l2 := (inside_before hr k2 k3 cf v.1).1 b1
      have m1 := g4 v' hv' l1.1
      have m2 := k4 v hv l2.1
      have lu' : lk r u'.1 = lk r v.1 := by rw [← k3, l1.1]
      have lu : lk r u.1 = lk r v'.1 := by rw [← g3, l2.1]
      have m3 := g4 u' hu' lu'
      have m4 := k4 u hu lu
      have n1 : PLt v.1 u'.1 := by
        by_contra hh
        exact c2 ((inside_le hr g2 g3 ce lu').1 hh)
      have n2 : PLt v'.1 u.1 := by
        by_contra hh
        exact c1 ((inside_le hr k2 k3 cf lu).1 hh)
      have hvv : v.1 = v'.1 := by
        have d1 : ¬ PLt v.1 v'.1 := fun h => m1 ⟨h, l1.2.1⟩
        have d2 : ¬ PLt v'.1 v.1 := fun h => m2 ⟨h, l2.2.1⟩
        unfold PLt at d1 d2
        exact Prod.ext (by omega) (by omega)
      have huu : u.1 = u'.1 := by
        have d1 : ¬ PLt u'.1 u.1 := fun h => m3 ⟨n1, h⟩
        have d2 : ¬ PLt u.1 u'.1 := fun h => m4 ⟨n2, h⟩
        unfold PLt at d1 d2
        exact Prod.ext (by omega) (by omega)
      exact g1.trans ((by rw [hvv, huu] : (v.1, u.1) = (v'.1, u'.1)).trans k1.symm)
    · have w1 : W E q r ≠ 0 := by rw [h2]; exact g5
      have w2 : W E q s ≠ 0 := by rw [h4]; exact k5
      obtain ⟨x1, x2⟩ := crossing n.closed n.d01 (F_zero h1) hr hs c w1 w2
      obtain ⟨p, hp⟩ := grid_of x1 x2
      refine n.cross p ?_ (hp ▸ x1)
      intro w hw hwp
      apply h1 w hw
      rw [hp, hwp]
      exact ⟨rfl, rfl⟩

/-- A line that arrives at a vertex ends an edge there. -/
theorem Noded.ends (n : Noded E) {v : VC} (hv : v ∈ E) {r : Int} (hr : Slope r) (h : W E ((v.1.1 : ℚ), (v.1.2 : ℚ)) r ≠ 0) :
    ∃ e ∈ edges r E, e.1.2 = v.1 := by
  unfold W at h
  rw [← edges_tot n.closed hr] at h
  have : ∃ e ∈ edges r E, e.2 * ((if decide (Before r ((v.1.1 : ℚ), (v.1.2 : ℚ)) e.1.1) = true then 1 else 0) -
      (if decide (Before r ((v.1.1 : ℚ), (v.1.2 : ℚ)) e.1.2) = true then 1 else 0)) ≠ 0 := by
    by_contra hn
    push Not at hn
    apply h
    unfold esum
    apply List.sum_eq_zero
    intro x hx
    obtain ⟨e, he, rfl⟩ := List.mem_map.1 hx
    exact hn e he
  obtain ⟨e, he, hne⟩ := this
  refine ⟨e, he, ?_⟩
  obtain ⟨a, ha, b, hb, h1, h2, h3, h4, -⟩ := edges_mem n.srt e he
  rw [h1] at hne ⊢
  dsimp only at hne ⊢
  have hB : ∀ w : P, Before r ((v.1.1 : ℚ), (v.1.2 : ℚ)) w ↔ lk r w = lk r v.1 ∧ PLt w v.1 := by
    intro w
    unfold Before lk PLt
    by_cases c : r = 2
    · simp only [c, if_true]
      norm_cast
      omega
    · simp only [c, if_false]
      norm_cast
      constructor
      · rintro ⟨g1, g2⟩
        have : r * (v.1.1 - w.1) = r * v.1.1 - r * w.1 := by ring
        refine ⟨by omega, Or.inl g1⟩
      · rintro ⟨g1, g2⟩
        have : r * (v.1.1 - w.1) = r * v.1.1 - r * w.1 := by ring
        refine ⟨?_, by omega⟩
        rcases g2 with g2 | ⟨g2, g3⟩
        · exact g2
        · rw [g2] at g1; omega
  by_cases c1 : Before r ((v.1.1 : ℚ), (v.1.2 : ℚ)) a.1 <;> by_cases c2 : Before r ((v.1.1 : ℚ), (v.1.2 : ℚ)) b.1
  · simp [c1, c2] at hne
  · rw [hB] at c1 c2
    have hk : lk r v.1 = lk r a.1 := c1.1.symm
    have d1 := h4 v hv hk
    have d2 : ¬ PLt b.1 v.1 := fun hh => c2 ⟨by rw [← h3]; exact c1.1, hh⟩
    have d3 : ¬ PLt v.1 b.1 := fun hh => d1 ⟨c1.2, hh⟩
    unfold PLt at d2 d3
    exact Prod.ext (by omega) (by omega)
  · rw [hB] at c1 c2
    exfalso
    apply c1
    refine ⟨by rw [h3]; exact c2.1, ?_⟩
    have := c2.2
    unfold PLt at this h2 ⊢; omega
  · simp [c1, c2] at hne

theorem Noded.clean (n : Noded E) : ArbForm.Clean (allEdges E) := by
  refine ⟨all_nodup n.srt, n.units, ⟨?_, ?_, ?_⟩, fun q => by rw [depth_all n.srt n.closed]; exact n.d01 q⟩
  · intro ev he
    obtain ⟨e, h, rfl⟩ := List.mem_map.1 he
    exact n.directed e h
  · have : (ArbForm.evs (allEdges E)).map Prod.fst = (allEdges E).map Prod.fst := by unfold ArbForm.evs; rw [List.map_map]; rfl
    rw [this]; exact n.planar
  · intro k
    by_cases h : k = 0
    · rw [h, ArbForm.layer_evs]; exact closed_all n.srt n.closed
    · have : Verif.Spec.Arb.layer (ArbForm.evs (allEdges E)) k = [] := by
        unfold Verif.Spec.Arb.layer ArbForm.evs
        rw [List.filter_eq_nil_iff.2]
        · rfl
        · intro a ha
          obtain ⟨e, _, rfl⟩ := List.mem_map.1 ha
          simpa using Ne.symm h
      rw [this]; intro v; rfl

theorem Noded.der (n : Noded E) : F45.Der E (allEdges E) := by
  refine ⟨n.srt, ?_, ?_, fun v hv r hr => slot_all n.srt n.closed hv hr⟩
  · intro p
    constructor
    · rintro ⟨g, hg, h⟩
      obtain ⟨w, hw⟩ := ArbForm.has_evs.1 hg
      obtain ⟨r, hr, he⟩ := mem_all.1 hw
      obtain ⟨v, hv, u, hu, h1, -⟩ := edges_mem n.srt _ he
      dsimp only at h1
      rw [h1] at h
      rcases h with h | h
      · exact ⟨v, hv, h⟩
      · exact ⟨u, hu, h⟩
    · rintro ⟨v, hv, rfl⟩
      have key : ∃ e ∈ allEdges E, e.1.1 = v.1 ∨ e.1.2 = v.1 := by
        by_cases c : ∀ r, Slope r → qat v.2 r = 0
        · obtain ⟨r, hr, hw⟩ := n.live v hv c
          obtain ⟨e, he, h⟩ := n.ends hv hr hw
          exact ⟨e, mem_all.2 ⟨r, hr, he⟩, Or.inr h⟩
        · push Not at c
          obtain ⟨r, hr, hq⟩ := c
          rw [slot_all n.srt n.closed hv hr] at hq
          by_contra hn
          push Not at hn
          apply hq
          unfold F45.sumS F45.sumE
          rw [List.filter_eq_nil_iff.2, List.filter_eq_nil_iff.2]
          · rfl
          · intro e he
            simp [(hn e he).2]
          · intro e he
            simp [(hn e he).1]
      obtain ⟨e, he, h⟩ := key
      exact ⟨e.1, ArbForm.has_evs.2 ⟨e.2, he⟩, h⟩
  · intro e he
    obtain ⟨r, hr, he⟩ := mem_all.1 he
    exact (edges_rho hr n.srt he).2

/-- The formation of noded data. -/
theorem Noded.form (n : Noded E) : ∃ out out', ArbForm.form (allEdges E) = some out ∧ Form45.form E = some out' ∧ List.Forall₂ F45.PR out' out :=
  F45.form_sim n.der n.clean

end Verif.N45
