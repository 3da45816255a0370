import Verif.Proofs.PolyGet
import Verif.Proofs.ResizeDir
/-!
# The edges of the polygons `get` returns, piece by piece
-/
namespace Verif.Proofs.PolyPieces
open Verif.PolyForm Verif.Proofs.PolyGross Verif.Proofs.PolyCyc Verif.Proofs.PolyInv Verif.Proofs.PolyPath Verif.Proofs.PolyLoop Verif.Proofs.PolyData Verif.Proofs.PolyGet
open Verif.Polygon Verif.Spec Verif.Set90 Verif.Isotropy

abbrev Edge := (Int × Int) × (Int × Int)

theorem expand_K {w : Wt} {f : Edge → Int} (hh : ∀ a b c, f ((a, b), (c, b)) = w.e true a b c) (hv : ∀ a b c, f ((a, b), (a, c)) = w.e false b a c)
    (fx fy : Int) (p : Int × Int) (r : List Int) (hev : r.length % 2 = 0) (hl : lastX p.1 r ≠ fx) :
    ((pairs (expandGo fx p r HORIZONTAL ++ [(fx, fy)])).map f).sum = K w true (p.1 :: p.2 :: r ++ [fx, fy]) := by
  match r with
  | [] =>
    rw [expandGo_nil _ _ hl]
    simp only [List.cons_append, List.nil_append, pairs, List.map_cons, List.map_nil, List.sum_cons, List.sum_nil, K, Bool.not_true]
    rw [← hh, ← hv]
  | [x] => simp at hev
  | x :: y :: r =>
    have ih := expand_K hh hv fx fy (x, y) r (by simp at hev; omega) hl
    rw [expandGo_two]
    obtain ⟨t, ht⟩ := expandGo_head fx (x, y) r HORIZONTAL
    rw [ht] at ih ⊢
    simp only [List.cons_append, pairs, List.map_cons, List.sum_cons, K, Bool.not_true, Bool.not_false] at ih ⊢
    rw [ih, ← hh, ← hv]

theorem loop_K {w : Wt} {f : Edge → Int} (hh : ∀ a b c, f ((a, b), (c, b)) = w.e true a b c) (hv : ∀ a b c, f ((a, b), (a, c)) = w.e false b a c)
    {c : List Int} (h : LoopP c) : ((edges (expand c)).map f).sum = Lp w c := by
  obtain ⟨h1, h2, h3⟩ := h
  match c, h1, h2, h3 with
  | x :: y :: r, h1, h2, h3 =>
    have hr : r.length % 2 = 0 := by simp at h1; omega
    simp only [List.take_succ_cons, List.take_zero] at h3
    have hl := lastX_ne x y r x y hr h3
    obtain ⟨t, ht⟩ := expandGo_head x (x, y) r HORIZONTAL
    have he : edges (expand (x :: y :: r)) = pairs (expandGo x (x, y) r HORIZONTAL ++ [(x, y)]) := by
      rw [expand, ht, edges_cons]
    rw [he, expand_K hh hv x y (x, y) r hr hl]
    rfl

theorem sum_countP (p : Edge → Prop) [DecidablePred p] (L : List Edge) : (L.map (fun e => if p e then (1 : Int) else 0)).sum = (L.countP (fun e => decide (p e)) : Int) := by
  induction L with
  | nil => rfl
  | cons a L ih =>
    rw [List.map_cons, List.sum_cons, ih, List.countP_cons]
    by_cases h : p a <;> simp [h]; omega

theorem count_h {c : List Int} (h : LoopP c) (x y : Int) : ((edges (expand c)).countP (fun e => decide (AlongH x y e)) : Int) = Lp (hW x y) c := by
  rw [← sum_countP]
  refine loop_K (fun a b c => ?_) (fun a b c => ?_) h
  · simp [AlongH, hW]
  · rw [if_neg (fun hc => by have := hc.2.2; simp at this; omega)]
    simp [hW]

theorem count_v {c : List Int} (h : LoopP c) (x y : Int) : ((edges (expand c)).countP (fun e => decide (AlongV x y e)) : Int) = Lp (vW x y) c := by
  rw [← sum_countP]
  refine loop_K (fun a b c => ?_) (fun a b c => ?_) h
  · rw [if_neg (fun hc => by have := hc.2.2; simp at this; omega)]
    simp [vW]
  · simp [AlongV, vW]

theorem count_poly {p : Edge → Bool} {f : List Int → Int} (hf : ∀ c, LoopP c → ((edges (expand c)).countP p : Int) = f c) :
    ∀ {ps : List Poly}, (∀ q ∈ ps, LoopP q.outer ∧ ∀ h ∈ q.holes, LoopP h) →
      ((boundaryEdges (ps.map pts)).countP p : Int) = (ps.map (fun q => f q.outer + (q.holes.map f).sum)).sum
  | [], _ => rfl
  | q :: ps, h => by
    have ih := count_poly hf (ps := ps) (fun a ha => h a (by simp [ha]))
    obtain ⟨h1, h2⟩ := h q (by simp)
    have hh : ∀ {L : List (List Int)}, (∀ c ∈ L, LoopP c) → ((L.flatMap (fun c => edges (expand c))).countP p : Int) = (L.map f).sum := by
      intro L
      induction L with
      | nil => intro _; rfl
      | cons a L ih =>
        intro hL
        rw [List.flatMap_cons, List.countP_append, List.map_cons, List.sum_cons, ← ih (fun c hc => hL c (by simp [hc])), ← hf a (hL a (by simp))]
        push_cast; rfl
    have e : boundaryEdges ((q :: ps).map pts) = edges (expand q.outer) ++ (q.holes.flatMap (fun c => edges (expand c))) ++ boundaryEdges (ps.map pts) := by
      simp [boundaryEdges, boundaries, pts, List.flatMap_map]
    rw [e, List.countP_append, List.countP_append, List.map_cons, List.sum_cons, ← ih, ← hh h2, ← hf _ h1]
    push_cast; rfl

theorem bit_cell (s : PSet) (x y : Int) : (bit s x y = 1 ↔ Covers s (cell x y)) ∧ (bit s x y = 0 ↔ ¬ Covers s (cell x y)) := by
  have h : depth s (cell x y) = depth s ((x : ℚ), (y : ℚ)) := by
    have f : ∀ z : Int, ⌊(z : ℚ) + 1 / 2⌋ = z := fun z => by rw [Int.floor_eq_iff]; constructor <;> linarith
    unfold depth cell
    split_ifs <;> simp only [cover_eq, f, Int.floor_intCast]
  unfold bit Covers
  rw [h]
  split_ifs with hc <;> simp [hc]

/-- Every unit piece of the grid is used once where the set ends and not otherwise. -/
theorem pieces {umin umax : Int} {s : PSet} (hs : Valid umin umax s) {ps : List Poly} {t : PSet} (e : s.getPolys false umax = some (ps, t)) (x y : Int) :
    (boundaryEdges (ps.map pts)).countP (fun e => decide (AlongH x y e)) = jump (bit s x y) (bit s x (y - 1)) ∧
    (boundaryEdges (ps.map pts)).countP (fun e => decide (AlongV x y e)) = jump (bit s (x - 1) y) (bit s x y) := by
  obtain ⟨ps', t', h1, _, h3, _, _, h6⟩ := get_spec false hs
  rw [e] at h1
  have := Option.some_inj.1 h1
  obtain ⟨rfl, rfl⟩ := Prod.mk.injEq .. ▸ this
  obtain ⟨a, b⟩ := h6 rfl x y
  have hl : ∀ q ∈ ps, LoopP q.outer ∧ ∀ h ∈ q.holes, LoopP h := fun q hq => ⟨(h3 q hq).lo, (h3 q hq).lh⟩
  rw [← a, ← b]
  exact ⟨count_poly (fun c hc => count_h hc x y) hl, count_poly (fun c hc => count_v hc x y) hl⟩

theorem jump_le (a b : Int) : jump a b ≤ 1 := by unfold jump; split_ifs <;> omega

theorem countP_unique {α : Type} {p : α → Bool} : ∀ {L : List α}, L.countP p ≤ 1 → ∀ a ∈ L, ∀ b ∈ L, p a = true → p b = true → a = b
  | [], _, a, ha, _, _, _, _ => by simp at ha
  | c :: L, h, a, ha, b, hb, pa, pb => by
    rw [List.countP_cons] at h
    rcases List.mem_cons.1 ha with rfl | ha' <;> rcases List.mem_cons.1 hb with rfl | hb'
    · rfl
    · have := List.countP_pos_iff.2 ⟨b, hb', pb⟩
      rw [if_pos pa] at h; omega
    · have := List.countP_pos_iff.2 ⟨a, ha', pa⟩
      rw [if_pos pb] at h; omega
    · exact countP_unique (by omega) a ha' b hb' pa pb

theorem no_opposite {E : List Edge} (hh : ∀ x y, E.countP (fun e => decide (AlongH x y e)) ≤ 1) (hv : ∀ x y, E.countP (fun e => decide (AlongV x y e)) ≤ 1) : NoOpposite E := by
  intro e he f hf
  constructor
  · rintro ⟨h1, h2, h3, h4, h5⟩
    by_contra hc
    push Not at hc
    have := countP_unique (hh (max e.1.1 f.2.1) e.1.2) e he f hf (decide_eq_true (by unfold AlongH; omega)) (decide_eq_true (by unfold AlongH; omega))
    rw [this] at h4; omega
  · rintro ⟨h1, h2, h3, h4, h5⟩
    by_contra hc
    push Not at hc
    have := countP_unique (hv e.1.1 (max e.1.2 f.2.2)) e he f hf (decide_eq_true (by unfold AlongV; omega)) (decide_eq_true (by unfold AlongV; omega))
    rw [this] at h4; omega

theorem altFrom_get : ∀ {E : List Edge} {h : Bool}, AltFrom h E → ∀ k (hk : k < E.length), if par k h then E[k].1.2 = E[k].2.2 else E[k].1.1 = E[k].2.1
  | [], _, _, k, hk => by simp at hk
  | e :: E, h, ha, 0, _ => by simpa [par] using ha.1
  | e :: E, h, ha, k + 1, hk => by
    rw [par_succ]
    simpa using altFrom_get ha.2 k (by simpa using hk)

/-- No spikes where edges alternate and none has length zero. -/
theorem no_spike {P : List (Int × Int)} (h : Proper P) : NoSpike P := by
  have h4 := h.four
  obtain ⟨hev, ha⟩ := h.alternating
  have hev : P.length % 2 = 0 := Nat.even_iff.1 hev
  obtain ⟨b, ha⟩ : ∃ b, AltFrom b (edges P) := by rcases ha with ha | ha; exacts [⟨_, ha⟩, ⟨_, ha⟩]
  have hg := altFrom_get ha
  have hlen : (edges P).length = P.length := by simp [edges]
  intro t ht
  obtain ⟨k, hk, rfl⟩ := List.mem_iff_getElem.1 ht
  have hk' : k < P.length := by simp at hk; omega
  have g1 := hg k (by omega)
  have g2 := hg ((k + 1) % P.length) (by rw [hlen]; exact Nat.mod_lt _ (by omega))
  simp only [edges, List.getElem_zip, List.getElem_rotate] at g1 g2
  simp only [List.getElem_zip, List.getElem_rotate]
  have hm : ((k + 1) % P.length + 1) % P.length = (k + 2) % P.length := by rw [Nat.mod_add_mod]
  have hp : par ((k + 1) % P.length) b = !par k b := by
    have : (k + 1) % P.length % 2 = (k + 1) % 2 := Nat.mod_mod_of_dvd _ (Nat.dvd_of_mod_eq_zero hev)
    unfold par
    rw [this]
    by_cases hb : k % 2 = 0
    · rw [if_neg (by omega), if_pos hb]
    · rw [if_pos (by omega), if_neg hb]; simp
  simp only [hm] at g2
  rw [hp] at g2
  cases hpb : par k b <;> simp only [hpb, Bool.not_true, Bool.not_false, Bool.false_eq_true, if_true, if_false] at g1 g2 <;> constructor <;> omega

/-- What `get` returns is regular. -/
theorem regular {umin umax : Int} {s : PSet} (hs : Valid umin umax s) {ps : List Poly} {t : PSet} (e : s.getPolys false umax = some (ps, t)) :
    RegularPolys (ps.map pts) ∧ ∀ q, total (ps.map pts) q = if 0 < depth s q then 1 else 0 := by
  have hpc := pieces hs e
  obtain ⟨ps', t', h1, _, h3, h4, _, _⟩ := get_spec false hs
  rw [e] at h1
  have := Option.some_inj.1 h1
  obtain ⟨rfl, rfl⟩ := Prod.mk.injEq .. ▸ this
  have htot : ∀ q, total (ps.map pts) q = if 0 < depth s q then 1 else 0 := by
    intro q
    rw [total_pts, ← h4 q]
    simp only [sg, Bool.false_eq_true, if_false, one_mul]
  have hgood : ∀ {c : List Int}, LoopP c → 2 ≤ (expand c).length ∧ Rectilinear (expand c) ∧ NoZeroEdge (expand c) ∧ NoSpike (expand c) := by
    intro c hc
    have hp := proper hc
    exact ⟨by have := hp.four; omega, alternating_rect hp.alternating, hp.noZero, no_spike hp⟩
  refine ⟨⟨?_, ?_, ?_, ?_, ?_, ?_⟩, htot⟩
  · intro P hP
    unfold boundaries at hP
    obtain ⟨p, hp, hP⟩ := List.mem_flatMap.1 hP
    obtain ⟨q, hq, rfl⟩ := List.mem_map.1 hp
    rcases List.mem_cons.1 hP with rfl | hP
    · exact hgood (h3 q hq).lo
    · obtain ⟨c, hc, rfl⟩ := List.mem_map.1 hP
      exact hgood ((h3 q hq).lh c hc)
  · refine no_opposite (fun x y => ?_) (fun x y => ?_)
    · have := (hpc x y).1
      have := jump_le (bit s x y) (bit s x (y - 1))
      unfold boundaryEdges at *
      omega
    · have := (hpc x y).2
      have := jump_le (bit s (x - 1) y) (bit s x y)
      unfold boundaryEdges at *
      omega
  · intro q; rw [htot]; split_ifs <;> omega
  · intro p hp q
    obtain ⟨c, hc, rfl⟩ := List.mem_map.1 hp
    have := once_outer (h3 c hc) q
    simp only [pts]; omega
  · intro p hp h hh q
    obtain ⟨c, hc, rfl⟩ := List.mem_map.1 hp
    obtain ⟨d, hd, rfl⟩ := List.mem_map.1 hh
    have := once_hole (h3 c hc) d hd q
    omega
  · intro p hp q
    obtain ⟨c, hc, rfl⟩ := List.mem_map.1 hp
    have := pw_nonneg (h3 c hc) q
    simpa [pts, pw, Function.comp_def] using this

theorem sum_unique {p : Edge → Bool} {f : Edge → Int} : ∀ {L : List Edge}, L.countP p ≤ 1 → (∀ a ∈ L, p a = false → f a = 0) → ∀ e ∈ L, p e = true → (L.map f).sum = f e
  | [], _, _, e, he, _ => by simp at he
  | c :: L, h, h0, e, he, pe => by
    rw [List.countP_cons] at h
    rw [List.map_cons, List.sum_cons]
    rcases List.mem_cons.1 he with rfl | he'
    · rw [if_pos pe] at h
      rw [List.sum_eq_zero (fun x hx => by
        obtain ⟨a, ha, rfl⟩ := List.mem_map.1 hx
        refine h0 a (by simp [ha]) ?_
        by_contra hc
        have := List.countP_pos_iff.2 ⟨a, ha, by simpa using hc⟩
        omega), add_zero]
    · have := List.countP_pos_iff.2 ⟨e, he', pe⟩
      have hc : p c = false := by
        by_contra hc
        rw [if_pos (by simpa using hc)] at h; omega
      rw [h0 c (by simp) hc, sum_unique (L := L) (by omega) (fun a ha => h0 a (by simp [ha])) e he' pe, zero_add]

open Verif.Shift1D in
theorem W_step (E : List (Int × Int)) (y : Int) : Verif.Shift1D.W E y - Verif.Shift1D.W E (y - 1) = (E.map (fun e => if e.1 = y then e.2 else 0)).sum := by
  unfold Verif.Shift1D.W
  induction E with
  | nil => rfl
  | cons a E ih =>
    simp only [List.map_cons, List.sum_cons]
    rw [← ih]
    split_ifs <;> omega

open Verif.ResizePoly in
/-- Along an edge the set is on the left. -/
theorem left {polys : List PolyHoles} (hr : ∀ P ∈ boundaries polys, Rectilinear P)
    (hh : ∀ x y, (boundaryEdges polys).countP (fun e => decide (AlongH x y e)) ≤ 1) (hv : ∀ x y, (boundaryEdges polys).countP (fun e => decide (AlongV x y e)) ≤ 1)
    {e : Edge} (he : e ∈ boundaryEdges polys) (x y : Int) :
    (AlongH x y e → total polys ((x : ℚ), (y : ℚ)) - total polys ((x : ℚ), ((y - 1 : Int) : ℚ)) = if e.1.1 < e.2.1 then 1 else -1) ∧
    (AlongV x y e → total polys ((x : ℚ), (y : ℚ)) - total polys (((x - 1 : Int) : ℚ), (y : ℚ)) = if e.1.2 < e.2.2 then -1 else 1) := by
  have hre : ∀ a ∈ boundaryEdges polys, a.1.1 = a.2.1 ∨ a.1.2 = a.2.2 := by
    intro a ha
    obtain ⟨P, hP, ha⟩ := List.mem_flatMap.1 ha
    exact hr P hP a ha
  constructor
  · intro hal
    have t1 := total_evV hr ((x : ℚ), (y : ℚ))
    have t2 := total_evV hr ((x : ℚ), ((y - 1 : Int) : ℚ))
    simp only [Int.floor_intCast] at t1 t2
    rw [← t1, ← t2, W_step]
    have e1 : ((boundaries polys).flatMap (evV x)) = (boundaryEdges polys).map (fun e => (e.1.2, (if e.1.1 ≤ x then (1 : Int) else 0) - (if e.2.1 ≤ x then 1 else 0))) := by
      unfold boundaryEdges evV
      rw [List.map_flatMap]
    rw [e1, List.map_map]
    rw [sum_unique (hh x y) (fun a ha hp => ?_) e he (decide_eq_true hal)]
    · unfold AlongH at hal
      simp only [Function.comp]
      split_ifs <;> omega
    · have hna : ¬ AlongH x y a := of_decide_eq_false hp
      have := hre a ha
      unfold AlongH at hna
      simp only [Function.comp]
      split_ifs <;> omega
  · intro hal
    have t1 := total_evH hr ((x : ℚ), (y : ℚ))
    have t2 := total_evH hr (((x - 1 : Int) : ℚ), (y : ℚ))
    simp only [Int.floor_intCast] at t1 t2
    rw [← t1, ← t2, W_step]
    have e1 : ((boundaries polys).flatMap (evH y)) = (boundaryEdges polys).map (fun e => (e.2.1, (if e.2.2 ≤ y then (1 : Int) else 0) - (if e.1.2 ≤ y then 1 else 0))) := by
      unfold boundaryEdges evH
      rw [List.map_flatMap]
    rw [e1, List.map_map]
    rw [sum_unique (hv x y) (fun a ha hp => ?_) e he (decide_eq_true hal)]
    · unfold AlongV at hal
      simp only [Function.comp]
      split_ifs <;> omega
    · have hna : ¬ AlongV x y a := of_decide_eq_false hp
      have := hre a ha
      unfold AlongV at hna
      simp only [Function.comp]
      split_ifs <;> omega

end Verif.Proofs.PolyPieces
