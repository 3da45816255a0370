import Verif.Proofs.Set90Ops
import Mathlib.Tactic.IntervalCases
import Mathlib.Tactic.FieldSimp
/-! move, transform and scale_up of `polygon_90_set_data`. -/
namespace Verif.Set90
open Verif.BooleanOp Verif.Spec Verif.Isotropy Verif.Rectangle Verif.Transform

variable {umin umax : Int}

def shf (dx dy : Int) (v : V) : V := ⟨v.x + dx, v.y + dy, v.c⟩
def mirX (v : V) : V := ⟨-v.x, v.y, -v.c⟩
def mirY (v : V) : V := ⟨v.x, -v.y, -v.c⟩

theorem coverZ_shf (dx dy : Int) (L : List V) (a y : Int) :
    coverZ (L.map (shf dx dy)) a y = coverZ L (a - dx) (y - dy) := by
  simp only [coverZ, List.map_map]
  congr 1
  apply List.map_congr_left
  intro v _
  simp only [Function.comp, shf]
  split_ifs <;> omega

theorem coverZ_mirX {L : List V} (h : Closed L) (a y : Int) :
    coverZ (L.map mirX) a y = coverZ L (-a - 1) y := by
  obtain ⟨x0, h0⟩ := cover_right h
  obtain ⟨x1, h1⟩ : ∃ x1 : Int, ∀ v ∈ L, v.x ≤ x1 := by
    clear h h0
    induction L with
    | nil => exact ⟨0, by simp⟩
    | cons v L ih =>
      obtain ⟨y, hy⟩ := ih
      refine ⟨max y v.x, fun w hw => ?_⟩
      rcases List.mem_cons.mp hw with rfl | hw
      · omega
      · have := hy w hw; omega
  have key : ∀ (M : List V) (B : Int), (∀ v ∈ M, v.x ≤ B) →
      coverZ (M.map mirX) a y = coverZ M (-a - 1) y - coverZ M B y := by
    intro M B hM
    induction M with
    | nil => rfl
    | cons v M ih =>
      rw [List.map_cons, coverZ_cons, coverZ_cons, coverZ_cons, ih (fun w hw => hM w (by simp [hw]))]
      have := hM v (by simp)
      simp only [mirX]
      split_ifs <;> omega
  rw [key L (max x0 x1) (fun v hv => by have := h1 v hv; omega), h0 (max x0 x1) y (by omega)]
  omega

theorem mirY_eq (L : List V) : L.map mirY = ((L.map swapV).map mirX).map swapV := by
  simp only [List.map_map]; rfl

theorem closed_shf (dx dy : Int) {L : List V} (h : Closed L) : Closed (L.map (shf dx dy)) := by
  apply closed_of_cover
  · obtain ⟨x0, h0⟩ := cover_right h
    exact ⟨x0 + dx, fun a y ha => by rw [coverZ_shf]; exact h0 _ _ (by omega)⟩
  · obtain ⟨x0, h0⟩ := cover_top h
    exact ⟨x0 + dy, fun a y ha => by rw [coverZ_shf]; exact h0 _ _ (by omega)⟩

theorem closed_mirX {L : List V} (h : Closed L) : Closed (L.map mirX) := by
  have neg : ∀ M : List ℤ, (M.map (fun c => -c)).sum = - M.sum := by
    intro M; induction M with
    | nil => rfl
    | cons c M ih => simp [ih]; omega
  constructor
  · intro a
    have := h.1 (-a)
    rw [List.map_map]
    rw [show ((fun v : V => if v.x = a then v.c else 0) ∘ mirX) =
      (fun c : ℤ => -c) ∘ (fun v : V => if v.x = -a then v.c else 0) from by
        funext v; simp only [Function.comp, mirX]; split_ifs <;> omega]
    rw [← List.map_map, neg, this]; rfl
  · intro a
    have := h.2 a
    rw [List.map_map]
    rw [show ((fun v : V => if v.y = a then v.c else 0) ∘ mirX) =
      (fun c : ℤ => -c) ∘ (fun v : V => if v.y = a then v.c else 0) from by
        funext v; simp only [Function.comp, mirX]; split_ifs <;> omega]
    rw [← List.map_map, neg, this]; rfl

theorem closed_mirY {L : List V} (h : Closed L) : Closed (L.map mirY) := by
  rw [mirY_eq]; exact closed_swap (closed_mirX (closed_swap h))

theorem coverZ_mirY {L : List V} (h : Closed L) (a y : Int) :
    coverZ (L.map mirY) a y = coverZ L a (-y - 1) := by
  rw [mirY_eq, coverZ_swap, coverZ_mirX (closed_swap h), coverZ_swap]

/-- The list of vertices after an axis transformation, in vertical frame. -/
def trV (atr : Nat) (v : V) : V :=
  ⟨(axisTransform atr (v.x, v.y)).1, (axisTransform atr (v.x, v.y)).2,
    v.c * (dir2Sign (getDirections atr).1 * dir2Sign (getDirections atr).2)⟩

theorem trV_cases (atr : Nat) (h : atr < 8) :
    trV atr = (if atr % 8 / 4 = 1 then swapV else id) ∘ (if atr % 4 / 2 = 1 then mirY else id) ∘
      (if atr % 2 = 1 then mirX else id) := by
  funext v
  obtain ⟨x, y, c⟩ := v
  interval_cases atr <;>
    simp [trV, axisTransform, getDirections, bit0, bit1, bit2, dir2Sign, dir2IsPositive, predicatedSwap, swapV, mirX, mirY]

theorem closed_trV {L : List V} (h : Closed L) (atr : Nat) (ha : atr < 8) : Closed (L.map (trV atr)) := by
  rw [trV_cases atr ha, ← List.map_map, ← List.map_map]
  have h1 : Closed (L.map (if atr % 2 = 1 then mirX else id)) := by
    split_ifs
    · exact closed_mirX h
    · simpa using h
  have h2 : Closed ((L.map (if atr % 2 = 1 then mirX else id)).map (if atr % 4 / 2 = 1 then mirY else id)) := by
    by_cases c : atr % 4 / 2 = 1
    · rw [if_pos c]; exact closed_mirY h1
    · rw [if_neg c]; simpa using h1
  by_cases c : atr % 8 / 4 = 1
  · rw [if_pos c]; exact closed_swap h2
  · rw [if_neg c]; simpa using h2

/-- Where the cell `(a, y)` comes from. -/
def cellPre (atr : Nat) (a y : Int) : Int × Int :=
  let q := if atr % 8 / 4 = 1 then (y, a) else (a, y)
  let q := if atr % 4 / 2 = 1 then (q.1, -q.2 - 1) else q
  if atr % 2 = 1 then (-q.1 - 1, q.2) else q

theorem coverZ_trV {L : List V} (h : Closed L) (atr : Nat) (ha : atr < 8) (a y : Int) :
    coverZ (L.map (trV atr)) a y = coverZ L (cellPre atr a y).1 (cellPre atr a y).2 := by
  rw [trV_cases atr ha, ← List.map_map, ← List.map_map]
  have k1 : ∀ a y, coverZ (L.map (if atr % 2 = 1 then mirX else id)) a y =
      if atr % 2 = 1 then coverZ L (-a - 1) y else coverZ L a y := by
    intro a y
    split_ifs
    · exact coverZ_mirX h a y
    · simp
  have h1 : Closed (L.map (if atr % 2 = 1 then mirX else id)) := by
    split_ifs
    · exact closed_mirX h
    · simpa using h
  have k2 : ∀ a y, coverZ ((L.map (if atr % 2 = 1 then mirX else id)).map (if atr % 4 / 2 = 1 then mirY else id)) a y =
      if atr % 4 / 2 = 1 then coverZ (L.map (if atr % 2 = 1 then mirX else id)) a (-y - 1)
        else coverZ (L.map (if atr % 2 = 1 then mirX else id)) a y := by
    intro a y
    by_cases c : atr % 4 / 2 = 1
    · rw [if_pos c, if_pos c]; exact coverZ_mirY h1 a y
    · rw [if_neg c, if_neg c]; simp
  have k3 : ∀ (M : List V) a y, coverZ (M.map (if atr % 8 / 4 = 1 then swapV else id)) a y =
      if atr % 8 / 4 = 1 then coverZ M y a else coverZ M a y := by
    intro M a y
    by_cases c : atr % 8 / 4 = 1
    · rw [if_pos c, if_pos c]; exact coverZ_swap M a y
    · rw [if_neg c, if_neg c]; simp
  rw [k3]
  unfold cellPre
  by_cases c3 : atr % 8 / 4 = 1 <;> by_cases c2 : atr % 4 / 2 = 1 <;> by_cases c1 : atr % 2 = 1 <;>
    simp only [c3, c2, c1, if_true, if_false] at k1 k2 ⊢ <;> rw [k2, k1]

theorem unit_trV (atr : Nat) (ha : atr < 8) (v : V) : (trV atr v).c = v.c ∨ (trV atr v).c = -v.c := by
  rw [trV_cases atr ha]
  simp only [Function.comp]
  split_ifs <;> simp [mirX, mirY, swapV]

theorem trV_inj (atr : Nat) (ha : atr < 8) (v w : V) (h1 : (trV atr v).x = (trV atr w).x)
    (h2 : (trV atr v).y = (trV atr w).y) : v.x = w.x ∧ v.y = w.y ∧ (v.c = w.c → (trV atr v).c = (trV atr w).c) := by
  rw [trV_cases atr ha] at *
  simp only [Function.comp] at *
  split_ifs at * <;> simp only [mirX, mirY, swapV, id] at * <;> omega

/-- Flatness survives an injective re-embedding whose coverage is a relabelling. -/
theorem flat_map {L : List V} (h : Flat L) (f : V → V) (hu : ∀ v, (f v).c = v.c ∨ (f v).c = -v.c)
    (hi : ∀ v w, (f v).x = (f w).x → (f v).y = (f w).y → v.x = w.x ∧ v.y = w.y ∧ (v.c = w.c → (f v).c = (f w).c))
    (hc : ∀ a y, ∃ a' y' : Int, coverZ (L.map f) a y = coverZ L a' y') : Flat (L.map f) := by
  refine ⟨fun v hv => ?_, fun v hv w hw h1 h2 => ?_, fun x y => ?_⟩
  · obtain ⟨u, hu', rfl⟩ := List.mem_map.mp hv
    have := hu u
    have := h.1 u hu'
    omega
  · obtain ⟨u, hu', rfl⟩ := List.mem_map.mp hv
    obtain ⟨u2, hu2, rfl⟩ := List.mem_map.mp hw
    obtain ⟨k1, k2, k3⟩ := hi u u2 h1 h2
    exact k3 (h.2.1 u hu' u2 hu2 k1 k2)
  · rw [cover_eq]
    obtain ⟨a', y', e⟩ := hc ⌊x⌋ ⌊y⌋
    rw [e, ← cover_int]
    exact h.2.2 _ _

/-! ### move -/

theorem move_eq (s : PSet) (hs : s.orient = HORIZONTAL ∨ s.orient = VERTICAL) (dx dy : Int) :
    s.move dx dy = ⟨s.orient, s.data.map (if s.orient = VERTICAL then shf dx dy else shf dy dx), s.dirty, s.unsorted⟩ := by
  unfold PSet.move
  rcases hs with h | h <;> simp only [h, HORIZONTAL, VERTICAL] <;> rfl

theorem move_depth (s : PSet) (hs : s.orient = HORIZONTAL ∨ s.orient = VERTICAL) (dx dy : Int) (p : ℚ × ℚ) :
    depth (s.move dx dy) p = depth s (p.1 - dx, p.2 - dy) := by
  rw [move_eq s hs, depth_def, depth_def]
  simp only
  split_ifs <;> rw [coverZ_shf, Int.floor_sub_intCast, Int.floor_sub_intCast]

theorem sorted_shf (dx dy : Int) {L : List V} (h : L.Pairwise VLex) : (L.map (shf dx dy)).Pairwise VLex := by
  rw [List.pairwise_map]
  refine h.imp ?_
  intro a b h
  unfold VLex at *
  simp only [shf]; omega

theorem flat_shf (dx dy : Int) {L : List V} (h : Flat L) : Flat (L.map (shf dx dy)) :=
  flat_map h _ (fun v => Or.inl rfl)
    (fun v w h1 h2 => by simp only [shf] at *; omega)
    (fun a y => ⟨_, _, coverZ_shf dx dy L a y⟩)

theorem move_valid {s : PSet} (h : Valid umin umax s) (dx dy : Int)
    (hr : InRange umin umax (s.move dx dy).data) : Valid umin umax (s.move dx dy) := by
  have key : ∃ a b, s.move dx dy = ⟨s.orient, s.data.map (shf a b), s.dirty, s.unsorted⟩ := by
    rw [move_eq s h.orient]
    split_ifs
    · exact ⟨_, _, rfl⟩
    · exact ⟨_, _, rfl⟩
  obtain ⟨a, b, e⟩ := key
  rw [e] at hr ⊢
  exact ⟨h.orient, fun hu => sorted_shf _ _ (h.sorted hu), fun hd => flat_shf _ _ (h.clean hd), closed_shf _ _ h.closed, hr⟩

/-! ### transform -/

/-- Vertex map of `transform(transformation)`, vertical frame. -/
theorem transformT_eq (s : PSet) (hs : s.orient = HORIZONTAL ∨ s.orient = VERTICAL) (t : Transformation) :
    s.transformT t = ⟨s.orient, s.data.map (if s.orient = VERTICAL then trV t.atr ∘ shf (-t.p.1) (-t.p.2)
        else swapV ∘ trV t.atr ∘ shf (-t.p.1) (-t.p.2) ∘ swapV), s.dirty,
      if (getDirections t.atr).1 ≠ EAST ∨ (getDirections t.atr).2 ≠ NORTH then true else s.unsorted⟩ := by
  unfold PSet.transformT PSet.transformWith
  rcases hs with h | h <;> simp only [h, HORIZONTAL, VERTICAL] <;> rfl

theorem transformT_cover (s : PSet) (h : Closed s.data) (hs : s.orient = HORIZONTAL ∨ s.orient = VERTICAL)
    (t : Transformation) (ht : t.atr < 8) (a y : Int) :
    cz (s.transformT t) VERTICAL a y =
      cz s VERTICAL ((cellPre t.atr a y).1 + t.p.1) ((cellPre t.atr a y).2 + t.p.2) := by
  rw [transformT_eq s hs]
  unfold cz
  rcases hs with ho | ho
  · simp only [ho, HORIZONTAL, VERTICAL]
    simp only [show ((0 : Nat) = 1) = False from by simp, if_false]
    rw [← List.map_map, coverZ_swap, ← List.map_map, coverZ_trV _ _ ht, ← List.map_map, coverZ_shf, coverZ_swap]
    · congr 1 <;> omega
    · rw [← List.map_map]; exact closed_shf _ _ (closed_swap h)
  · simp only [ho, VERTICAL]
    simp only [if_true]
    rw [← List.map_map, coverZ_trV (closed_shf _ _ h) _ ht, coverZ_shf]
    congr 1 <;> omega

theorem floor_neg_off {x : ℚ} (h : ∀ n : ℤ, x ≠ n) : ⌊-x⌋ = -⌊x⌋ - 1 := by
  rw [Int.floor_eq_iff]
  have h1 := Int.floor_le x
  have h2 := Int.lt_floor_add_one x
  have h3 : (⌊x⌋ : ℚ) ≠ x := fun e => h _ e.symm
  have h4 : (⌊x⌋ : ℚ) < x := lt_of_le_of_ne h1 h3
  push_cast
  constructor <;> linarith

theorem transformT_depth {s : PSet} (h : Valid umin umax s) (t : Transformation) (ht : t.atr < 8)
    (p : ℚ × ℚ) (hp : OffGrid p) :
    depth (s.transformT t) (axisMap t.atr (p.1 - t.p.1, p.2 - t.p.2)) = depth s p := by
  have hx : ∀ n : ℤ, p.1 - t.p.1 ≠ n := fun n e => hp.1 (n + t.p.1) (by push_cast; linarith)
  have hy : ∀ n : ℤ, p.2 - t.p.2 ≠ n := fun n e => hp.2 (n + t.p.2) (by push_cast; linarith)
  have ho : (s.transformT t).orient = HORIZONTAL ∨ (s.transformT t).orient = VERTICAL := by
    rw [transformT_eq s h.orient]; exact h.orient
  rw [depth_cz ho (Or.inr rfl), depth_cz h.orient (Or.inr rfl), if_pos rfl, if_pos rfl,
    transformT_cover s h.closed h.orient t ht]
  obtain ⟨atr, p0⟩ := t
  simp only at *
  have e1 := floor_neg_off hx
  have e2 := floor_neg_off hy
  have e3 : ⌊p.1 - p0.1⌋ = ⌊p.1⌋ - p0.1 := Int.floor_sub_intCast _ _
  have e4 : ⌊p.2 - p0.2⌋ = ⌊p.2⌋ - p0.2 := Int.floor_sub_intCast _ _
  interval_cases atr <;> simp only [axisMap, cellPre] <;> norm_num <;> congr 1 <;>
    simp only [neg_sub] at * <;> omega

theorem transformT_valid {s : PSet} (h : Valid umin umax s) (t : Transformation) (ht : t.atr < 8)
    (hr : InRange umin umax (s.transformT t).data) : Valid umin umax (s.transformT t) := by
  have hcl : Closed (s.transformT t).data := by
    rw [transformT_eq s h.orient]
    simp only
    split_ifs
    · rw [← List.map_map]; exact closed_trV (closed_shf _ _ h.closed) _ ht
    · rw [← List.map_map, ← List.map_map, ← List.map_map]
      exact closed_swap (closed_trV (closed_shf _ _ (closed_swap h.closed)) _ ht)
  have hfl : s.dirty = false → Flat (s.transformT t).data := by
    intro hd
    have hf := h.clean hd
    rw [transformT_eq s h.orient]
    simp only
    have hsw : Flat s.data → Flat (s.data.map swapV) := fun hf =>
      flat_map hf swapV (fun v => Or.inl rfl) (fun v w h1 h2 => by simp only [swapV] at *; omega)
        (fun a y => ⟨_, _, coverZ_swap _ a y⟩)
    split_ifs
    · rw [← List.map_map]
      exact flat_map (flat_shf _ _ hf) _ (unit_trV _ ht) (trV_inj _ ht)
        (fun a y => ⟨_, _, coverZ_trV (closed_shf _ _ h.closed) _ ht a y⟩)
    · rw [← List.map_map, ← List.map_map, ← List.map_map]
      refine flat_map (flat_map (flat_shf _ _ (hsw hf)) _ (unit_trV _ ht) (trV_inj _ ht)
        (fun a y => ⟨_, _, coverZ_trV (closed_shf _ _ (closed_swap h.closed)) _ ht a y⟩))
        swapV (fun v => Or.inl rfl) (fun v w h1 h2 => by simp only [swapV] at *; omega)
        (fun a y => ⟨_, _, coverZ_swap _ a y⟩)
  refine ⟨by rw [transformT_eq s h.orient]; exact h.orient, fun hu => ?_, fun hd => hfl ?_, hcl, hr⟩
  · rw [transformT_eq s h.orient] at hu ⊢
    simp only at hu ⊢
    split_ifs at hu with hdir
    have h0 : t.atr = 0 := by
      obtain ⟨atr, p0⟩ := t
      simp only at *
      revert hdir
      interval_cases atr <;> simp [getDirections, bit0, bit1, bit2, EAST, NORTH]
    have htr : trV 0 = id := by rw [trV_cases 0 (by omega)]; rfl
    rw [h0, htr]
    split_ifs
    · exact sorted_shf _ _ (h.sorted hu)
    · rw [show (swapV ∘ id ∘ shf (-t.p.1) (-t.p.2) ∘ swapV) = shf (-t.p.2) (-t.p.1) from rfl]
      exact sorted_shf _ _ (h.sorted hu)
  · rw [transformT_eq s h.orient] at hd; exact hd

/-! ### scale_up -/

theorem scaleUp_cover (L : List V) (k : Int) (hk : 0 < k) (x y : ℚ) :
    cover (L.map (fun v => (⟨v.x * k, v.y * k, v.c⟩ : V))) x y = cover L (x / k) (y / k) := by
  have hk' : (0 : ℚ) < k := by exact_mod_cast hk
  simp only [cover, List.map_map]
  congr 1
  apply List.map_congr_left
  intro v _
  simp only [Function.comp, Int.cast_mul, le_div_iff₀ hk']

theorem scaleUp_depth (s : PSet) (k : Int) (hk : 0 < k) (p : ℚ × ℚ) :
    depth (s.scaleUp k) p = depth s (p.1 / k, p.2 / k) := by
  unfold depth PSet.scaleUp
  simp only
  split_ifs <;> rw [scaleUp_cover _ _ hk]

theorem scaleUp_valid {s : PSet} (h : Valid umin umax s) (k : Int) (hk : 0 < k)
    (hr : InRange umin umax (s.scaleUp k).data) : Valid umin umax (s.scaleUp k) := by
  have hk' : (0 : ℚ) < k := by exact_mod_cast hk
  have hlt : ∀ a b : Int, a < b → a * k < b * k := fun a b h => Int.mul_lt_mul_of_pos_right h hk
  have hz : ∀ a y : Int, ∃ a' y' : Int, coverZ (s.data.map (fun v => (⟨v.x * k, v.y * k, v.c⟩ : V))) a y = coverZ s.data a' y' := by
    intro a y
    have := scaleUp_cover s.data k hk a y
    rw [cover_int, cover_eq] at this
    exact ⟨_, _, this⟩
  refine ⟨h.orient, fun hu => ?_, fun hd => flat_map (h.clean hd) _ (fun v => Or.inl rfl) ?_ hz, ?_, hr⟩
  · show (s.data.map _).Pairwise VLex
    rw [List.pairwise_map]
    refine (h.sorted hu).imp ?_
    intro a b hab
    unfold VLex at *
    simp only
    rcases hab with h1 | ⟨h1, h1' | h1'⟩
    · exact Or.inl (hlt _ _ h1)
    · exact Or.inr ⟨by rw [h1], Or.inl (hlt _ _ h1')⟩
    · exact Or.inr ⟨by rw [h1], Or.inr ⟨by rw [h1'.1], h1'.2⟩⟩
  · intro v w h1 h2
    simp only at h1 h2
    exact ⟨Int.eq_of_mul_eq_mul_right (by omega) h1, Int.eq_of_mul_eq_mul_right (by omega) h2, id⟩
  · show Closed (s.data.map _)
    apply closed_of_cover
    · obtain ⟨x0, h0⟩ := cover_right h.closed
      refine ⟨x0 * k, fun a y ha => ?_⟩
      rw [← cover_int, scaleUp_cover _ _ hk, cover_eq]
      apply h0
      rw [Int.le_floor, le_div_iff₀ hk']
      exact_mod_cast ha
    · obtain ⟨x0, h0⟩ := cover_top h.closed
      refine ⟨x0 * k, fun a y ha => ?_⟩
      rw [← cover_int, scaleUp_cover _ _ hk, cover_eq]
      apply h0
      rw [Int.le_floor, le_div_iff₀ hk']
      exact_mod_cast ha

end Verif.Set90
