import Verif.Proofs.BooleanApply
import Verif.Spec.Region
import Mathlib.Data.Rat.Floor
/-! Lemmas about `polygon_90_set_data`. -/
namespace Verif.Set90
open Verif.BooleanOp Verif.Spec Verif.Isotropy

theorem cover_eq (L : List V) (x y : ℚ) : cover L x y = coverZ L ⌊x⌋ ⌊y⌋ := by
  simp [cover, coverZ, Int.le_floor]

theorem cover_int (L : List V) (a y : Int) : cover L a y = coverZ L a y := by
  rw [cover_eq]; simp

/-! ### permutations, swaps -/

theorem coverZ_perm {L M : List V} (h : L.Perm M) (a y : Int) : coverZ L a y = coverZ M a y :=
  (h.map _).sum_eq

theorem swap_swap (v : V) : swapV (swapV v) = v := rfl

theorem coverZ_swap (L : List V) (a y : Int) : coverZ (L.map swapV) a y = coverZ L y a := by
  simp only [coverZ, List.map_map]
  congr 1
  apply List.map_congr_left
  intro v _
  simp only [Function.comp, swapV, and_comm]

theorem cover_swap (L : List V) (x y : ℚ) : cover (L.map swapV) x y = cover L y x := by
  rw [cover_eq, cover_eq, coverZ_swap]

/-! ### closedness -/

theorem closed_iff (L : List V) : Closed L ↔ ColClosed L ∧ ColClosed (L.map swapV) := by
  unfold Closed ColClosed
  simp only [List.map_map]
  exact Iff.rfl

theorem closed_append {L M : List V} (h : Closed L) (h' : Closed M) : Closed (L ++ M) := by
  constructor
  · intro a; simp [h.1 a, h'.1 a]
  · intro a; simp [h.2 a, h'.2 a]

theorem closed_perm {L M : List V} (p : L.Perm M) (h : Closed L) : Closed M :=
  ⟨fun a => by rw [← (p.map _).sum_eq]; exact h.1 a, fun a => by rw [← (p.map _).sum_eq]; exact h.2 a⟩

theorem closed_nil : Closed [] := ⟨fun _ => rfl, fun _ => rfl⟩

theorem closed_swap {L : List V} (h : Closed L) : Closed (L.map swapV) := by
  rw [closed_iff] at h ⊢
  refine ⟨h.2, ?_⟩
  rw [List.map_map, show swapV ∘ swapV = id from rfl, List.map_id]
  exact h.1

theorem cover_right {L : List V} (h : Closed L) : ∃ x0, ∀ a y, x0 ≤ a → coverZ L a y = 0 := by
  obtain ⟨x0, h0⟩ := cover_top_of_colClosed ((closed_iff L).mp h).2
  exact ⟨x0, fun a y ha => by have := h0 y a ha; rwa [coverZ_swap] at this⟩

theorem cover_top {L : List V} (h : Closed L) : ∃ y0, ∀ a y, y0 ≤ y → coverZ L a y = 0 :=
  cover_top_of_colClosed ((closed_iff L).mp h).1

/-- A list whose coverage vanishes far right and far up is closed. -/
theorem closed_of_cover {L : List V} (hx : ∃ x0, ∀ a y, x0 ≤ a → coverZ L a y = 0)
    (hy : ∃ y0, ∀ a y, y0 ≤ y → coverZ L a y = 0) : Closed L := by
  rw [closed_iff]
  obtain ⟨x0, hx⟩ := hx
  obtain ⟨y0, hy⟩ := hy
  refine ⟨colClosed_of_cover (fun a => ⟨y0, fun y h => hy a y h⟩), colClosed_of_cover (fun a => ⟨x0, fun y h => ?_⟩)⟩
  rw [coverZ_swap]; exact hx y a h

/-! ### sort -/

theorem vle_iff (a b : V) : vle a b = true ↔ VLex a b := by simp [vle, VLex]

theorem vlex_total (a b : V) : VLex a b ∨ VLex b a := by unfold VLex; omega
theorem vlex_trans {a b c : V} (h : VLex a b) (h' : VLex b c) : VLex a c := by unfold VLex at *; omega
theorem vlex_antisymm {a b : V} (h : VLex a b) (h' : VLex b a) : a = b := by
  unfold VLex at *
  obtain ⟨x, y, c⟩ := a
  obtain ⟨x', y', c'⟩ := b
  simp only at h h'
  have h1 : x = x' := by omega
  have h2 : y = y' := by omega
  have h3 : c = c' := by omega
  rw [h1, h2, h3]

theorem sortData_perm (L : List V) : (sortData L).Perm L := List.perm_insertionSort _ L

theorem sortData_sorted (L : List V) : (sortData L).Pairwise VLex := by
  have t : Std.Total (fun a b : V => vle a b = true) := ⟨fun a b => by simpa [vle_iff] using vlex_total a b⟩
  have tr : IsTrans V (fun a b : V => vle a b = true) := ⟨fun a b c h h' => by
    rw [vle_iff] at *; exact vlex_trans h h'⟩
  have := List.pairwise_insertionSort (fun a b : V => vle a b = true) L
  exact this.imp (fun h => (vle_iff _ _).mp h)

theorem sortedXY_of_vlex {L : List V} (h : L.Pairwise VLex) : SortedXY L :=
  h.imp (fun h => by unfold VLex at h; omega)

theorem canon_of_flat {L : List V} (h : L.Pairwise VLex) (f : Flat L) : Canon L := by
  refine ⟨?_, f.1⟩
  have f2 := f.2.1
  clear f
  induction L with
  | nil => exact List.Pairwise.nil
  | cons v L ih =>
    rw [List.pairwise_cons] at h ⊢
    refine ⟨fun w hw => ⟨?_, fun h1 h2 => f2 v (by simp) w (by simp [hw]) h1 h2⟩,
      ih h.2 (fun a ha b hb => f2 a (by simp [ha]) b (by simp [hb]))⟩
    have := h.1 w hw
    unfold VLex at this; omega

theorem vlex_of_canon {L : List V} (h : Canon L) : L.Pairwise VLex := by
  refine h.1.imp ?_
  intro a b hab
  obtain ⟨h1, h2⟩ := hab
  unfold VLex
  by_cases hc : a.x = b.x ∧ a.y = b.y
  · have := h2 hc.1 hc.2; omega
  · omega

theorem canon_same {L : List V} (h : L.Pairwise VLe) : ∀ v ∈ L, ∀ w ∈ L, v.x = w.x → v.y = w.y → v.c = w.c := by
  induction L with
  | nil => simp
  | cons u L ih =>
    rw [List.pairwise_cons] at h
    intro v hv w hw h1 h2
    rcases List.mem_cons.mp hv with e | hv1 <;> rcases List.mem_cons.mp hw with e' | hw1
    · rw [e, e']
    · subst e; exact (h.1 w hw1).2 h1 h2
    · subst e'; exact ((h.1 v hv1).2 h1.symm h2.symm).symm
    · exact ih h.2 v hv1 w hw1 h1 h2

theorem flat_of_canon {L : List V} (h : Canon L) (hc : ∀ a y, coverZ L a y = 0 ∨ coverZ L a y = 1) : Flat L :=
  ⟨h.2, canon_same h.1, fun x y => by rw [cover_eq]; exact hc _ _⟩

theorem flat_perm {L M : List V} (p : L.Perm M) (h : Flat L) : Flat M :=
  ⟨fun v hv => h.1 v (p.mem_iff.mpr hv),
   fun v hv w hw => h.2.1 v (p.mem_iff.mpr hv) w (p.mem_iff.mpr hw),
   fun x y => by rw [cover_eq, ← coverZ_perm p, ← cover_eq]; exact h.2.2 x y⟩

theorem flat_nil : Flat [] := ⟨by simp, by simp, fun _ _ => Or.inl rfl⟩

theorem inRange_perm {a b : Int} {L M : List V} (p : L.Perm M) (h : InRange a b L) : InRange a b M :=
  fun v hv => h v (p.mem_iff.mpr hv)

theorem bounded_of_inRange {a b : Int} {L : List V} (h : InRange a b L) : Bounded b L :=
  fun v hv => ⟨(h v hv).2.1, (h v hv).2.2.2⟩

/-- A vertex of a canonical list sits where the coverage changes. -/
theorem mass_ne_zero {L : List V} (h : Canon L) {v : V} (hv : v ∈ L) : mass L v.x v.y ≠ 0 := by
  have key : ∀ M : List V, (∀ w ∈ M, w.c = 1 ∨ w.c = -1) →
      (∀ w ∈ M, w.x = v.x → w.y = v.y → w.c = v.c) → 0 ≤ v.c * mass M v.x v.y := by
    intro M h1 h2
    induction M with
    | nil => simp [mass]
    | cons w M ih =>
      have i := ih (fun w hw => h1 w (by simp [hw])) (fun w hw => h2 w (by simp [hw]))
      rw [mass_cons]
      split_ifs with hc
      · rw [h2 w (by simp) hc.1 hc.2]
        rcases h.2 v hv with e | e <;> rw [e] at i ⊢ <;> omega
      · simpa using i
  obtain ⟨A, B, rfl⟩ := List.append_of_mem hv
  have hs := canon_same h.1
  have e : mass (A ++ v :: B) v.x v.y = mass A v.x v.y + (v.c + mass B v.x v.y) := by
    simp [mass]
  have k1 := key A (fun w hw => h.2 w (by simp [hw])) (fun w hw h1 h2 => hs w (by simp [hw]) v (by simp) h1 h2)
  have k2 := key B (fun w hw => h.2 w (by simp [hw])) (fun w hw h1 h2 => hs w (by simp [hw]) v (by simp) h1 h2)
  rw [e]
  rcases h.2 v hv with e | e <;> rw [e] at k1 k2 ⊢ <;> omega

/-- The output of a scan lies in the range of its inputs. -/
theorem inRange_out {a b : Int} {L M out : List V} {f : Int → Int → Int} (hc : Canon out)
    (ho : ∀ x y, coverZ out x y = f (coverZ L x y) (coverZ M x y))
    (hL : InRange a b L) (hM : InRange a b M) : InRange a b out := by
  have same : ∀ (N : List V), InRange a b N → ∀ x y,
      ((x < a ∨ b < x) → coverZ N x y = coverZ N (x - 1) y) ∧
      ((y < a ∨ b < y) → coverZ N x y = coverZ N x (y - 1)) := by
    intro N hN x y
    induction N with
    | nil => exact ⟨fun _ => rfl, fun _ => rfl⟩
    | cons v N ih =>
      have := hN v (by simp)
      have i := ih (fun w hw => hN w (by simp [hw]))
      simp only [coverZ_cons]
      constructor
      · intro h; rw [i.1 h]; congr 1; split_ifs <;> omega
      · intro h; rw [i.2 h]; congr 1; split_ifs <;> omega
  intro v hv
  have hm := mass_ne_zero hc hv
  rw [mass_eq_cover, ho, ho, ho, ho] at hm
  by_contra hcon
  by_cases hx : v.x < a ∨ b < v.x
  · rw [(same L hL v.x v.y).1 hx, (same M hM v.x v.y).1 hx, (same L hL v.x (v.y - 1)).1 hx,
      (same M hM v.x (v.y - 1)).1 hx] at hm
    omega
  · have hy : v.y < a ∨ b < v.y := by omega
    rw [(same L hL v.x v.y).2 hy, (same M hM v.x v.y).2 hy, (same L hL (v.x - 1) v.y).2 hy,
      (same M hM (v.x - 1) v.y).2 hy] at hm
    omega

/-! ### depth of the operations -/

theorem depth_def (s : PSet) (p : ℚ × ℚ) :
    depth s p = if s.orient = VERTICAL then coverZ s.data ⌊p.1⌋ ⌊p.2⌋ else coverZ s.data ⌊p.2⌋ ⌊p.1⌋ := by
  unfold depth; split_ifs <;> rw [cover_eq]

theorem foldl_insertVertex (input : List V) (s : PSet) (o : Nat) :
    input.foldl (fun s v => s.insertVertex v false o) s =
      { s with data := s.data ++ (if o = s.orient then input else input.map swapV),
               dirty := if input = [] then s.dirty else true,
               unsorted := if input = [] then s.unsorted else true } := by
  induction input generalizing s with
  | nil => simp
  | cons v L ih =>
    rw [List.foldl_cons, ih]
    simp only [PSet.insertVertex]
    by_cases h : o = s.orient
    · simp [h]
    · simp [h]

theorem insertRange_eq (s : PSet) (L : List V) (o : Nat) (h : L ≠ []) :
    s.insertRange L o = ⟨s.orient, s.data ++ (if o = s.orient then L else L.map swapV), true, true⟩ := by
  rw [PSet.insertRange, if_neg h]
  by_cases ho : o = s.orient
  · simp [ho]
  · simp only [ho, if_false]
    rw [foldl_insertVertex]
    simp [ho]

theorem insertIter_eq (s : PSet) (L : List V) (o : Nat) (h : L ≠ []) :
    s.insertIter L o = ⟨s.orient, s.data ++ (if o = s.orient then L else L.map swapV), true, true⟩ := by
  rw [PSet.insertIter, if_neg h, foldl_insertVertex]
  simp

theorem cover_append (L M : List V) (x y : ℚ) : cover (L ++ M) x y = cover L x y + cover M x y := by
  simp [cover]

theorem sort_facts (s : PSet) : s.sort.orient = s.orient ∧ s.sort.dirty = s.dirty ∧ s.sort.unsorted = false ∧
    s.sort.data.Perm s.data := by
  unfold PSet.sort
  split_ifs with h
  · exact ⟨rfl, rfl, rfl, sortData_perm _⟩
  · exact ⟨rfl, rfl, by simpa using h, List.Perm.refl _⟩

theorem depth_perm {s t : PSet} (ho : s.orient = t.orient) (hp : s.data.Perm t.data) (p : ℚ × ℚ) :
    depth s p = depth t p := by
  rw [depth_def, depth_def, ho]
  split_ifs <;> exact coverZ_perm hp _ _

theorem sort_depth (s : PSet) (p : ℚ × ℚ) : depth s.sort p = depth s p :=
  depth_perm (sort_facts s).1 (sort_facts s).2.2.2 p

section
variable {umin umax : Int}

theorem _root_.Verif.Spec.Valid.sort {s : PSet} (h : Valid umin umax s) : Valid umin umax s.sort := by
  obtain ⟨h1, h2, h3, h4⟩ := sort_facts s
  refine ⟨by rw [h1]; exact h.orient, fun _ => ?_, fun hd => flat_perm h4.symm (h.clean (by rw [← h2]; exact hd)),
    closed_perm h4.symm h.closed, inRange_perm h4.symm h.range⟩
  unfold PSet.sort
  split_ifs with hu
  · exact sortData_sorted _
  · exact h.sorted (by simpa using hu)

theorem _root_.Verif.Spec.Valid.sortedData {s : PSet} (h : Valid umin umax s) : SortedXY s.sort.data :=
  sortedXY_of_vlex (h.sort.sorted (sort_facts s).2.2.1)

theorem ind_cases (b : Bool) : ind b = 0 ∨ ind b = 1 := by cases b <;> simp [ind]

/-- Applying a one-operand scan to a valid set. -/
theorem scan1 {s : PSet} (h : Valid umin umax s) (pos : Int → Bool) (hp : pos 0 = false) :
    ∃ d, applyBooleanOr pos umax s.sort.data = some d ∧ Canon d ∧
      (∀ a y, coverZ d a y = ind (pos (coverZ s.data a y))) ∧
      Valid umin umax ⟨s.orient, d, false, false⟩ := by
  obtain ⟨d, e, hc, hd⟩ := applyBooleanOr_spec pos hp umax s.sort.data h.sortedData ((closed_iff _).mp h.sort.closed).1
  have hd' : ∀ a y, coverZ d a y = ind (pos (coverZ s.data a y)) := fun a y => by
    rw [hd, coverZ_perm (sort_facts s).2.2.2]
  refine ⟨d, e, hc, hd', ⟨h.orient, fun _ => vlex_of_canon hc, fun _ => flat_of_canon hc (fun a y => ?_), ?_, ?_⟩⟩
  · rw [hd']; exact ind_cases _
  · apply closed_of_cover
    · obtain ⟨x0, hx⟩ := cover_right h.closed
      exact ⟨x0, fun a y ha => by rw [hd', hx a y ha, hp]; rfl⟩
    · obtain ⟨x0, hx⟩ := cover_top h.closed
      exact ⟨x0, fun a y ha => by rw [hd', hx a y ha, hp]; rfl⟩
  · exact inRange_out (f := fun u _ => ind (pos u)) hc hd' h.range h.range

theorem clean_spec {s : PSet} (h : Valid umin umax s) :
    ∃ t, s.clean umax = some t ∧ t.orient = s.orient ∧ t.dirty = false ∧ t.unsorted = false ∧
      Canon t.data ∧ Valid umin umax t ∧
      (∀ a y, coverZ t.data a y = ind (decide (0 < coverZ s.data a y))) := by
  obtain ⟨f1, f2, f3, f4⟩ := sort_facts s
  by_cases hd : s.dirty = true
  · obtain ⟨d, e, hc, hd', hv⟩ := scan1 h posInt rfl
    refine ⟨⟨s.orient, d, false, false⟩, ?_, rfl, rfl, rfl, hc, hv, hd'⟩
    simp only [PSet.clean, f2, hd, if_true, e]
    simp [f1, f3]
  · have hd0 : s.dirty = false := by simpa using hd
    have hfl := h.sort.clean (by rw [f2, hd0])
    refine ⟨s.sort, by simp [PSet.clean, f2, hd0], f1, by rw [f2, hd0], f3,
      canon_of_flat (h.sort.sorted f3) hfl, h.sort, fun a y => ?_⟩
    have h01 := hfl.2.2 a y
    rw [cover_int] at h01
    rw [← coverZ_perm f4]
    rcases h01 with e | e <;> rw [e] <;> rfl

end

end Verif.Set90
