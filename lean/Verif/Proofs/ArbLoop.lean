import Verif.Proofs.ArbHandle
/-! The stops of one column. -/
namespace Verif.Arb
open Verif.Contains (lessPoint lessPoint_iff)
open Verif.Spec Verif.Spec.Arb

variable {β : Type}

/-- The work at a point. -/
theorem point_inv {E : List Ev} (hG : Good E) {op : RF β} {x umax : Int} {sd : SD} (hL : LInv E x sd) {pre : List Ev} {P : List HE} {s : HS β}
    (h : HInv E op x sd pre P s) (hend : ∀ ev ∈ s.evs, ev.1.1 ≠ (x, s.y)) :
    ∃ P', HMid E op x sd pre P' (s.point op umax x sd).shift := by
  have hpost : ∀ e, Has E e → e.1 = (x, s.y) → Has pre e := by
    intro e he hep
    rcases has_split h.split he with g | g
    · exact g
    · obtain ⟨ev, hev, rfl⟩ := List.mem_map.1 g
      exact absurd hep (hend ev hev)
  have hS : ∀ (k : Int) (Q : HE → Prop), (∀ e, Q e → e.1 = (x, s.y)) → S pre k Q = S E k Q := by
    intro k Q hQ
    rw [h.split, S_append, S_zero (E := s.evs), add_zero]
    intro ev hev hc
    exact hend ev hev (hQ _ hc)
  -- the lookup below the point
  obtain ⟨fok, fget, fcur⟩ := findBelow_spec hG (p := (x, s.y)) hL umax s.cur h.cur
  generalize hfb : findBelow umax sd (x, s.y) s.cur = fb at fok fget fcur
  have hsk := skipOn_spec (p := (x, s.y)) hL fb.1 fcur
  have hvbok := mergeMaps_ok h.vbok fok
  have hvb : ∀ k, get (mergeMaps s.vBelow fb.2) k = Rsum E (x, s.y) k := by
    intro k
    rw [mergeMaps_get, h.vb, fget, ← lwr hG, add_comm]
  obtain ⟨a1, a2, a3⟩ := accum_spec hG op (x, s.y) s.els h.els
    (by
      intro a ha
      obtain ⟨g1, g2, g3, g4, g5⟩ := h.elsm a ha
      refine ⟨has_pre h.split g1, g2, g3, g4, fun k => ?_⟩
      rw [g5 k]
      exact hS k _ (fun e he => by rw [he]; exact g3))
    (fun e he hn hep => h.elsall e (hpost e he hep) hn hep) s.els [] (mergeMaps s.vBelow fb.2) rfl hvbok
    (by
      intro k; rw [hvb k]
      apply S_congr; intro ev _; simp)
  set w := (if !s.vBelow.isEmpty then writeOut op s.eBelow fb.2 (mergeMaps s.vBelow fb.2) else []) with hw
  -- the vertical edge that ends here
  set V : List HE := if s.vBelow = [] then [] else [s.eBelow] with hV
  have hwV : w = V.flatMap (NN op E) := by
    rw [hw, hV]
    by_cases hb : s.vBelow = []
    · rw [hb]; simp
    · obtain ⟨g1, g2, g3⟩ := h.vbe hb
      have hemp : (!s.vBelow.isEmpty) = true := by simp [hb]
      rw [if_pos hemp, if_neg hb, List.flatMap_singleton, writeOut_eq op _ fok hvbok]
      unfold NN
      rw [if_pos (by rw [g2, g3]), g3]
      congr 1
      · funext k; exact fget k
      · funext k; exact hvb k
  have hpt : (s.point op umax x sd).shift =
      { s with
        cur := skipOn sd (x, s.y) fb.1
        vBelow := s.vAbove
        vAbove := []
        eBelow := s.eAbove
        els := []
        ins := s.ins ++ (accum op (mergeMaps s.vBelow fb.2) s.els).1
        out := s.out ++ w ++ (accum op (mergeMaps s.vBelow fb.2) s.els).2 } := by
    rw [hw]
    subst hfb
    rfl
  refine ⟨P ++ V ++ s.els.map Prod.fst, ?_⟩
  rw [hpt]
  have memacc : ∀ a ∈ (accum op (mergeMaps s.vBelow fb.2) s.els).1, ∃ b ∈ s.els, b.1 = a.1 := by
    intro a ha
    have : a.1 ∈ s.els.map Prod.fst := by rw [← a1]; exact List.mem_map.2 ⟨a, ha, rfl⟩
    exact List.mem_map.1 this
  have elsnd : (s.els.map Prod.fst).Nodup := by
    unfold List.Nodup
    rw [List.pairwise_map]
    exact h.els.imp (fun hl => lt_ne hl)
  constructor <;> dsimp only
  · exact h.split
  · exact h.first
  · exact h.vert
  · exact h.done
  · intro ev hev
    rcases h.todo ev hev with g | g
    · exact absurd g.symm (hend ev hev)
    · exact g
  · exact hsk
  · exact h.vaok
  · intro k; rw [h.va k]; exact hS k _ (fun e he => he.1)
  · exact h.vae
  · constructor
    · intro a ha
      rcases List.mem_append.1 ha with ha | ha
      · obtain ⟨g1, g2, g3, g4, g5, g6⟩ := h.wrote.insm a ha
        exact ⟨g1, g2, g3, le_of_lt g4, g5, g6⟩
      · obtain ⟨b, hb, hba⟩ := memacc a ha
        obtain ⟨g1, g2, g3, _, _⟩ := h.elsm b hb
        rw [hba] at g1 g2 g3
        exact ⟨has_pre h.split g1, by rw [g3], g2, by rw [g3], (a2 a ha).1, (a2 a ha).2⟩
    · intro e he hn hx hy
      rcases eq_or_lt_of_le hy with g | g
      · have hep : e.1 = (x, s.y) := Prod.ext hx g
        obtain ⟨a, ha, hae⟩ := h.elsall e (hpost e he hep) hn hep
        have : e ∈ (accum op (mergeMaps s.vBelow fb.2) s.els).1.map Prod.fst := by
          rw [a1]; exact List.mem_map.2 ⟨a, ha, hae⟩
        obtain ⟨b, hb, hbe⟩ := List.mem_map.1 this
        exact ⟨b, List.mem_append_right _ hb, hbe⟩
      · obtain ⟨a, ha, hae⟩ := h.wrote.insall e he hn hx g
        exact ⟨a, List.mem_append_left _ ha, hae⟩
    · rw [List.map_append, a1, List.nodup_append]
      refine ⟨h.wrote.insnd, elsnd, ?_⟩
      rintro e he f hf rfl
      obtain ⟨a, ha, hae⟩ := List.mem_map.1 he
      obtain ⟨b, hb, hbe⟩ := List.mem_map.1 hf
      have h1 := (h.wrote.insm a ha).2.2.2.1
      have h2 := (h.elsm b hb).2.2.1
      rw [hae] at h1
      rw [hbe] at h2
      rw [h2] at h1
      dsimp only at h1
      omega
    · rw [h.wrote.outEq, hwV, a3, List.flatMap_append, List.flatMap_append]
    · have hPlow : ∀ e ∈ P, (NV e ∧ e.1.2 < s.y) ∨ (e.1.1 = e.2.1 ∧ e.2.2 < s.y) := fun e he => (h.wrote.mem e he).2.2
      rw [List.nodup_append, List.nodup_append]
      refine ⟨⟨h.wrote.nd, ?_, ?_⟩, elsnd, ?_⟩
      · rw [hV]; split_ifs <;> simp
      · rintro e he f hf rfl
        rw [hV] at hf
        split_ifs at hf with hb
        · simp at hf
        · simp at hf
          obtain ⟨_, g2, g3⟩ := h.vbe hb
          have h3 : e.2 = (x, s.y) := by rw [hf]; exact g3
          have h2 : e.1.1 = x := by rw [hf]; exact g2
          have := hPlow e he
          unfold NV at this
          rw [h3] at this
          dsimp only at this
          omega
      · rintro e he f hf rfl
        obtain ⟨b, hb, hbe⟩ := List.mem_map.1 hf
        obtain ⟨_, k2, k3, _⟩ := h.elsm b hb
        rw [hbe] at k2 k3
        unfold NV at k2
        rcases List.mem_append.1 he with he | he
        · have := hPlow e he
          rw [k3] at this k2
          dsimp only at this k2
          omega
        · rw [hV] at he
          split_ifs at he with hb'
          · simp at he
          · simp at he
            obtain ⟨_, g2, g3⟩ := h.vbe hb'
            rw [← he] at g2 g3
            rw [g3, g2] at k2
            dsimp only at k2
            omega
    · intro e he
      rcases List.mem_append.1 he with he | he
      · rcases List.mem_append.1 he with he | he
        · obtain ⟨g1, g2, g3⟩ := h.wrote.mem e he
          refine ⟨g1, g2, ?_⟩
          rcases g3 with g | g
          · exact Or.inl ⟨g.1, le_of_lt g.2⟩
          · exact Or.inr ⟨g.1, le_of_lt g.2⟩
        · rw [hV] at he
          split_ifs at he with hb'
          · simp at he
          · simp at he
            obtain ⟨g1, g2, g3⟩ := h.vbe hb'
            rw [← he] at g1 g2 g3
            exact ⟨g1, g2, Or.inr ⟨by rw [g2, g3], by rw [g3]⟩⟩
      · obtain ⟨b, hb, hbe⟩ := List.mem_map.1 he
        obtain ⟨k1, k2, k3, _⟩ := h.elsm b hb
        rw [hbe] at k1 k2 k3
        exact ⟨has_pre h.split k1, by rw [k3], Or.inl ⟨k2, by rw [k3]⟩⟩
    · intro e he hx hlow
      rcases hlow with ⟨hn, hy⟩ | ⟨hv, hy⟩
      · rcases eq_or_lt_of_le hy with g | g
        · have hep : e.1 = (x, s.y) := Prod.ext hx g
          obtain ⟨a, ha, hae⟩ := h.elsall e (hpost e he hep) hn hep
          exact Or.inl (List.mem_append_right _ (List.mem_map.2 ⟨a, ha, hae⟩))
        · rcases h.wrote.all e he hx (Or.inl ⟨hn, g⟩) with k | k
          · exact Or.inl (List.mem_append_left _ (List.mem_append_left _ k))
          · exact Or.inr k
      · rcases eq_or_lt_of_le hy with g | g
        · have hep : e.2 = (x, s.y) := Prod.ext (by dsimp only; omega) g
          by_cases hb : s.vBelow = []
          · right
            apply NN_empty hG he hv
            intro k
            rw [← wsum_top hG he hv, hep, ← h.vb k, hb, get_nil]
          · left
            obtain ⟨g1, g2, g3⟩ := h.vbe hb
            have hd1 : e.1.2 < e.2.2 := by rcases hG.dirE he with k | k <;> omega
            have e2 : s.eBelow.2.1 = x := by rw [g3]
            have e3 : s.eBelow.2.2 = s.y := by rw [g3]
            have hd2 : s.eBelow.1.2 < s.eBelow.2.2 := by rcases hG.dirE g1 with k | k <;> omega
            have : e = s.eBelow := vert_eq hG he g1 hv (by omega) (by omega) (by omega) (by omega)
            rw [hV, if_neg hb]
            exact List.mem_append_left _ (List.mem_append_right _ (by rw [this]; simp))
        · rcases h.wrote.all e he hx (Or.inr ⟨hv, g⟩) with k | k
          · exact Or.inl (List.mem_append_left _ (List.mem_append_left _ k))
          · exact Or.inr k

/-- All vertical edges that start at a point are the same edge. -/
theorem vert_start {E : List Ev} (hG : Good E) {e f : HE} (he : Has E e) (hf : Has E f) {x y : Int} (e1 : e.1 = (x, y)) (e2 : e.2.1 = x)
    (f1 : f.1 = (x, y)) (f2 : f.2.1 = x) : e = f := by
  have a1 : e.1.1 = x := by rw [e1]
  have a2 : e.1.2 = y := by rw [e1]
  have b1 : f.1.1 = x := by rw [f1]
  have b2 : f.1.2 = y := by rw [f1]
  have d1 : e.1.2 < e.2.2 := by rcases hG.dirE he with k | k <;> omega
  have d2 : f.1.2 < f.2.2 := by rcases hG.dirE hf with k | k <;> omega
  exact vert_eq hG he hf (by omega) (by omega) (by omega) (by omega) (by omega)

/-- A vertical edge that starts at or below the last stop and ends above it starts there. -/
theorem HMid.vert_from {E : List Ev} (hG : Good E) {op : RF β} {x : Int} {sd : SD} {pre : List Ev} {P : List HE} {s : HS β}
    (h : HMid E op x sd pre P s) {e : HE} (he : Has E e) (e1 : e.1.1 = x) (e2 : e.2.1 = x) (hy : e.1.2 ≤ s.y) (hy2 : s.y < e.2.2) :
    e.1 = (x, s.y) := by
  rcases eq_or_lt_of_le hy with g | g
  · exact Prod.ext e1 g
  · exact (vertex_vert hG h.vert he e1 e2 g hy2).elim

/-- Moving on to the next stop. -/
theorem mid_to {E : List Ev} (hG : Good E) {op : RF β} {x : Int} {sd : SD} {pre : List Ev} {P : List HE} {s : HS β}
    (h : HMid E op x sd pre P s) {y : Int} (hy : s.y < y) (hv : Vertex E (x, y))
    (htodo : ∀ ev ∈ s.evs, (x, y) = ev.1.1 ∨ plt (x, y) ev.1.1)
    (hvb : s.vBelow = [] ∨ s.eBelow.2 = (x, y)) : HInv E op x sd pre P { s with y := y } := by
  -- what starts below the new stop starts at or below the last one
  have hstart : ∀ e, Has E e → e.1.1 = x → e.1.2 < y → e.1.2 ≤ s.y ∧ Has pre e := by
    intro e he hx hlt
    rcases has_split h.split he with g | g
    · refine ⟨?_, g⟩
      obtain ⟨ev, hev, rfl⟩ := List.mem_map.1 g
      rcases h.done ev hev with k | k
      · rcases k with k | k <;> dsimp only at k <;> omega
      · rw [k]
    · exfalso
      obtain ⟨ev, hev, rfl⟩ := List.mem_map.1 g
      rcases htodo ev hev with k | k
      · rw [← k] at hlt; dsimp only at hlt; omega
      · rcases k with k | k <;> dsimp only at k <;> omega
  -- a vertical edge across the gap
  have hgap : ∀ e, Has E e → e.1.1 = x → e.2.1 = x → e.1.2 < y → s.y < e.2.2 → e.1 = (x, s.y) := fun e he e1 e2 e3 e4 =>
    h.vert_from hG he e1 e2 (hstart e he e1 e3).1 e4
  constructor <;> dsimp only
  · exact h.split
  · exact h.first
  · exact hv
  · intro ev hev
    left
    rcases h.done ev hev with k | k
    · rcases k with k | k
      · exact Or.inl k
      · exact Or.inr ⟨k.1, by dsimp only at k ⊢; omega⟩
    · rw [k]; exact Or.inr ⟨rfl, hy⟩
  · exact htodo
  · intro i a hi ha
    exact lt_of_le_of_lt (h.cur i a hi ha) (by exact_mod_cast hy)
  · exact h.vbok
  · intro k
    rw [h.vb k]
    by_cases hex : ∃ e, Has E e ∧ e.1 = (x, s.y) ∧ e.2.1 = x ∧ y ≤ e.2.2
    · obtain ⟨e, he, e1, e2, e3⟩ := hex
      apply S_congr
      intro ev hev
      constructor
      · rintro ⟨g1, g2⟩
        have := vert_start hG (Has.of hev) he g1 g2 e1 e2
        rw [this]
        dsimp only
        rw [e1]
        exact ⟨⟨rfl, e2⟩, hy, e3⟩
      · rintro ⟨⟨g1, g2⟩, g3, g4⟩
        dsimp only at g1 g2 g3 g4
        exact ⟨hgap _ (Has.of hev) g1 g2 g3 (by omega), g2⟩
    · have hz : Wsum E (x, y) k = 0 := by
        apply S_zero
        rintro ev hev ⟨⟨g1, g2⟩, g3, g4⟩
        dsimp only at g1 g2 g3 g4
        exact hex ⟨ev.1, Has.of hev, hgap _ (Has.of hev) g1 g2 g3 (by omega), g2, g4⟩
      rw [hz, ← h.vb k]
      rcases hvb with hvb | hvb
      · rw [hvb, get_nil]
      · by_cases hb : s.vBelow = []
        · rw [hb, get_nil]
        · exfalso
          obtain ⟨g1, g2, g3⟩ := h.vbe hb
          exact hex ⟨_, g1, g2, g3, by rw [hvb]⟩
  · intro hb
    obtain ⟨g1, g2, g3⟩ := h.vbe hb
    exact ⟨g1, by rw [g2], hvb.resolve_left hb⟩
  · rw [h.va]; exact ok_nil
  · intro k
    rw [h.va, get_nil]
    refine (S_zero ?_).symm
    rintro ev hev ⟨hc, _⟩
    rcases h.done ev hev with g | g <;> rw [hc] at g
    · rcases g with g | g <;> dsimp only at g <;> omega
    · simp at g; omega
  · rw [h.va]; simp
  · rw [h.els]; simp
  · rw [h.els]; simp
  · intro e he _ hep
    exfalso
    obtain ⟨ev, hev, rfl⟩ := List.mem_map.1 he
    rcases h.done ev hev with g | g <;> rw [hep] at g
    · rcases g with g | g <;> dsimp only at g <;> omega
    · simp at g; omega
  · have w := h.wrote
    constructor
    · intro a ha
      obtain ⟨g1, g2, g3, g4, g5, g6⟩ := w.insm a ha
      exact ⟨g1, g2, g3, lt_of_le_of_lt g4 hy, g5, g6⟩
    · intro e he hn hx hlt
      exact w.insall e he hn hx (hstart e he hx hlt).1
    · exact w.insnd
    · exact w.outEq
    · exact w.nd
    · intro e he
      obtain ⟨g1, g2, g3⟩ := w.mem e he
      refine ⟨g1, g2, ?_⟩
      rcases g3 with g | g
      · exact Or.inl ⟨g.1, lt_of_le_of_lt g.2 hy⟩
      · exact Or.inr ⟨g.1, lt_of_le_of_lt g.2 hy⟩
    · intro e he hx hlow
      rcases hlow with ⟨hn, hlt⟩ | ⟨hvt, hlt⟩
      · exact w.all e he hx (Or.inl ⟨hn, (hstart e he hx hlt).1⟩)
      · by_cases hle : e.2.2 ≤ s.y
        · exact w.all e he hx (Or.inr ⟨hvt, hle⟩)
        · right
          have de : e.1.2 < e.2.2 := by rcases hG.dirE he with k | k <;> omega
          have e1 := hgap e he hx (by omega) (by omega) (by omega)
          apply NN_empty hG he hvt
          intro k
          have hb : s.vBelow = [] := by
            by_contra hb
            obtain ⟨g1, g2, g3⟩ := h.vbe hb
            have := vert_start hG he g1 e1 (by omega) g2 g3
            rw [this, hvb.resolve_left hb] at hlt
            dsimp only at hlt
            omega
          have := h.vb k
          rw [hb, get_nil] at this
          rw [this]
          apply S_congr
          intro ev hev
          constructor
          · intro hc; rw [hc]; exact ⟨e1, by omega⟩
          · rintro ⟨g1, g2⟩
            exact vert_start hG (Has.of hev) he g1 g2 e1 (by omega)

/-- The finished column. -/
structure HFin (E : List Ev) (op : RF β) (x : Int) (pre : List Ev) (P : List HE) (s : HS β) : Prop where
  split : E = pre ++ s.evs
  done : ∀ ev ∈ pre, ev.1.1.1 ≤ x
  todo : ∀ ev ∈ s.evs, x < ev.1.1.1
  wrote : Wrote E op x (fun _ => True) P s.ins s.out

theorem mid_fin {E : List Ev} (hG : Good E) {op : RF β} {x : Int} {sd : SD} {pre : List Ev} {P : List HE} {s : HS β}
    (h : HMid E op x sd pre P s) (hb : s.vBelow = []) (hcol : ∀ ev ∈ s.evs, x < ev.1.1.1) : HFin E op x pre P s := by
  have hstart : ∀ e, Has E e → e.1.1 = x → e.1.2 ≤ s.y := by
    intro e he hx
    rcases has_split h.split he with g | g
    · obtain ⟨ev, hev, rfl⟩ := List.mem_map.1 g
      rcases h.done ev hev with k | k
      · rcases k with k | k <;> dsimp only at k <;> omega
      · rw [k]
    · exfalso
      obtain ⟨ev, hev, rfl⟩ := List.mem_map.1 g
      have := hcol ev hev
      omega
  have w := h.wrote
  refine ⟨h.split, ?_, hcol, ⟨?_, ?_, w.insnd, w.outEq, w.nd, ?_, ?_⟩⟩
  · intro ev hev
    rcases h.done ev hev with k | k
    · rcases k with k | k <;> dsimp only at k <;> omega
    · rw [k]
  · intro a ha
    obtain ⟨g1, g2, g3, _, g5, g6⟩ := w.insm a ha
    exact ⟨g1, g2, g3, trivial, g5, g6⟩
  · intro e he hn hx _
    exact w.insall e he hn hx (hstart e he hx)
  · intro e he
    obtain ⟨g1, g2, g3⟩ := w.mem e he
    refine ⟨g1, g2, ?_⟩
    rcases g3 with g | g
    · exact Or.inl ⟨g.1, trivial⟩
    · exact Or.inr ⟨g.1, trivial⟩
  · intro e he hx hlow
    rcases hlow with ⟨hn, _⟩ | ⟨hvt, _⟩
    · exact w.all e he hx (Or.inl ⟨hn, hstart e he hx⟩)
    · by_cases hle : e.2.2 ≤ s.y
      · exact w.all e he hx (Or.inr ⟨hvt, hle⟩)
      · right
        have e1 := h.vert_from hG he hx (by omega) (hstart e he hx) (by omega)
        apply NN_empty hG he hvt
        intro k
        have := h.vb k
        rw [hb, get_nil] at this
        rw [this]
        apply S_congr
        intro ev hev
        constructor
        · intro hc; rw [hc]; exact ⟨e1, by omega⟩
        · rintro ⟨g1, g2⟩
          exact vert_start hG (Has.of hev) he g1 g2 e1 (by omega)

/-- Iterations still needed. -/
def mu (s : HS β) : Nat := 2 * s.evs.length + if s.vAbove.isEmpty then 0 else 1

theorem take_mu (s : HS β) (ev : Ev) (r : List Ev) (h : s.evs = ev :: r) : mu (s.take ev r) + 1 ≤ 2 * s.evs.length := by
  have : (s.take ev r).evs = r := by
    unfold HS.take
    split_ifs
    · rfl
    · split
      · split_ifs <;> rfl
      · rfl
  unfold mu
  rw [this, h, List.length_cons]
  split_ifs <;> omega

theorem handle_spec {E : List Ev} (hG : Good E) (hS : Sorted E) {op : RF β} {x umax : Int} {sd : SD} (hL : LInv E x sd) :
    ∀ (n : Nat) (pre : List Ev) (P : List HE) (s : HS β), HInv E op x sd pre P s → mu s < n →
    ∃ s' pre' P', handle op umax x sd n s = some s' ∧ HFin E op x pre' P' s'
  | 0, _, _, _, _, hmu => by omega
  | n + 1, pre, P, s, h, hmu => by
    rw [handle]
    by_cases hat : s.atEnd x = true
    · rw [if_pos hat]
      dsimp only
      have hend : ∀ ev ∈ s.evs, ev.1.1 ≠ (x, s.y) := by
        unfold HS.atEnd at hat
        rcases hev : s.evs with _ | ⟨ev, r⟩
        · simp
        · rw [hev] at hat
          dsimp only at hat
          rw [h.first] at hat
          have hne : ev.1.1 ≠ (x, s.y) := by
            intro hc; rw [hc] at hat; simp at hat
          have hgt : plt (x, s.y) ev.1.1 := (h.todo ev (by rw [hev]; simp)).resolve_left (Ne.symm hne)
          intro e he hc
          rcases List.mem_cons.1 he with rfl | he
          · exact hne hc
          · have hb : Before ev.1 e.1 := by
              have := hS
              unfold Sorted at this
              rw [h.split, hev] at this
              exact (List.pairwise_cons.1 (List.pairwise_append.1 this).2.1).1 e he
            rcases hb with hb | ⟨hb, _⟩
            · rw [hc] at hb; rcases hb with hb | hb <;> rcases hgt with hgt | hgt <;> dsimp only at hb hgt <;> omega
            · exact hne (hb.trans hc)
      obtain ⟨P', hm⟩ := point_inv (umax := umax) hG hL h hend
      have hevs : (s.point op umax x sd).evs = s.evs := rfl
      have hva : (s.point op umax x sd).vAbove = s.vAbove := rfl
      have hsevs : (s.point op umax x sd).shift.evs = s.evs := rfl
      have hvb : (s.point op umax x sd).shift.vBelow = s.vAbove := rfl
      have heb : (s.point op umax x sd).shift.eBelow = s.eAbove := rfl
      have hsy : (s.point op umax x sd).shift.y = s.y := rfl
      rw [hevs, hva]
      by_cases hcol : colEnd x s.evs = true
      · rw [if_pos hcol]
        have hcol' : ∀ ev ∈ s.evs, x < ev.1.1.1 := by
          unfold colEnd at hcol
          rcases hev : s.evs with _ | ⟨ev, r⟩
          · simp
          · rw [hev] at hcol
            have hne : ev.1.1.1 ≠ x := by simpa using hcol
            intro e he
            have hev' : x < ev.1.1.1 := by
              rcases h.todo ev (by rw [hev]; simp) with g | g
              · rw [← g] at hne; simp at hne
              · rcases g with g | g <;> dsimp only at g <;> omega
            rcases List.mem_cons.1 he with rfl | he
            · exact hev'
            · have hb : Before ev.1 e.1 := by
                have := hS
                unfold Sorted at this
                rw [h.split, hev] at this
                exact (List.pairwise_cons.1 (List.pairwise_append.1 this).2.1).1 e he
              rcases hb with hb | ⟨hb, _⟩
              · rcases hb with hb | hb <;> omega
              · rw [← hb]; exact hev'
        by_cases hvv : s.vAbove.isEmpty = true
        · rw [if_pos hvv]
          have hf := mid_fin hG hm (by rw [hvb]; simpa using hvv) hcol'
          exact ⟨_, pre, P', rfl, ⟨hf.split, hf.done, hf.todo, hf.wrote⟩⟩
        · rw [if_neg hvv]
          have hvv' : s.vAbove ≠ [] := by simpa using hvv
          obtain ⟨g1, g2, g3⟩ := h.vae hvv'
          have d : s.eAbove.1.2 < s.eAbove.2.2 := by
            have : s.eAbove.1.1 = x := by rw [g2]
            rcases hG.dirE g1 with k | k <;> omega
          have gy : s.eAbove.1.2 = s.y := by rw [g2]
          have htop : s.eAbove.2 = (x, s.eAbove.2.2) := Prod.ext g3 rfl
          refine handle_spec hG hS hL n pre P' { (s.point op umax x sd).shift with y := s.eAbove.2.2 }
            (mid_to hG hm (by rw [hsy]; omega) ⟨_, g1, Or.inr htop⟩ ?_ (Or.inr (by rw [heb]; exact htop))) ?_
          · intro ev hev
            exact Or.inr (Or.inl (hcol' ev hev))
          · unfold mu at hmu ⊢
            rw [if_neg hvv] at hmu
            have : ({ (s.point op umax x sd).shift with y := s.eAbove.2.2 } : HS β).vAbove = [] := rfl
            rw [this]
            have : ({ (s.point op umax x sd).shift with y := s.eAbove.2.2 } : HS β).evs = s.evs := rfl
            rw [this]
            simp; omega
      · rw [if_neg hcol]
        unfold HS.read
        rw [hsevs]
        rcases hev : s.evs with _ | ⟨ev, r⟩
        · rw [hev] at hcol; simp [colEnd] at hcol
        · rw [hev] at hcol
          have hx : ev.1.1.1 = x := by simpa [colEnd] using hcol
          have hevm : ev ∈ s.evs := by rw [hev]; simp
          have hgt : s.y < ev.1.1.2 := by
            rcases h.todo ev hevm with g | g
            · exact absurd g.symm (hend ev hevm)
            · rcases g with g | g <;> dsimp only at g <;> omega
          have hevE : ev ∈ E := by rw [h.split]; exact List.mem_append_right _ hevm
          have hle : ∀ e ∈ s.evs, ev.1.1 = e.1.1 ∨ plt ev.1.1 e.1.1 := by
            intro e he
            rw [hev] at he
            rcases List.mem_cons.1 he with rfl | he
            · exact Or.inl rfl
            · have hb : Before ev.1 e.1 := by
                have := hS
                unfold Sorted at this
                rw [h.split, hev] at this
                exact (List.pairwise_cons.1 (List.pairwise_append.1 this).2.1).1 e he
              rcases hb with hb | ⟨hb, _⟩
              · exact Or.inr hb
              · exact Or.inl hb
          have hxy : ev.1.1 = (x, ev.1.1.2) := Prod.ext hx rfl
          dsimp only
          rw [hvb, heb]
          by_cases hc : (!s.vAbove.isEmpty && decide (s.eAbove.2.2 < ev.1.1.2)) = true
          · rw [if_pos hc]
            simp only [Bool.and_eq_true, Bool.not_eq_true', decide_eq_true_eq] at hc
            obtain ⟨hc1, hc2⟩ := hc
            have hvv' : s.vAbove ≠ [] := by
              intro hz; rw [hz] at hc1; simp at hc1
            obtain ⟨g1, g2, g3⟩ := h.vae hvv'
            have d : s.eAbove.1.2 < s.eAbove.2.2 := by
              have : s.eAbove.1.1 = x := by rw [g2]
              rcases hG.dirE g1 with k | k <;> omega
            have gy : s.eAbove.1.2 = s.y := by rw [g2]
            have htop : s.eAbove.2 = (x, s.eAbove.2.2) := Prod.ext g3 rfl
            have hI := mid_to hG hm (y := s.eAbove.2.2) (by rw [hsy]; omega) ⟨_, g1, Or.inr htop⟩ (by
              intro e he
              right
              rcases hle e he with k | k
              · rw [← k]; exact Or.inr ⟨hx.symm, hc2⟩
              · rcases k with k | k
                · exact Or.inl (by dsimp only; omega)
                · exact Or.inr (by dsimp only; omega)) (Or.inr (by rw [heb]; exact htop))
            have hf1 : (s.point op umax x sd).shift.first = false := h.first
            rw [hsevs, hf1, hvb, heb, hev] at hI
            refine handle_spec hG hS hL n pre P' _ hI ?_
            unfold mu at hmu ⊢
            rw [if_neg (by rw [hc1]; simp)] at hmu
            have : (s.point op umax x sd).shift.vAbove = [] := rfl
            rw [hev] at hmu
            dsimp only
            rw [this]
            simp at hmu ⊢; omega
          · rw [if_neg hc]
            have hI := mid_to hG hm (y := ev.1.1.2) (by rw [hsy]; exact hgt) ⟨ev.1, Has.of hevE, Or.inl hxy⟩ (by
              intro e he
              rw [← hxy]; exact hle e he) (by
              rw [hvb, heb]
              by_cases hvv' : s.vAbove = []
              · exact Or.inl hvv'
              · right
                obtain ⟨g1, g2, g3⟩ := h.vae hvv'
                have gy : s.eAbove.1.2 = s.y := by rw [g2]
                have hge : ¬ s.eAbove.2.2 < ev.1.1.2 := by
                  intro hlt; apply hc; simp [hvv', hlt]
                refine Prod.ext g3 ?_
                dsimp only
                by_contra hne
                exact vertex_vert hG ⟨ev.1, Has.of hevE, Or.inl rfl⟩ g1 (by rw [g2, hx]) (by omega) (by omega) (by omega))
            have hT := take_inv hG hS hI (ev := ev) (r := r) hev hxy
            have heq : ({ (s.point op umax x sd).shift with y := ev.1.1.2 } : HS β).take ev r = (s.point op umax x sd).shift.take ev r := rfl
            rw [heq] at hT
            refine handle_spec hG hS hL n _ P' _ hT ?_
            have := take_mu (s.point op umax x sd).shift ev r hev
            rw [hsevs] at this
            unfold mu at hmu
            omega
    · rw [if_neg hat]
      unfold HS.read
      unfold HS.atEnd at hat
      rcases hev : s.evs with _ | ⟨ev, r⟩
      · rw [hev] at hat; simp at hat
      · rw [hev] at hat
        dsimp only at hat ⊢
        rw [h.first] at hat
        have hp : ev.1.1 = (x, s.y) := by
          simp at hat; exact Prod.ext hat.2 hat.1
        have hno : ¬ (!s.vBelow.isEmpty && decide (s.eBelow.2.2 < ev.1.1.2)) = true := by
          intro hc
          simp only [Bool.and_eq_true, Bool.not_eq_true', decide_eq_true_eq] at hc
          have hb : s.vBelow ≠ [] := by
            intro hz; rw [hz] at hc; simp at hc
          have := (h.vbe hb).2.2
          rw [this, hp] at hc
          dsimp only at hc
          omega
        rw [if_neg hno]
        refine handle_spec hG hS hL n _ P _ (take_inv hG hS h hev hp) ?_
        have := take_mu s ev r hev
        unfold mu at hmu
        omega

/-- Entering a column. -/
theorem handle_init {E : List Ev} (hG : Good E) (hS : Sorted E) {op : RF β} {umin umax : Int} {sd : SD} {pre r : List Ev} {ev : Ev}
    (hsp : E = pre ++ ev :: r) (hL : LInv E ev.1.1.1 sd) (hpre : ∀ e ∈ pre, e.1.1.1 < ev.1.1.1) :
    ∃ s' pre' P', handle op umax ev.1.1.1 sd (2 * (ev :: r).length + 3) (HS.init umin (ev :: r)) = some s' ∧
      HFin E op ev.1.1.1 pre' P' s' := by
  have hevE : ev ∈ E := by rw [hsp]; simp
  have hle : ∀ e ∈ ev :: r, ev.1.1 = e.1.1 ∨ plt ev.1.1 e.1.1 := by
    intro e he
    rcases List.mem_cons.1 he with rfl | he
    · exact Or.inl rfl
    · have hb : Before ev.1 e.1 := by
        have := hS
        unfold Sorted at this
        rw [hsp] at this
        exact (List.pairwise_cons.1 (List.pairwise_append.1 this).2.1).1 e he
      rcases hb with hb | ⟨hb, _⟩
      · exact Or.inr hb
      · exact Or.inl hb
  have hnone : ∀ e, Has E e → e.1.1 = ev.1.1.1 → ¬ e.1.2 < ev.1.1.2 := by
    intro e he hx hlt
    rcases has_split hsp he with g | g
    · obtain ⟨a, ha, rfl⟩ := List.mem_map.1 g
      have := hpre a ha; omega
    · obtain ⟨a, ha, rfl⟩ := List.mem_map.1 g
      rcases hle a ha with k | k
      · rw [← k] at hlt; omega
      · rcases k with k | k <;> omega
  have h0 : HInv E op ev.1.1.1 sd pre [] { HS.init umin (ev :: r) with y := ev.1.1.2, first := false } := by
    constructor <;> dsimp only [HS.init]
    · exact hsp
    · exact ⟨ev.1, Has.of hevE, Or.inl rfl⟩
    · intro e he; exact Or.inl (Or.inl (hpre e he))
    · exact hle
    · intro i a hi; omega
    · exact ok_nil
    · intro k
      rw [get_nil]
      refine (S_zero ?_).symm
      rintro e he ⟨⟨g1, _⟩, g3, _⟩
      exact hnone _ (Has.of he) g1 g3
    · intro hc; exact absurd rfl hc
    · exact ok_nil
    · intro k
      rw [get_nil]
      refine (S_zero ?_).symm
      rintro e he ⟨g1, _⟩
      have := hpre e he
      rw [g1] at this; dsimp only at this; omega
    · intro hc; exact absurd rfl hc
    · exact List.Pairwise.nil
    · simp
    · intro e he _ hep
      exfalso
      obtain ⟨a, ha, rfl⟩ := List.mem_map.1 he
      have := hpre a ha
      rw [hep] at this; dsimp only at this; omega
    · constructor
      · simp
      · intro e he _ hx hlt; exact absurd hlt (hnone e he hx)
      · simp
      · simp
      · simp
      · simp
      · intro e he hx hlow
        exfalso
        rcases hlow with ⟨_, hlt⟩ | ⟨hv, hlt⟩
        · exact hnone e he hx hlt
        · have : e.1.2 < e.2.2 := by rcases hG.dirE he with k | k <;> omega
          exact hnone e he hx (by omega)
  have h1 := take_inv hG hS h0 (ev := ev) (r := r) rfl rfl
  have hmu := take_mu ({ HS.init umin (ev :: r) with y := ev.1.1.2, first := false } : HS β) ev r rfl
  obtain ⟨s', pre', P', hs, hf⟩ := handle_spec (umax := umax) hG hS hL (2 * (ev :: r).length + 2) _ _ _ h1 (by
    have : ({ HS.init umin (ev :: r) with y := ev.1.1.2, first := false } : HS β).evs = ev :: r := rfl
    rw [this] at hmu
    omega)
  refine ⟨s', pre', P', ?_, hf⟩
  rw [show 2 * (ev :: r).length + 3 = (2 * (ev :: r).length + 2) + 1 from rfl, handle]
  have : (HS.init umin (ev :: r) : HS β).atEnd ev.1.1.1 = false := by simp [HS.atEnd, HS.init]
  rw [this]
  simp only [Bool.false_eq_true, if_false]
  unfold HS.read
  have : (HS.init umin (ev :: r) : HS β).evs = ev :: r := rfl
  rw [this]
  dsimp only
  have : ¬ (!(HS.init umin (ev :: r) : HS β).vBelow.isEmpty && decide ((HS.init umin (ev :: r) : HS β).eBelow.2.2 < ev.1.1.2)) = true := by
    simp [HS.init]
  rw [if_neg this]
  exact hs

end Verif.Arb
