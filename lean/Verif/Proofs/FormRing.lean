import Verif.Proofs.FormScan
import Verif.Proofs.PolySet
/-!
# The outlines: how many sides they have, and how they wind around a point
-/
namespace Verif.ArbForm
open Verif.Arb Verif.Contains Verif.Spec Verif.Spec.Arb

/-- The sides lead from one point to another. -/
def Walk : Pt → List Edge → Pt → Prop
  | a, [], b => a = b
  | a, e :: r, b => e.1 = a ∧ e.1 ≠ e.2 ∧ Walk e.2 r b

theorem sides_walk : ∀ (l : List Pt) (a b : Pt), l.head? = some a → l.getLast? = some b → Walk a (sides l) b
  | [], a, b, h, _ => by simp at h
  | [u], a, b, h1, h2 => by
    simp at h1 h2
    rw [sides_one]
    exact h1.symm.trans h2
  | u :: v :: r, a, b, h1, h2 => by
    have ih := sides_walk (v :: r) v b rfl (by rw [← h2]; simp)
    rw [sides_cons, step]
    have h1 : u = a := by simpa using h1
    subst h1
    by_cases c : u = v
    · rw [if_pos c, c]; exact ih
    · rw [if_neg c]; exact ⟨rfl, c, ih⟩

theorem ring_three {D : List V} (hd : ∀ e ∈ D, Arb.Directed e.1) (hn : (D.map Prod.fst).Nodup) {l : List Pt} (hr : Ring l)
    (hs : ∀ e ∈ sides l, e ∈ D.map solidLeft) : 3 ≤ (sides l).length := by
  obtain ⟨h1, h2⟩ := hr
  have hne : l ≠ [] := by rintro rfl; exact h1 rfl
  obtain ⟨a, ha⟩ : ∃ a, l.head? = some a := by cases l with
    | nil => exact absurd rfl hne
    | cons a r => exact ⟨a, rfl⟩
  have hw := sides_walk l a a ha (by rw [← h2]; exact ha)
  generalize sides l = s at *
  match s, h1, hw, hs with
  | [e], _, hw, _ =>
    obtain ⟨k1, k2, k3⟩ := hw
    exact absurd (k1.trans k3.symm) k2
  | [e, f], _, hw, hs =>
    obtain ⟨k1, k2, k3, k4, k5⟩ := hw
    have k6 : f.2 = e.1 := k5.trans k1.symm
    obtain ⟨d, d1, d2⟩ := List.mem_map.1 (hs e (by simp))
    obtain ⟨d', d1', d2'⟩ := List.mem_map.1 (hs f (by simp))
    have hdd := hd d d1
    have hdd' := hd d' d1'
    have heq : d.1 = d'.1 := by
      have e1 : d.1 = e ∨ d.1 = (e.2, e.1) := by
        rw [← d2]; unfold solidLeft; split_ifs <;> simp
      have e2 : d'.1 = f ∨ d'.1 = (f.2, f.1) := by
        rw [← d2']; unfold solidLeft; split_ifs <;> simp
      have hf : f = (e.2, e.1) := by rw [← k3, ← k6]
      rw [hf] at e2
      unfold Arb.Directed at hdd hdd'
      rcases e1 with e1 | e1 <;> rcases e2 with e2 | e2
      · rw [e1] at hdd; rw [e2] at hdd'; dsimp only at hdd'; exfalso; omega
      · rw [e1, e2]
      · rw [e1, e2]
      · rw [e1] at hdd; rw [e2] at hdd'; dsimp only at hdd hdd'; exfalso; omega
    have hdeq : d = d' := List.inj_on_of_nodup_map hn d1 d1' heq
    rw [← hdeq, d2] at d2'
    rw [d2'] at k2
    rw [d2'] at k3
    exact absurd k3 k2
  | e :: f :: g :: r, _, _, _ => simp

theorem crossing_same (q : ℚ × ℚ) (p : Pt) : crossing q (p, p) = 0 := by
  unfold crossing
  rw [if_neg (by rintro ⟨a, b, _⟩; linarith), if_neg (by rintro ⟨a, b, _⟩; linarith)]

theorem sum_sides (q : ℚ × ℚ) (l : List Edge) : ((l.filter (fun e => decide (e.1 ≠ e.2))).map (crossing q)).sum = (l.map (crossing q)).sum := by
  induction l with
  | nil => rfl
  | cons e r ih =>
    by_cases h : e.1 = e.2
    · rw [List.filter_cons_of_neg (by simpa using h), List.map_cons, List.sum_cons, ih]
      obtain ⟨a, b⟩ := e
      simp only at h
      rw [h, crossing_same]; omega
    · rw [List.filter_cons_of_pos (by simpa using h), List.map_cons, List.sum_cons, ih, List.map_cons, List.sum_cons]

theorem zip_tail (a : Pt) : ∀ (r : List Pt) (u b : Pt), (u :: r).getLast? = some b → (u :: r).zip (r ++ [a]) = (u :: r).zip r ++ [(b, a)]
  | [], u, b, h => by simp at h; simp [h]
  | v :: r, u, b, h => by
    rw [List.cons_append, List.zip_cons_cons, zip_tail a r v b (by rw [← h]; simp), List.zip_cons_cons]
    rfl

theorem windAt_sides {l : List Pt} (hr : Ring l) (q : ℚ × ℚ) : windAt l q = ((sides l).map (crossing q)).sum := by
  obtain ⟨h1, h2⟩ := hr
  unfold windAt edges sides
  rw [sum_sides]
  cases l with
  | nil => exact absurd rfl h1
  | cons a r =>
    rw [List.head?_cons] at h2
    rw [List.rotate_cons_succ, List.rotate_zero, List.tail_cons, zip_tail a r a a h2.symm, List.map_append, List.sum_append]
    simp [crossing_same]

theorem crossing_solid {e : V} (hd : Arb.Directed e.1) (hu : e.2 = 1 ∨ e.2 = -1) (q : ℚ × ℚ) :
    crossing q (solidLeft e) = if PassesBelow e.1 q then e.2 else 0 := by
  unfold solidLeft
  have hs := PolySet.crossing_swap q e.1
  by_cases h : e.1.1.1 = e.1.2.1
  · have h0 : crossing q e.1 = 0 := PolySet.crossing_vert h q
    have h1 : crossing q (e.1.2, e.1.1) = 0 := PolySet.crossing_vert h.symm q
    rw [if_pos h, if_neg (PolySet.not_passes_vert h q)]
    split_ifs
    exacts [h1, h0]
  · have hlt : e.1.1.1 < e.1.2.1 := by rcases hd with g | g <;> omega
    have h0 : crossing q e.1 = if PassesBelow e.1 q then 1 else 0 := PolySet.crossing_lt hlt q
    rw [if_neg h]
    rcases hu with g | g
    · rw [if_pos g, h0, g]
    · rw [if_neg (by omega), show ((e.1.2, e.1.1) : Edge) = e.1.swap from rfl, hs, h0, g]
      split_ifs <;> rfl

theorem sum_flatMap {α β : Type} (f : β → Int) (g : α → List β) (l : List α) : ((l.flatMap g).map f).sum = (l.map (fun a => ((g a).map f).sum)).sum := by
  induction l with
  | nil => rfl
  | cons a r ih => rw [List.flatMap_cons, List.map_append, List.sum_append, ih, List.map_cons, List.sum_cons]

/-- How a polygon with holes winds around a point. -/
theorem poly_wind {P : Poly} (h1 : Ring P.outer) (h2 : ∀ h ∈ P.holes, Ring h) (q : ℚ × ℚ) :
    windAt P.outer q + (P.holes.map (fun h => windAt h q)).sum = (P.sides.map (crossing q)).sum := by
  unfold Poly.sides
  rw [List.map_append, List.sum_append, sum_flatMap, windAt_sides h1]
  congr 1
  rw [List.map_congr_left (fun h hh => windAt_sides (h2 h hh) q)]

theorem form_wind {D : List V} (hd : ∀ e ∈ D, Arb.Directed e.1) (hu : ∀ e ∈ D, e.2 = 1 ∨ e.2 = -1) {out : List Poly}
    (hp : (out.flatMap Poly.sides).Perm (D.map solidLeft)) (hr : ∀ P ∈ out, Ring P.outer ∧ ∀ h ∈ P.holes, Ring h) (q : ℚ × ℚ) :
    (out.map (fun P => windAt P.outer q + (P.holes.map (fun h => windAt h q)).sum)).sum = depth D q := by
  rw [List.map_congr_left (fun P hP => poly_wind (hr P hP).1 (hr P hP).2 q), ← sum_flatMap, (hp.map _).sum_eq, List.map_map]
  unfold Spec.Arb.depth
  rw [List.map_congr_left (fun e he => ?_)]
  exact crossing_solid (hd e he) (hu e he) q

end Verif.ArbForm
