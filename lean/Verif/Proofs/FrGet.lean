import Verif.Proofs.FrCmp
/-!
# The polygons without holes of a set
-/
namespace Verif.ArbForm
open Verif.Arb Verif.Contains Verif.Spec Verif.Spec.Arb

variable {D : List V}

/-- Sides of the subdivision, one of them not vertical, wind around some point. -/
theorem sides_wind (hd : ∀ e ∈ D, Arb.Directed e.1) (hn : (D.map Prod.fst).Nodup) (hP : Planar (D.map Prod.fst)) (hu : ∀ e ∈ D, e.2 = 1 ∨ e.2 = -1)
    {S : List Edge} (hs : ∀ e ∈ S, e ∈ D.map solidLeft) (hnd : S.Nodup) {e : Edge} (he : e ∈ S) (hev : e.1.1 ≠ e.2.1) : ∃ q, (S.map (crossing q)).sum ≠ 0 := by
  obtain ⟨d, d1, d2⟩ := List.mem_map.1 (hs e he)
  have hdl : d.1.1.1 < d.1.2.1 := by
    have := hd d d1
    unfold Arb.Directed at this
    rcases solid_or d with h | h <;> rw [d2] at h <;> rw [h] at this ⊢ <;> (try simp only [Prod.fst_swap, Prod.snd_swap] at this ⊢) <;> omega
  -- the sides over the abscissa
  have hx : ∃ x : ℚ, x = (d.1.1.1 : ℚ) + 1 / 2 := ⟨_, rfl⟩
  obtain ⟨x, hx⟩ := hx
  have hnint : ∀ k : Int, (k : ℚ) ≠ x := by
    intro k hk
    rw [hx] at hk
    have : (2 * k : ℚ) = 2 * d.1.1.1 + 1 := by linarith
    have : 2 * k = 2 * d.1.1.1 + 1 := by exact_mod_cast this
    omega
  have hspan : (d.1.1.1 : ℚ) ≤ x ∧ x < d.1.2.1 := by
    have : (d.1.1.1 : ℚ) + 1 ≤ d.1.2.1 := by exact_mod_cast hdl
    rw [hx]; constructor <;> linarith
  let Q := D.filter (fun c => decide (solidLeft c ∈ S ∧ (c.1.1.1 : ℚ) ≤ x ∧ x < c.1.2.1))
  have hQ : d ∈ Q := List.mem_filter.2 ⟨d1, by simpa using ⟨d2 ▸ he, hspan⟩⟩
  obtain ⟨m, hm, hmin⟩ := exists_min (fun c : V => lineY c.1.1 c.1.2 x) Q (List.ne_nil_of_mem hQ)
  obtain ⟨m1, m2⟩ := List.mem_filter.1 hm
  have m2 : solidLeft m ∈ S ∧ (m.1.1.1 : ℚ) ≤ x ∧ x < m.1.2.1 := by simpa using m2
  refine ⟨(x, lineY m.1.1 m.1.2 x), ?_⟩
  have onL : ∀ c : V, (c.1.1.1 : ℚ) ≤ x → x < c.1.2.1 → OnEdge c.1 (x, lineY c.1.1 c.1.2 x) := by
    intro c h1 h2
    exact Cut.on_lineY (by exact_mod_cast lt_of_le_of_lt h1 h2) h1 h2.le
  rw [sum_single hnd m2.1 (fun b hb hbm => ?_)]
  · rw [crossing_solid (hd m m1) (hu m m1), if_pos ⟨m2.2.1, m2.2.2, le_refl _⟩]
    rcases hu m m1 with h | h <;> rw [h] <;> decide
  · obtain ⟨c, c1, c2⟩ := List.mem_map.1 (hs b hb)
    rw [← c2, crossing_solid (hd c c1) (hu c c1), if_neg]
    rintro ⟨g1, g2, g3⟩
    dsimp only at g1 g2 g3
    have hcQ : c ∈ Q := List.mem_filter.2 ⟨c1, by simpa using ⟨c2 ▸ hb, g1, g2⟩⟩
    have g4 := hmin c hcQ
    have g5 : lineY c.1.1 c.1.2 x = lineY m.1.1 m.1.2 x := le_antisymm g3 g4
    have o1 := onL m m2.2.1 m2.2.2
    have o2 := onL c g1 g2
    rw [g5] at o2
    have := side_eq hn hP m1 c1 o1 o2 (by
      rintro (⟨h, -⟩ | ⟨h, -⟩)
      · exact hnint _ h.symm
      · exact hnint _ h.symm)
    apply hbm
    rw [← c2, this]

/-- There is a point inside the outer outline and outside of the holes. -/
theorem poly_hit (hd : ∀ e ∈ D, Arb.Directed e.1) (hn : (D.map Prod.fst).Nodup) (hP : Planar (D.map Prod.fst)) (hu : ∀ e ∈ D, e.2 = 1 ∨ e.2 = -1)
    {P : Poly} (h1 : Ring P.outer) (h2 : ∀ l ∈ P.holes, Ring l) (hs : ∀ e ∈ Poly.sides P, e ∈ D.map solidLeft) (hnd : (Poly.sides P).Nodup) :
    ∃ q, windAt P.outer q + (P.holes.map (fun l => windAt l q)).sum ≠ 0 := by
  have hr := h1
  obtain ⟨n1, n2⟩ := hr
  obtain ⟨a, ha⟩ : ∃ a, P.outer.head? = some a := by
    cases hl : P.outer with
    | nil => rw [hl] at n1; exact absurd rfl n1
    | cons a r => exact ⟨a, rfl⟩
  have hw := sides_walk P.outer a a ha (by rw [← n2]; exact ha)
  have sub : ∀ e ∈ sides P.outer, e ∈ Poly.sides P := fun e he => List.mem_append_left _ he
  obtain ⟨e, he, hev⟩ := not_vertical hd hn hP hw n1 (fun e he => hs e (sub e he)) (hnd.sublist (List.sublist_append_left _ _))
  obtain ⟨q, hq⟩ := sides_wind hd hn hP hu hs hnd (sub e he) hev
  refine ⟨q, ?_⟩
  have e1 : P.holes.map (fun l => windAt l q) = P.holes.map (fun l => ((sides l).map (crossing q)).sum) := List.map_congr_left (fun l hl => windAt_sides (h2 l hl) q)
  rw [windAt_sides h1, e1]
  unfold Poly.sides at hq
  rw [List.map_append, List.sum_append, sum_flatMap] at hq
  exact hq

end Verif.ArbForm

namespace Verif.Fr
open Verif.Deg45 Verif.Set45 Verif.Spec.Deg45 Verif.N45
open Verif.ArbForm (Poly poly_hit solid_nodup)
open Verif.F45 (PR Oct Oct2 wnd)
open Verif.Spec.Arb (sides Ring solidLeft windAt)

/-- The outlines of regular data when holes are cut open. -/
theorem polys {D : List VC} (h : Regular D) : ∃ out, Frac45.form D = some out ∧
    (∀ l ∈ out, Ring l ∧ 3 ≤ (sides l).length ∧ (∀ e ∈ sides l, Oct2 e.1 e.2) ∧ (∀ q, windAt l q = 0 ∨ windAt l q = 1) ∧ ∃ q, windAt l q = 1) ∧
    ∀ q, (out.map (fun l => windAt l q)).sum = depth D q := by
  obtain ⟨C, out, out', c1, c2, h1, h2, h3⟩ := h.form
  obtain ⟨o, e1, e2, e3⟩ := ArbForm.form_spec c2.clean
  rw [h1] at e1
  obtain rfl := Option.some_inj.1 e1
  obtain ⟨o, i1, i2, i3, i4⟩ := h.polys
  rw [h2] at i1
  obtain rfl := Option.some_inj.1 i1
  obtain ⟨o, t2, f1, f2, f3⟩ := form_fr c2.der c2.clean
  have f1' := N45.form_cmp c1 f1
  rw [h2] at f1'
  obtain rfl := Option.some_inj.1 f1'
  have hn : ((allEdges C).map Prod.fst).Nodup := all_nodup c2.srt
  have hnd : (out.flatMap Poly.sides).Nodup := e2.nodup_iff.2 (solid_nodup c2.directed hn)
  have wr : ∀ P' ∈ out', ∀ q, wnd q P'.outer + (P'.holes.map (wnd q)).sum = windAt P'.outer q + (P'.holes.map (fun l => windAt l q)).sum := by
    intro P' hP' q
    have j1 := (i2 P'.outer (List.mem_flatMap.2 ⟨P', hP', by simp⟩)).1
    have j2 : P'.holes.map (fun l => windAt l q) = P'.holes.map (wnd q) :=
      List.map_congr_left (fun l hl => windAt_wnd (i2 l (List.mem_flatMap.2 ⟨P', hP', by simp [hl]⟩)).1 q)
    rw [j2, windAt_wnd j1]
  have hit : ∀ P' ∈ out', ∃ q, wnd q P'.outer + (P'.holes.map (wnd q)).sum ≠ 0 := by
    intro P' hP'
    obtain ⟨P, hP, r⟩ := rel_mem h3 hP'
    obtain ⟨q, hq⟩ := poly_hit c2.directed hn c2.planar c2.units (e3 P hP).1 (e3 P hP).2
      (fun e he => e2.mem_iff.1 (List.mem_flatMap.2 ⟨P, hP, he⟩)) ((List.nodup_flatMap.1 hnd).1 P hP)
    refine ⟨q, ?_⟩
    have j2 : P.holes.map (fun l => windAt l q) = P.holes.map (wnd q) := List.map_congr_left (fun l hl => windAt_wnd ((e3 P hP).2 l hl) q)
    have j3 : ∀ {A B : List (List (Int × Int))}, List.Forall₂ F45.LR A B → A.map (wnd q) = B.map (wnd q) := by
      intro A B h
      induction h with
      | nil => rfl
      | cons hab _ ih => rw [List.map_cons, List.map_cons, ih, hab.w]
    rw [j2, windAt_wnd (e3 P hP).1, ← r.o.w, ← j3 r.h] at hq
    exact hq
  have each : ∀ t ∈ t2, Ring t.outer ∧ 3 ≤ (sides t.outer).length ∧ (∀ e ∈ sides t.outer, Oct2 e.1 e.2) ∧ (∀ q, windAt t.outer q = 0 ∨ windAt t.outer q = 1) ∧
      ∃ q, windAt t.outer q = 1 := by
    intro t ht
    obtain ⟨P', hP', g1, g2, p, g3, g4⟩ := rel_mem f3 ht
    obtain ⟨q0, hq0⟩ := hit P' hP'
    rw [← g1] at hq0
    obtain ⟨r1, r2⟩ := three_of_wind (g3.trans g4.symm) hq0
    have w : ∀ q, windAt t.outer q = 0 ∨ windAt t.outer q = 1 := by
      intro q
      rw [windAt_wnd r1, g1, wr P' hP']
      exact (i3 P' hP').once q
    refine ⟨r1, r2, (oct_iff _).1 g2, w, q0, ?_⟩
    rcases w q0 with h | h
    · rw [windAt_wnd r1] at h; exact absurd h hq0
    · exact h
  refine ⟨_, form_cmp c1 f2, ?_, fun q => ?_⟩
  · intro l hl
    obtain ⟨t, ht, rfl⟩ := List.mem_map.1 hl
    exact each t ht
  · rw [← i4 q]
    have j1 : (t2.map Poly.outer).map (fun l => windAt l q) = t2.map (fun t => wnd q t.outer) := by
      rw [List.map_map]
      exact List.map_congr_left (fun t ht => windAt_wnd (each t ht).1 q)
    have j2 : ((N45.outlines out').map (fun l => windAt l q)).sum = (out'.map (fun P => wnd q P.outer + (P.holes.map (wnd q)).sum)).sum := by
      unfold N45.outlines
      rw [ArbForm.sum_flatMap]
      congr 1
      apply List.map_congr_left
      intro P hP
      rw [wr P hP, List.map_cons, List.sum_cons]
    rw [j1, j2]
    clear * - f3
    induction f3 with
    | nil => rfl
    | cons hab _ ih => rw [List.map_cons, List.map_cons, List.sum_cons, List.sum_cons, ih, hab.1]

/-- The polygons of a set when holes are cut open. -/
theorem get_spec {umin umax : Int} (hu : umin ≤ umax) {s : S45} (hs : Valid umin umax s) (hf : Fit s) :
    (∃ out, Frac45.get umin umax s = .polys out ∧
      (∀ l ∈ out, Ring l ∧ 3 ≤ (sides l).length ∧ (∀ e ∈ sides l, Oct2 e.1 e.2) ∧ (∀ q, windAt l q = 0 ∨ windAt l q = 1) ∧ ∃ q, windAt l q = 1) ∧
      ∀ q, (out.map (fun l => windAt l q)).sum = if 0 < depth s.data q then 1 else 0) ∨
    (Frac45.get umin umax s = .fail .precision ∧ ¬ OnGrid s.data) := by
  unfold Frac45.get
  rcases clean_spec hu hs with ⟨u, e, h1, h2, h3, h4, h5⟩ | ⟨e, -, h2⟩
  · left
    obtain ⟨out, o1, o2, o3⟩ := polys (clean_regular hu hs hf e)
    rw [e]
    dsimp only
    rw [o1]
    refine ⟨out, rfl, o2, fun q => ?_⟩
    rw [o3, h4]
    by_cases c : 0 < depth s.data q
    · rw [if_pos c, decide_eq_true c]; rfl
    · rw [if_neg c, decide_eq_false c]; rfl
  · right
    rw [e]
    exact ⟨rfl, h2⟩

end Verif.Fr
