import Verif.Proofs.FormCover
import Verif.Proofs.FormThree
/-!
# The polygons formed are proper
-/
namespace Verif.ArbForm
open Verif.Arb Verif.Contains Verif.Spec Verif.Spec.Arb

theorem solidLeft_or (e : V) : solidLeft e = e.1 ∨ solidLeft e = e.1.swap := by
  unfold solidLeft
  split_ifs
  exacts [Or.inr rfl, Or.inl rfl, Or.inl rfl, Or.inr rfl]

theorem solid_nodup {D : List V} (hd : ∀ e ∈ D, Arb.Directed e.1) (hn : (D.map Prod.fst).Nodup) : (D.map solidLeft).Nodup := by
  refine List.Nodup.map_on (fun a ha b hb hab => ?_) (List.Nodup.of_map _ hn)
  have ha' := hd a ha
  have hb' := hd b hb
  apply List.inj_on_of_nodup_map hn ha hb
  unfold Arb.Directed at ha' hb'
  rcases solidLeft_or a with g | g <;> rcases solidLeft_or b with g' | g' <;> rw [hab] at g
  · rw [← g, g']
  · exfalso; rw [← g, g'] at ha'; simp only [Prod.fst_swap, Prod.snd_swap] at ha'; omega
  · exfalso; rw [g'] at g; rw [g] at hb'; simp only [Prod.fst_swap, Prod.snd_swap] at hb'; omega
  · exact Prod.swap_injective (g.symm.trans g')

theorem form_proper {D : List V} (c : Clean D) (hd : ∀ e ∈ D, Arb.Directed e.1) (hP : Planar (D.map Prod.fst)) {out : List Poly} (ho : form D = some out) :
    ∀ P ∈ out, Proper P.outer P.holes := by
  obtain ⟨out', h1, h2, h3⟩ := form_spec c
  rw [ho] at h1
  obtain rfl := Option.some_inj.1 h1
  intro P hPo
  have hg := form_good c ho P hPo
  obtain ⟨r1, r2⟩ := h3 P hPo
  have w1 : ∀ q, windAt P.outer q = lw (crossing q) P.outer := fun q => windAt_sides r1 q
  have w2 : ∀ h ∈ P.holes, ∀ q, windAt h q = lw (crossing q) h := fun h hh q => windAt_sides (r2 h hh) q
  have hl : ∀ l ∈ P.outer :: P.holes, Ring l ∧ sides l ⊆ Poly.sides P ∧ (sides l).Sublist (Poly.sides P) := by
    intro l hl
    have hs : (sides l).Sublist (Poly.sides P) := by
      rcases List.mem_cons.1 hl with rfl | hl
      · exact List.sublist_append_left _ _
      · refine List.Sublist.trans ?_ (List.sublist_append_right _ _)
        obtain ⟨A, B, e⟩ := List.append_of_mem hl
        rw [e, List.flatMap_append, List.flatMap_cons]
        exact (List.sublist_append_left _ _).trans (List.sublist_append_right _ _)
    refine ⟨?_, hs.subset, hs⟩
    rcases List.mem_cons.1 hl with rfl | hl
    · exact r1
    · exact r2 l hl
  have hnd : (out.flatMap Poly.sides).Nodup := h2.nodup_iff.2 (solid_nodup hd c.nd)
  refine ⟨fun q => by rw [w1]; exact (hg q).1, fun h hh q => by rw [w2 h hh]; exact (hg q).2.1 h hh, fun q => ?_, fun l hm => ?_⟩
  · have e : P.holes.map (fun h => windAt h q) = P.holes.map (lw (crossing q)) := List.map_congr_left (fun h hh => w2 h hh q)
    rw [e, w1]
    have g0 : (P.holes.map (lw (crossing q))).sum ≤ 0 := by
      have := (hg q).2.1
      generalize P.holes = L at this
      induction L with
      | nil => simp
      | cons a r ih =>
        have a1 := this a (by simp)
        have a2 := ih (fun h hh => this h (by simp [hh]))
        rw [List.map_cons, List.sum_cons]
        omega
    have g1 := (hg q).1
    have g2 := (hg q).2.2
    omega
  · obtain ⟨k1, k2, k3⟩ := hl l hm
    refine ring_wind hd c.nd hP c.unit k1 (fun e he => h2.mem_iff.1 (List.mem_flatMap.2 ⟨P, hPo, k2 he⟩)) ?_
    exact k3.nodup ((List.nodup_flatMap.1 hnd).1 P hPo)

/-- How a proper polygon winds around a point tells whether the point is inside. -/
theorem proper_cover {o : List Pt} {hs : List (List Pt)} (h : Proper o hs) (q : ℚ × ℚ) : (windAt o q + (hs.map (fun h => windAt h q)).sum = 1 ↔ Inside o hs q) := by
  have key : ∀ L : List (List Pt), (∀ h ∈ L, windAt h q = 0 ∨ windAt h q = -1) → (L.map (fun h => windAt h q)).sum ≤ 0 ∧ ((L.map (fun h => windAt h q)).sum = 0 → ∀ h ∈ L, windAt h q = 0) := by
    intro L
    induction L with
    | nil => simp
    | cons a r ih =>
      intro hL
      obtain ⟨i1, i2⟩ := ih (fun h hh => hL h (by simp [hh]))
      have a1 := hL a (by simp)
      rw [List.map_cons, List.sum_cons]
      refine ⟨by omega, fun e h hh => ?_⟩
      rcases List.mem_cons.1 hh with rfl | hh
      · omega
      · exact i2 (by omega) h hh
  obtain ⟨k1, k2⟩ := key hs (fun x hx => h.cw x hx q)
  have g := h.ccw q
  constructor
  · intro e
    exact ⟨by omega, k2 (by omega)⟩
  · rintro ⟨e1, e2⟩
    rw [e1, List.map_congr_left (g := fun _ => (0 : Int)) e2]
    simp

open Classical in
/-- The windings of all outlines count the polygons that contain the point. -/
theorem inside_count {out : List Poly} (h : ∀ P ∈ out, Proper P.outer P.holes) (q : ℚ × ℚ) :
    (out.map (fun P => windAt P.outer q + (P.holes.map (fun h => windAt h q)).sum)).sum = ((out.filter (fun P => decide (Inside P.outer P.holes q))).length : Int) := by
  induction out with
  | nil => rfl
  | cons P r ih =>
    have hP := h P (by simp)
    have := proper_cover hP q
    have g := hP.once q
    rw [List.map_cons, List.sum_cons, ih (fun P hP => h P (by simp [hP]))]
    by_cases c : Inside P.outer P.holes q
    · rw [List.filter_cons_of_pos (by simpa using c), List.length_cons, this.2 c]
      push_cast; omega
    · rw [List.filter_cons_of_neg (by simpa using c)]
      have : ¬ (windAt P.outer q + (P.holes.map (fun h => windAt h q)).sum = 1) := fun e => c (this.1 e)
      omega

end Verif.ArbForm
