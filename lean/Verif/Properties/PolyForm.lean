import Verif.Proofs.PolyPieces
import Verif.Properties.Set90
/-!
# C61, C62, C63, C64, C65: reading polygons from a Manhattan polygon set

`getPolys false` is `get` into polygons with holes, `getPolys true` is `get` into polygons without.
The vertices of a polygon are those its point iterators give (`pts`), `wind` its winding number.
-/
namespace Verif.Properties.PolyForm
open Verif.PolyForm Verif.Spec Verif.Polygon Verif.Set90 Verif.Isotropy Verif.Proofs.PolyGet Verif.Proofs.PolyData Verif.Proofs.PolyPieces

variable {umin umax : Int}

/-- A square of side 10 with two holes meeting the corner of a third, and an island in one of them. -/
def exH (o : Nat) : PSet :=
  let r := fun (s : PSet) a b c d h => s.insertRect ⟨⟨a, b⟩, ⟨c, d⟩⟩ h
  r (r (r (r (r (PSet.mk0 o) 0 10 0 10 false) 1 5 1 5 true) 5 7 5 7 true) 2 4 2 4 false) 7 9 2 5 true

theorem exH_valid (o : Nat) (ho : o = HORIZONTAL ∨ o = VERTICAL) : Valid (-100) 100 (exH o) :=
  Verif.Properties.Set90.C02_reachable_is_valid
    (.insertRect _ _ (.insertRect _ _ (.insertRect _ _ (.insertRect _ _ (.insertRect _ _ (.new _ ho) (by simp [RectIn])) (by simp [RectIn])) (by simp [RectIn])) (by simp [RectIn])) (by simp [RectIn]))

/-- C61: reading polygons with holes always succeeds. Every boundary is a proper Manhattan boundary in
the range of the coordinate type; outer boundaries run counter-clockwise and holes clockwise, each
around any point at most once; and the winding numbers of all boundaries add up to one on the points
of the set and to zero elsewhere. The set is left as `clean` leaves it. -/
theorem C61_polygons_with_holes {s : PSet} (hs : Valid umin umax s) :
    ∃ ps t, s.getPolys false umax = some (ps, t) ∧ s.clean umax = some t ∧
      (∀ p ∈ ps.map pts, (Proper p.1 ∧ OnceCCW p.1 ∧ PtsIn umin umax p.1) ∧ ∀ h ∈ p.2, Proper h ∧ OnceCW h ∧ PtsIn umin umax h) ∧
      ∀ q, (Covers s q → total (ps.map pts) q = 1) ∧ (¬ Covers s q → total (ps.map pts) q = 0) := by
  obtain ⟨ps, t, h1, h2, h3, h4, h5, _⟩ := get_spec false hs
  refine ⟨ps, t, h1, h2, ?_, fun q => ?_⟩
  · intro p hp
    obtain ⟨c, hc, rfl⟩ := List.mem_map.1 hp
    refine ⟨⟨proper (h3 c hc).lo, once_outer (h3 c hc), expand_range (h5 c hc).1⟩, fun h hh => ?_⟩
    obtain ⟨d, hd, rfl⟩ := List.mem_map.1 hh
    exact ⟨proper ((h3 c hc).lh d hd), once_hole (h3 c hc) d hd, expand_range ((h5 c hc).2 d hd)⟩
  · have := h4 q
    rw [total_pts]
    simp only [sg, Bool.false_eq_true, if_false, one_mul] at this
    unfold Covers
    rw [this]
    exact ⟨fun h => if_pos h, fun h => if_neg h⟩

/-- C62: reading polygons without holes always succeeds. Every polygon is a proper Manhattan boundary
in range running clockwise around any point at most once, no point is in two of the polygons, and the
points in the polygons are exactly the points of the set. -/
theorem C62_polygons_without_holes {s : PSet} (hs : Valid umin umax s) :
    ∃ ps t, s.getPolys true umax = some (ps, t) ∧ s.clean umax = some t ∧
      (∀ p ∈ ps.map pts, p.2 = [] ∧ Proper p.1 ∧ OnceCW p.1 ∧ PtsIn umin umax p.1) ∧
      (∀ q, Covers s q ↔ ∃ p ∈ ps.map pts, wind p.1 q ≠ 0) ∧
      (ps.map pts).Pairwise (fun p p' => ∀ q, wind p.1 q = 0 ∨ wind p'.1 q = 0) := by
  obtain ⟨ps, t, h1, h2, h3, h4, h5, h6⟩ := get_spec true hs
  have hw : ∀ p ∈ ps, ∀ q, sg true * pw p q = if wind (expand p.outer) q = 0 then 0 else 1 := by
    intro p hp q
    rw [pw, (h3 p hp).nh rfl]
    rcases once_outer (h3 p hp) q with e | e <;> rw [e] <;> simp [sg]
  have hsum : ∀ L : List Poly, (∀ p ∈ L, p ∈ ps) → ∀ q, (L.map (fun p => sg true * pw p q)).sum = ((L.filter (fun p => wind (expand p.outer) q ≠ 0)).length : Int) := by
    intro L
    induction L with
    | nil => intro _ q; rfl
    | cons p L ih =>
      intro hL q
      rw [List.map_cons, List.sum_cons, ih (fun x hx => hL x (by simp [hx])) q, hw p (hL p (by simp)), List.filter_cons]
      by_cases e : wind (expand p.outer) q = 0
      · simp [e]
      · simp [e]; omega
  refine ⟨ps, t, h1, h2, ?_, fun q => ?_, ?_⟩
  · intro p hp
    obtain ⟨c, hc, rfl⟩ := List.mem_map.1 hp
    exact ⟨by simp [pts, (h3 c hc).nh rfl], proper (h3 c hc).lo, once_outer (h3 c hc), expand_range (h5 c hc).1⟩
  · have a := h4 q
    rw [hsum ps (fun _ h => h) q] at a
    unfold Covers
    constructor
    · intro h
      rw [if_pos h] at a
      cases hf : ps.filter (fun p => wind (expand p.outer) q ≠ 0) with
      | nil => rw [hf] at a; simp at a
      | cons p L =>
        have : p ∈ ps.filter (fun p => wind (expand p.outer) q ≠ 0) := by rw [hf]; simp
        obtain ⟨p1, p2⟩ := List.mem_filter.1 this
        exact ⟨pts p, List.mem_map_of_mem p1, by simpa [pts] using p2⟩
    · rintro ⟨p, hp, hne⟩
      obtain ⟨c, hc, rfl⟩ := List.mem_map.1 hp
      by_contra h
      rw [if_neg h] at a
      have : c ∈ ps.filter (fun p => wind (expand p.outer) q ≠ 0) := List.mem_filter.2 ⟨hc, by simpa [pts] using hne⟩
      have := List.length_pos_of_mem this
      omega
  · rw [List.pairwise_map]
    have hle : ∀ q, ((ps.filter (fun p => wind (expand p.outer) q ≠ 0)).length : Int) ≤ 1 := by
      intro q
      rw [← hsum ps (fun _ h => h) q, h4 q]; split_ifs <;> omega
    clear h1 h3 h4 h5 h6 hw hsum
    induction ps with
    | nil => exact List.Pairwise.nil
    | cons p L ih =>
      refine List.pairwise_cons.2 ⟨fun p' hp' q => ?_, ih (fun q => ?_)⟩
      · by_contra hc
        push Not at hc
        have := hle q
        rw [List.filter_cons, if_pos (by simpa [pts] using hc.1)] at this
        have h2 : p' ∈ L.filter (fun p => wind (expand p.outer) q ≠ 0) := List.mem_filter.2 ⟨hp', by simpa [pts] using hc.2⟩
        have h3 := List.length_pos_of_mem h2
        simp only [List.length_cons] at this
        omega
      · have := hle q
        rw [List.filter_cons] at this
        split_ifs at this
        · simp only [List.length_cons] at this; omega
        · exact this

/-- C63: the polygons read from a set, inserted into an empty set of the same orientation and cleaned,
give back the cleaned set, vertex for vertex; with and without holes. -/
theorem C63_round_trip (fr : Bool) {s : PSet} (hs : Valid umin umax s) (h0 : umin ≤ 0 ∧ 0 ≤ umax) :
    ∃ ps t, s.getPolys fr umax = some (ps, t) ∧ s.clean umax = some t ∧
      (insertAll (PSet.mk0 s.orient) (ps.map pts)).clean umax = some t := by
  obtain ⟨ps, t, h1, h2, h3, h4, h5, _⟩ := get_spec fr hs
  refine ⟨ps, t, h1, h2, ?_⟩
  have hp : ∀ p ∈ ps.map pts, Proper p.1 ∧ PtsIn umin umax p.1 ∧ ∀ h ∈ p.2, Proper h ∧ PtsIn umin umax h := by
    intro p hp
    obtain ⟨c, hc, rfl⟩ := List.mem_map.1 hp
    refine ⟨proper (h3 c hc).lo, expand_range (h5 c hc).1, fun h hh => ?_⟩
    obtain ⟨d, hd, rfl⟩ := List.mem_map.1 hh
    exact ⟨proper ((h3 c hc).lh d hd), expand_range ((h5 c hc).2 d hd)⟩
  have hm : Valid umin umax (PSet.mk0 s.orient) := mk0_valid s.orient hs.orient
  obtain ⟨v1, v2⟩ := insertAll_valid h0 (ps.map pts) _ hm hp
  obtain ⟨u, e, u1, u2, u3, u4, u5⟩ := Verif.Properties.Set90.clean_spec' v1
  obtain ⟨t', e', w1, w2, w3, w4, w5⟩ := Verif.Properties.Set90.clean_spec' hs
  rw [h2] at e'
  have := Option.some_inj.1 e'
  subst this
  rw [e]
  congr 1
  refine Verif.Properties.Set90.canonical_form u1 w1 u3 u4 w3 w4 (by rw [u2, v2, w2]; rfl) (fun q => ?_)
  rw [u5, w5]
  unfold Covers
  rw [insertAll_depth (ps.map pts) (PSet.mk0 s.orient) hs.orient (fun p hp' => ⟨(hp p hp').1, fun h hh => ((hp p hp').2.2 h hh).1⟩) q, back_depth h3, h4 q]
  have hz : depth (PSet.mk0 s.orient) q = 0 := by simp [depth, PSet.mk0, Verif.Spec.cover]
  rw [hz]
  split_ifs with hd <;> simp [hd]

/-- C64: of the polygons with holes that `get` returns, every hole lies inside the outer boundary it comes
with, the holes of a polygon do not overlap, no point is in two of the polygons, and the points in the
polygons are exactly the points of the set. -/
theorem C64_holes_nest_in_their_polygon {s : PSet} (hs : Valid umin umax s) :
    ∃ ps t, s.getPolys false umax = some (ps, t) ∧
      (∀ p ∈ ps.map pts, (∀ h ∈ p.2, ∀ q, wind h q ≠ 0 → wind p.1 q ≠ 0) ∧ p.2.Pairwise (fun h h' => ∀ q, wind h q = 0 ∨ wind h' q = 0)) ∧
      (∀ q, Covers s q ↔ ∃ p ∈ ps.map pts, InPoly p q) ∧
      (ps.map pts).Pairwise (fun p p' => ∀ q, ¬ (InPoly p q ∧ InPoly p' q)) := by
  obtain ⟨ps, t, h1, _, h3, h4, _, _⟩ := get_spec false hs
  have h4' : ∀ q, (ps.map (fun p => pw p q)).sum = if 0 < depth s q then 1 else 0 := fun q => by
    have := h4 q; simpa only [sg, Bool.false_eq_true, if_false, one_mul] using this
  refine ⟨ps, t, h1, ?_, fun q => ?_, ?_⟩
  · intro p hp
    obtain ⟨c, hc, rfl⟩ := List.mem_map.1 hp
    have hk := h3 c hc
    constructor
    · intro h hh q hne
      obtain ⟨d, hd, rfl⟩ := List.mem_map.1 hh
      have hn := pw_nonneg hk q
      obtain ⟨a, b⟩ := pw_holes hk q
      have := neg_sum_mem (fun c => wind (expand c) q) a d hd
      have := a d hd
      unfold pw at hn
      dsimp only [pts] at *
      omega
    · refine List.pairwise_map.2 (pairwise_forall (fun q => ?_))
      have hn := pw_nonneg hk q
      obtain ⟨a, b⟩ := pw_holes hk q
      refine neg_sum_pair (fun c => wind (expand c) q) a ?_
      unfold pw at hn
      omega
  · have a := h4' q
    unfold Covers
    constructor
    · intro h
      rw [if_pos h] at a
      by_contra hc
      push Not at hc
      rw [List.sum_eq_zero (fun x hx => ?_)] at a
      · omega
      · obtain ⟨c, hc', rfl⟩ := List.mem_map.1 hx
        rw [pw_in (h3 c hc') q, if_neg (hc _ (List.mem_map_of_mem hc'))]
    · rintro ⟨p, hp, hin⟩
      obtain ⟨c, hc, rfl⟩ := List.mem_map.1 hp
      by_contra h
      rw [if_neg h] at a
      have h5 := List.single_le_sum (l := ps.map (fun p => pw p q)) (fun x hx => by
        obtain ⟨d, hd, rfl⟩ := List.mem_map.1 hx
        exact pw_nonneg (h3 d hd) q) _ (List.mem_map_of_mem hc)
      rw [pw_in (h3 c hc) q, if_pos hin] at h5
      omega
  · refine List.pairwise_map.2 (pairwise_forall (R := fun q p p' => ¬ (InPoly (pts p) q ∧ InPoly (pts p') q)) (fun q => ?_))
    have hp : ps.Pairwise (fun a b => pw a q = 0 ∨ pw b q = 0) := pos_sum_pair (fun p => pw p q)
      (fun p hp => by rw [pw_in (h3 p hp) q]; split_ifs <;> simp) (by rw [h4' q]; split_ifs <;> omega)
    refine hp.imp_of_mem (fun {a b} ha hb hab hin => ?_)
    rw [pw_in (h3 a ha) q, pw_in (h3 b hb) q, if_pos hin.1, if_pos hin.2] at hab
    omega

/-- C65: cut the plane into unit cells. Of the polygons with holes that `get` returns, exactly one edge runs
along the side between two cells when one of the cells is in the set and the other is not, and none when
both are or both are not. So polygons never share a stretch of edge, and no boundary uses a stretch twice. -/
theorem C65_every_side_once {s : PSet} (hs : Valid umin umax s) :
    ∃ ps t, s.getPolys false umax = some (ps, t) ∧ ∀ x y,
      ((Covers s (cell x y) ↔ ¬ Covers s (cell x (y - 1))) → (boundaryEdges (ps.map pts)).countP (AlongH x y ·) = 1) ∧
      ((Covers s (cell x y) ↔ Covers s (cell x (y - 1))) → (boundaryEdges (ps.map pts)).countP (AlongH x y ·) = 0) ∧
      ((Covers s (cell x y) ↔ ¬ Covers s (cell (x - 1) y)) → (boundaryEdges (ps.map pts)).countP (AlongV x y ·) = 1) ∧
      ((Covers s (cell x y) ↔ Covers s (cell (x - 1) y)) → (boundaryEdges (ps.map pts)).countP (AlongV x y ·) = 0) := by
  obtain ⟨ps, t, h1, _⟩ := get_spec false hs
  refine ⟨ps, t, h1, fun x y => ?_⟩
  obtain ⟨a, b⟩ := pieces hs h1 x y
  obtain ⟨c1, c2⟩ := bit_cell s x y
  obtain ⟨d1, d2⟩ := bit_cell s x (y - 1)
  obtain ⟨e1, e2⟩ := bit_cell s (x - 1) y
  rw [← c1, ← d1, ← e1]
  have hb : ∀ x y, bit s x y = 0 ∨ bit s x y = 1 := fun x y => by unfold bit; split_ifs <;> simp
  have b1 := hb x y
  have b2 := hb x (y - 1)
  have b3 := hb (x - 1) y
  unfold jump at a b
  refine ⟨fun h => ?_, fun h => ?_, fun h => ?_, fun h => ?_⟩ <;> split_ifs at a b <;> omega

/-- C65: walking along any edge of the polygons with holes that `get` returns, the set is on the left and its
complement on the right. -/
theorem C65_set_on_the_left {s : PSet} (hs : Valid umin umax s) :
    ∃ ps t, s.getPolys false umax = some (ps, t) ∧ ∀ e ∈ boundaryEdges (ps.map pts), ∀ x y,
      (AlongH x y e → if e.1.1 < e.2.1 then Covers s (cell x y) ∧ ¬ Covers s (cell x (y - 1)) else ¬ Covers s (cell x y) ∧ Covers s (cell x (y - 1))) ∧
      (AlongV x y e → if e.1.2 < e.2.2 then Covers s (cell (x - 1) y) ∧ ¬ Covers s (cell x y) else ¬ Covers s (cell (x - 1) y) ∧ Covers s (cell x y)) := by
  obtain ⟨ps, t, h1, _⟩ := get_spec false hs
  refine ⟨ps, t, h1, fun e he x y => ?_⟩
  obtain ⟨hreg, htot⟩ := regular hs h1
  have hle : ∀ x y, (boundaryEdges (ps.map pts)).countP (fun e => decide (AlongH x y e)) ≤ 1 ∧ (boundaryEdges (ps.map pts)).countP (fun e => decide (AlongV x y e)) ≤ 1 := by
    intro x y
    obtain ⟨a, b⟩ := pieces hs h1 x y
    have := jump_le (bit s x y) (bit s x (y - 1))
    have := jump_le (bit s (x - 1) y) (bit s x y)
    omega
  obtain ⟨l1, l2⟩ := left (fun P hP => (hreg.boundary P hP).2.1) (fun x y => (hle x y).1) (fun x y => (hle x y).2) he x y
  have ht : ∀ x y : Int, total (ps.map pts) ((x : ℚ), (y : ℚ)) = bit s x y := fun x y => htot _
  rw [ht, ht] at l1 l2
  obtain ⟨c1, c2⟩ := bit_cell s x y
  obtain ⟨d1, d2⟩ := bit_cell s x (y - 1)
  obtain ⟨e1, e2⟩ := bit_cell s (x - 1) y
  rw [← c1, ← d1, ← e1]
  have hb : ∀ x y, bit s x y = 0 ∨ bit s x y = 1 := fun x y => by unfold bit; split_ifs <;> simp
  have b1 := hb x y
  have b2 := hb x (y - 1)
  have b3 := hb (x - 1) y
  constructor
  · intro ha; have := l1 ha; split_ifs at this ⊢ <;> omega
  · intro ha; have := l2 ha; split_ifs at this ⊢ <;> omega

/-- A square with a hole, read with the hole and without. -/
example : formPolys false VERTICAL 100 [⟨0, 0, 1⟩, ⟨0, 9, -1⟩, ⟨2, 2, -1⟩, ⟨2, 5, 1⟩, ⟨5, 2, 1⟩, ⟨5, 5, -1⟩, ⟨9, 0, -1⟩, ⟨9, 9, 1⟩] =
    some [⟨[0, 0, 9, 9], [[5, 2, 2, 5]]⟩] := by decide +kernel
example : (formPolys true VERTICAL 100 [⟨0, 0, 1⟩, ⟨0, 9, -1⟩, ⟨2, 2, -1⟩, ⟨2, 5, 1⟩, ⟨5, 2, 1⟩, ⟨5, 5, -1⟩, ⟨9, 0, -1⟩, ⟨9, 9, 1⟩]).map (·.length) =
    some 1 := by decide +kernel

end Verif.Properties.PolyForm
