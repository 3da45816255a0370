import Verif.Model.Interact
import Verif.Properties.Touch
import Verif.Properties.PolyForm
/-!
# C66: `interact` keeps the polygons that touch another set

`s.interact umax t` is `s.interact(t)`.
-/
namespace Verif.Properties.Interact
open Verif.PolyForm Verif.Spec Verif.Polygon Verif.Set90 Verif.Isotropy Verif.Touch Verif.Interact
open Verif.Proofs.PolyGet Verif.Proofs.PolyData Verif.Properties.Touch

variable {umin umax : Int}

/-- One polygon as a set. -/
def single (o : Nat) (p : Poly) : PSet := (PSet.mk0 o).insertPoly (expand p.outer) false

theorem addPolys_conn (umax : Int) (o : Nat) : ∀ (ps : List Poly) (n : Nat) (d : Data),
    addPolys umax o n d ps = (Conn.insertAll umax ⟨d, n + 1⟩ (ps.map (single o))).map (·.tsd)
  | [], _, _ => rfl
  | p :: r, n, d => by
    rw [addPolys, List.map_cons, Conn.insertAll, Conn.insert, single]
    cases ((PSet.mk0 o).insertPoly (expand p.outer) false).clean umax with
    | none => rfl
    | some t => exact addPolys_conn umax o r (n + 1) _

theorem poly_depth {s : PSet} (hs : s.orient = HORIZONTAL ∨ s.orient = VERTICAL) {o : Nat} {p : Poly} (hp : POk true o p) (q : ℚ × ℚ) :
    depth (s.insertPoly (expand p.outer) false) q = depth s q + |wind (expand p.outer) q| := by
  have hpr := proper hp.lo
  have h := insertAll_depth [(expand p.outer, [])] s hs (by simpa using hpr) q
  simp only [List.map_cons, List.map_nil, List.sum_cons, List.sum_nil, sub_zero, add_zero] at h
  have ho : OnceCCW (expand p.outer) ∨ OnceCW (expand p.outer) := Or.inr (once_outer hp)
  rw [term_abs hpr ho] at h
  rw [← h]
  have : polyHolesVertices (expand p.outer) [] s.orient false = polyVertices (expand p.outer) s.orient false := by
    rw [polyHolesVertices]
    split_ifs with e
    · rw [e]
    · exact absurd rfl ‹_›
    · simp [holesVertices]
  simp only [insertAll, List.foldl_cons, List.foldl_nil, PSet.insertPolyHoles, PSet.insertPoly, this]

theorem poly_orient (s : PSet) {o : Nat} {p : Poly} (hp : POk true o p) : (s.insertPoly (expand p.outer) false).orient = s.orient := by
  rw [Verif.Polygon.insertPoly_eq _ _ _ (proper hp.lo).four]

theorem single_covers {o o' : Nat} (ho : o = HORIZONTAL ∨ o = VERTICAL) {p : Poly} (hp : POk true o' p) (q : ℚ × ℚ) :
    Covers (single o p) q ↔ wind (expand p.outer) q ≠ 0 := by
  unfold Covers single
  rw [poly_depth (s := PSet.mk0 o) ho hp]
  have : depth (PSet.mk0 o) q = 0 := by unfold depth PSet.mk0; split_ifs <;> simp [cover]
  rw [this, zero_add, abs_pos]

theorem keep_covers {o : Nat} (g : Graph) : ∀ (ps : List Poly) (n : Nat) (s : PSet), (s.orient = HORIZONTAL ∨ s.orient = VERTICAL) →
    (∀ p ∈ ps, POk true o p) → ∀ q, 0 ≤ depth s q →
    (keepPolys g n s ps).orient = s.orient ∧
    (0 < depth (keepPolys g n s ps) q ↔ 0 < depth s q ∨ ∃ i p, ps[i]? = some p ∧ (0, n + i + 1) ∈ g ∧ wind (expand p.outer) q ≠ 0)
  | [], _, s, _, _, q, _ => by simp [keepPolys]
  | p :: r, n, s, hs, hp, q, h0 => by
    rw [keepPolys]
    have hr := fun x hx => hp x (List.mem_cons_of_mem _ hx)
    have h1 := hp p (by simp)
    have split : (∃ i p', (p :: r)[i]? = some p' ∧ (0, n + i + 1) ∈ g ∧ wind (expand p'.outer) q ≠ 0) ↔
        ((0, n + 1) ∈ g ∧ wind (expand p.outer) q ≠ 0) ∨ ∃ i p', r[i]? = some p' ∧ (0, n + 1 + i + 1) ∈ g ∧ wind (expand p'.outer) q ≠ 0 := by
      constructor
      · rintro ⟨i, p', e1, e2, e3⟩
        cases i with
        | zero => simp only [List.getElem?_cons_zero, Option.some.injEq] at e1; subst e1; exact Or.inl ⟨e2, e3⟩
        | succ i => rw [List.getElem?_cons_succ] at e1; exact Or.inr ⟨i, p', e1, by rw [show n + 1 + i + 1 = n + (i + 1) + 1 by omega]; exact e2, e3⟩
      · rintro (⟨e2, e3⟩ | ⟨i, p', e1, e2, e3⟩)
        · exact ⟨0, p, rfl, e2, e3⟩
        · exact ⟨i + 1, p', by rw [List.getElem?_cons_succ]; exact e1, by rw [show n + (i + 1) + 1 = n + 1 + i + 1 by omega]; exact e2, e3⟩
    rw [split]
    by_cases hg : (0, n + 1) ∈ g
    · rw [if_pos hg]
      have hd := poly_depth hs h1 q
      have hab := abs_nonneg (wind (expand p.outer) q)
      obtain ⟨ih1, ih2⟩ := keep_covers g r (n + 1) (s.insertPoly (expand p.outer) false) (by rw [poly_orient s h1]; exact hs) hr q (by omega)
      refine ⟨by rw [ih1, poly_orient s h1], ?_⟩
      rw [ih2, hd]
      have : 0 < depth s q + |wind (expand p.outer) q| ↔ 0 < depth s q ∨ wind (expand p.outer) q ≠ 0 := by
        rw [← abs_pos]; omega
      rw [this]
      simp only [hg, true_and]
      rw [or_assoc]
    · rw [if_neg hg]
      obtain ⟨ih1, ih2⟩ := keep_covers g r (n + 1) s hs hr q h0
      refine ⟨ih1, ?_⟩
      rw [ih2]
      simp only [hg, false_and, false_or]

theorem touching_regions {s t : PSet} {A : ℚ × ℚ → Prop} (h : ∀ q, Covers t q ↔ A q) : Touching s t ↔ RegionsTouch A (Covers s) := by
  have : A = Covers t := funext fun q => propext (h q).symm
  subst this
  constructor
  · rintro ⟨q, h1, h2⟩; exact ⟨q, h2, h1⟩
  · rintro ⟨q, h1, h2⟩; exact ⟨q, h2, h1⟩

/-- C66: `s.interact(t)` succeeds and the result covers exactly those of the polygons of `s` that overlap `t`
or touch it, whatever the orientations of the two sets.
Missing: arguments `t` that are marked clean but unsorted, for which the claim is false
(`C66_unsorted_argument_violated`). -/
theorem C66_interact_partial {s t : PSet} (hs : Valid umin umax s) (ht : Valid umin umax t) (hf : t.dirty = true ∨ t.unsorted = false) :
    ∃ ps s' r, s.getPolys true umax = some (ps, s') ∧ s.interact umax t = some r ∧ r.orient = s.orient ∧
      ∀ q, Covers r q ↔ ∃ p ∈ ps.map pts, wind p.1 q ≠ 0 ∧ RegionsTouch (fun q' => wind p.1 q' ≠ 0) (Covers t) := by
  obtain ⟨ps, s', e1, e2, h3, _, h5, _⟩ := get_spec true hs
  obtain ⟨t', et, t1, _, _, _, _, t6⟩ := Verif.Set90.clean_spec ht
  have hc : (if t.dirty then t.clean umax else some t) = some t' := by
    by_cases hd : t.dirty = true
    · rw [if_pos hd, et]
    · rw [if_neg hd]
      have hu : t.unsorted = false := by rcases hf with h | h; exacts [absurd h hd, h]
      rw [← et, PSet.clean, PSet.sort, hu]
      simp [hd]
  have hval : ∀ x ∈ t :: ps.map (single t.orient), Valid umin umax x := by
    intro x hx
    rcases List.mem_cons.1 hx with rfl | hx
    · exact ht
    · obtain ⟨p, hp, rfl⟩ := List.mem_map.1 hx
      have hpr := proper (h3 p hp).lo
      exact Verif.Polygon.insertPoly_valid (mk0_valid _ ht.orient) _ _ hpr.four hpr.alternating (stutter hpr) (expand_range (h5 p hp).1)
  have hor : ∀ x ∈ t :: ps.map (single t.orient), x.orient = t.orient := by
    intro x hx
    rcases List.mem_cons.1 hx with rfl | hx
    · rfl
    · obtain ⟨p, hp, rfl⟩ := List.mem_map.1 hx
      exact poly_orient _ (h3 p hp)
  obtain ⟨c, g, g1, g2, g3⟩ := C44_connectivity_partial _ hval t.orient hor
  rw [Conn.insertAll, Conn.insert, et] at g1
  have g1' : Conn.insertAll umax ⟨populate umax ⟨[], []⟩ t'.data 0, 0 + 1⟩ (ps.map (single t.orient)) = some c := g1
  have ha : addPolys umax t'.orient 0 (populate umax ⟨[], []⟩ t'.data 0) ps = some c.tsd := by
    rw [addPolys_conn, t1, g1']; rfl
  have hclean : s'.orient = s.orient := by
    obtain ⟨u, eu, u1, _⟩ := Verif.Set90.clean_spec hs
    rw [e2] at eu; rw [Option.some_inj.1 eu]; exact u1
  refine ⟨ps, s', { keepPolys g 0 s'.clear ps with dirty := false }, e1, ?_, ?_, fun q => ?_⟩
  · have g2' : touchGo [] .init c.tsd.left c.tsd.right = some g := g2
    by_cases hd : t.dirty = true
    · rw [if_pos hd] at hc
      simp [PSet.interact, hd, hc, e1, ha, g2']
    · rw [if_neg hd] at hc
      have := Option.some_inj.1 hc
      subst this
      simp [PSet.interact, hd, e1, ha, g2']
  · have := (keep_covers (o := s.orient) g ps 0 s'.clear (by rw [PSet.clear, hclean]; exact hs.orient) h3 (0, 0) (by unfold depth PSet.clear; split_ifs <;> simp [cover])).1
    exact this.trans hclean
  · have hz : depth s'.clear q = 0 := by unfold depth PSet.clear; split_ifs <;> simp [cover]
    have := (keep_covers (o := s.orient) g ps 0 s'.clear (by rw [PSet.clear, hclean]; exact hs.orient) h3 q (by omega)).2
    rw [hz] at this
    have hcov : Covers { keepPolys g 0 s'.clear ps with dirty := false } q ↔ 0 < depth (keepPolys g 0 s'.clear ps) q := Iff.rfl
    rw [hcov, this]
    have key : ∀ i p, ps[i]? = some p → ((0, 0 + i + 1) ∈ g ↔ RegionsTouch (fun q' => wind (expand p.outer) q' ≠ 0) (Covers t)) := by
      intro i p hi
      rw [g3]
      have hp := List.mem_of_getElem? hi
      constructor
      · rintro ⟨_, a, b, k1, k2, k3⟩
        simp only [List.getElem?_cons_zero, Option.some.injEq] at k1
        rw [show 0 + i + 1 = i + 1 by omega, List.getElem?_cons_succ, List.getElem?_map, hi] at k2
        simp only [Option.map_some, Option.some.injEq] at k2
        subst k1; subst k2
        exact (touching_regions (single_covers ht.orient (h3 p hp))).1 k3
      · intro k
        refine ⟨by omega, t, single t.orient p, rfl, ?_, (touching_regions (single_covers ht.orient (h3 p hp))).2 k⟩
        rw [show 0 + i + 1 = i + 1 by omega, List.getElem?_cons_succ, List.getElem?_map, hi]; rfl
    constructor
    · rintro (h | ⟨i, p, k1, k2, k3⟩)
      · omega
      · exact ⟨pts p, List.mem_map_of_mem (List.mem_of_getElem? k1), k3, (key i p k1).1 k2⟩
    · rintro ⟨P, hP, k1, k2⟩
      obtain ⟨p, hp, rfl⟩ := List.mem_map.1 hP
      obtain ⟨i, hi⟩ := List.getElem?_of_mem hp
      exact Or.inr ⟨i, p, hi, (key i p hi).2 k2, k1⟩

/-! ### where the claim fails -/

/-- A unit square, as `clean` leaves it. -/
def square : PSet := { rectSet VERTICAL 0 1 0 1 with dirty := false, unsorted := false }

/-- The same mirrored at the x axis: the rows are now stored in the wrong order. -/
def mirrored : PSet := square.transformT ⟨2, (0, 0)⟩

/-- A unit square four units away from `mirrored`. -/
def away : PSet := rectSet VERTICAL 5 6 (-1) 0

theorem square_reach : Reach (-10) 10 square :=
  .clean (s := rectSet VERTICAL 0 1 0 1) (.insertRect _ _ (.new _ (Or.inr rfl)) (by simp [RectIn])) (by decide +kernel)

theorem mirrored_reach : Reach (-10) 10 mirrored := .transform _ square_reach (by decide) (by unfold InRange; decide)

theorem away_reach : Reach (-10) 10 away := .insertRect _ _ (.new _ (Or.inr rfl)) (by simp [RectIn])

/-- C66 fails for an argument that is marked clean but unsorted, which is what mirroring a clean set gives:
`interact` reads its vertices in the wrong order (only dirty arguments are cleaned, and sorting is part of
cleaning). Here the two sets do not touch, and yet the polygon is kept. -/
theorem C66_unsorted_argument_violated : ∃ s t r : PSet, Reach (-10) 10 s ∧ Reach (-10) 10 t ∧ s.interact 10 t = some r ∧
    ¬ RegionsTouch (Covers s) (Covers t) ∧ ∃ q, Covers r q := by
  refine ⟨away, mirrored, ⟨VERTICAL, [⟨5, -1, 1⟩, ⟨5, 0, -1⟩, ⟨6, 0, 1⟩, ⟨6, -1, -1⟩], false, true⟩, away_reach, mirrored_reach, by decide +kernel, ?_, ?_⟩
  · have : ¬ Touching mirrored away := by
      rw [touching_iff]
      rintro ⟨x, y, x', y', k1, k2, k3⟩
      unfold away at k2
      rw [covers_rectSet (Or.inr rfl)] at k2
      rw [covers_cell] at k1
      have e1 : mirrored.orient = VERTICAL := rfl
      have e2 : mirrored.data = [⟨0, 0, -1⟩, ⟨0, -1, 1⟩, ⟨1, 0, 1⟩, ⟨1, -1, -1⟩] := by decide
      rw [e1, e2, if_pos rfl, if_pos rfl] at k1
      simp only [Verif.BooleanOp.coverZ, List.map_cons, List.map_nil, List.sum_cons, List.sum_nil] at k1
      split_ifs at k1 <;> omega
    exact fun h => this ((touching_regions (fun _ => Iff.rfl)).2 h)
  · refine ⟨((5 : Int), (-1 : Int)), ?_⟩
    rw [covers_cell]
    decide

/-- A square with a square hole, as `clean` leaves it. -/
def frame : PSet := ⟨VERTICAL, [⟨0, 0, 1⟩, ⟨0, 3, -1⟩, ⟨1, 1, -1⟩, ⟨1, 2, 1⟩, ⟨2, 1, 1⟩, ⟨2, 2, -1⟩, ⟨3, 0, -1⟩, ⟨3, 3, 1⟩], false, false⟩

theorem frame_reach : Reach (-10) 10 frame :=
  .clean (s := (rectSet VERTICAL 0 3 0 3).insertRect ⟨⟨1, 2⟩, ⟨1, 2⟩⟩ true)
    (.insertRect _ _ (.insertRect _ _ (.new _ (Or.inr rfl)) (by simp [RectIn])) (by simp [RectIn])) (by decide +kernel)

/-- What `interact` leaves of `frame` when the argument touches it. -/
def kept : PSet := ⟨VERTICAL, [⟨0, 0, 1⟩, ⟨0, 3, -1⟩, ⟨2, 3, 1⟩, ⟨2, 2, -1⟩, ⟨1, 2, 1⟩, ⟨1, 1, -1⟩, ⟨2, 1, 1⟩, ⟨2, 3, -1⟩, ⟨3, 3, 1⟩, ⟨3, 0, -1⟩], false, true⟩

/-- The result of `interact` is marked clean without being cleaned. A square with a hole that touches the
argument is kept whole, so the set covers what it covered before; yet `==` says that it differs, because
the vertices of the cut from the hole to the outer boundary have been kept. -/
theorem C66_result_unequal_violated : ∃ s t r : PSet, Reach (-10) 10 s ∧ Reach (-10) 10 t ∧ s.interact 10 t = some r ∧
    (∀ q, Covers r q ↔ Covers s q) ∧ (s.eq 10 r).map (·.1) = some false := by
  refine ⟨frame, square, kept, frame_reach, square_reach, by decide +kernel, fun q => ?_, by decide +kernel⟩
  rw [covers_floor, covers_floor frame, covers_cell, covers_cell]
  have hp : kept.data.Perm (⟨2, 3, 1⟩ :: ⟨2, 3, -1⟩ :: frame.data) := by decide
  have e1 : kept.orient = VERTICAL := rfl
  have e2 : frame.orient = VERTICAL := rfl
  rw [e1, e2, if_pos rfl, if_pos rfl, coverZ_perm hp, Verif.BooleanOp.coverZ_cons, Verif.BooleanOp.coverZ_cons]
  dsimp only
  split_ifs <;> omega

/-- A set and an argument that meet the hypotheses; the argument touches the set. -/
example : Valid (-10) 10 frame ∧ Valid (-10) 10 square ∧ (square.dirty = true ∨ square.unsorted = false) ∧ Touching frame square := by
  refine ⟨Verif.Properties.Set90.C02_reachable_is_valid frame_reach, Verif.Properties.Set90.C02_reachable_is_valid square_reach, Or.inr rfl, ?_⟩
  rw [touching_iff]
  exact ⟨0, 0, 0, 0, by rw [covers_cell]; decide, by rw [covers_cell]; decide, by omega⟩

end Verif.Properties.Interact
