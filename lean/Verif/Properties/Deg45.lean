import Verif.Proofs.Set45Prog
import Mathlib.Tactic.NormNum
/-!
# C82 – C86: sets of 45-degree polygons

`Spec/Deg45.lean` says how often a set covers a point (`depth`) and what a program that builds sets should give
(`Prog.depth`).
-/
namespace Verif.Properties.Deg45
open Verif.Deg45 Verif.Set45 Verif.BooleanOp Verif.Spec Verif.Spec.Deg45 Verif.Rectangle

variable {umin umax : Int}

/-! ## Samples -/

/-- A triangle minus a square that overlaps it, then cut with a diamond. -/
def exP : Prog := .op (.op (.poly .new [(0, 0), (8, 0), (8, 8)] [] false) 2 (.rect .new ⟨⟨6, 9⟩, ⟨1, 4⟩⟩ false)) 1
  (.poly .new [(4, -2), (10, 4), (4, 10), (-2, 4)] [[(4, 2), (4, 4), (6, 4)]] false)

theorem exP_ok : exP.Ok (-100) 100 := by decide +kernel
theorem exP_even : exP.Even := by decide +kernel

/-! ## C82 -/

/-- C82: whatever polygons with edges at multiples of 45 degrees and rectangles are inserted, as themselves or as holes, and
however the sets are combined with `|=`, `&=`, `-=`, `^=`, inserted in each other, cleaned or intersected with
themselves, the resulting set covers every point of the plane as often as it should. The only other outcome is the exception of the scanline
for crossings off the grid. -/
theorem C82_programs_exact (hu : umin ≤ umax) {p : Prog} (h : p.Ok umin umax) :
    (∃ u, p.run umin umax = .ok u ∧ ∀ q, depth u.data q = p.depth q) ∨ p.run umin umax = .fail .precision := by
  rcases run_spec hu h with ⟨u, e, g⟩ | ⟨e, -⟩
  · exact Or.inl ⟨u, e, g.depth⟩
  · exact Or.inr e

example : ∃ u, exP.run (-100) 100 = .ok u ∧ ∀ q, depth u.data q = exP.depth q := by
  rcases C82_programs_exact (by norm_num) exP_ok with h | h
  · exact h
  · exact absurd h (by decide +kernel)

/-- C82: in terms of regions, for one operation on two sets that represent what the library can build. -/
theorem C82_boolean_regions (o : Fin 4) {s t : S45} (hs : Valid umin umax s) (ht : Valid umin umax t) :
    (∃ u, s.applyBool o umin umax t = .ok u ∧ Valid umin umax u ∧ u.dirty = false ∧ u.unsorted = false ∧
      ∀ q, Covers u q ↔ match o with
        | 0 => Covers s q ∨ Covers t q
        | 1 => Covers s q ∧ Covers t q
        | 2 => Covers s q ∧ ¬ Covers t q
        | 3 => ¬ (Covers s q ↔ Covers t q)) ∨
    (s.applyBool o umin umax t = .fail .precision ∧ ¬ (OnGrid s.data ∧ OnGrid t.data)) := by
  classical
  rcases applyBool_spec (op := o) o.2 hs ht with ⟨u, e, h1, h2, -, h4, -⟩ | ⟨e, -, h2⟩
  · refine Or.inl ⟨u, e, h1, h2.1, h2.2, fun q => ?_⟩
    unfold Deg45.Covers
    rw [h4]
    have : (0 : Int) < (if holds2 (o : Nat) (0 < depth s.data q) (0 < depth t.data q) then 1 else 0) ↔
        holds2 (o : Nat) (0 < depth s.data q) (0 < depth t.data q) := by split_ifs with c <;> simp [c]
    rw [this]
    obtain rfl | rfl | rfl | rfl : o = 0 ∨ o = 1 ∨ o = 2 ∨ o = 3 := by omega
    · simp [holds2]
    · simp [holds2]
    · simp [holds2]
    · simp only [holds2]
      by_cases a : 0 < depth s.data q <;> by_cases b : 0 < depth t.data q <;> simp [a, b]
  · exact Or.inr ⟨e, h2⟩

/-- The sets of C82: a set that a program has built satisfies the hypotheses of the theorems on single operations. -/
theorem C82_programs_valid (hu : umin ≤ umax) {p : Prog} (h : p.Ok umin umax) {u : S45} (e : p.run umin umax = .ok u) :
    Valid umin umax u := by
  rcases run_spec hu h with ⟨v, e', g⟩ | ⟨e', -⟩
  · rw [e] at e'; injection e' with e'; rw [e']; exact g.valid
  · rw [e] at e'; simp at e'

example : Valid (-100) 100 (S45.new.insertPoly [(0, 0), (8, 0), (8, 8)] false) :=
  C82_programs_valid (p := .poly .new [(0, 0), (8, 0), (8, 8)] [] false) (by norm_num) (by decide +kernel) rfl

/-! ## C83 -/

/-- C83: if the coordinates of every inserted polygon that has diagonal edges are even or odd together, no program ever meets the
exception: every operation succeeds and is exact. -/
theorem C83_even_never_throws (hu : umin ≤ umax) {p : Prog} (h : p.Ok umin umax) (he : p.Even) :
    ∃ u, p.run umin umax = .ok u ∧ ∀ q, depth u.data q = p.depth q := by
  rcases run_spec hu h with ⟨u, e, g⟩ | ⟨-, h'⟩
  · exact ⟨u, e, g.depth⟩
  · exact absurd he h'

example : ∃ u, exP.run (-100) 100 = .ok u ∧ ∀ q, depth u.data q = exP.depth q :=
  C83_even_never_throws (by norm_num) exP_ok exP_even

/-- C83: and the corners of all diagonals of the result are even or odd together again. -/
theorem C83_even_stays (hu : umin ≤ umax) {p : Prog} (h : p.Ok umin umax) (he : p.Even) {u : S45} (e : p.run umin umax = .ok u) :
    ∀ v ∈ u.data, v.2.n ≠ 0 ∨ v.2.p ≠ 0 → (v.1.1 + v.1.2) % 2 = 0 := by
  rcases run_spec hu h with ⟨v, e', g⟩ | ⟨e', -⟩
  · rw [e] at e'; injection e' with e'; rw [e']; exact g.even he
  · rw [e] at e'; simp at e'

/-- Without it the exception is met: two polygons whose diagonals cross in (0.5, 0.5). -/
theorem C83_odd_throws : (Prog.clean (.poly (.poly .new [(0, 0), (3, 3), (3, 0)] [] false) [(0, 1), (0, 2), (2, 0), (1, 0)] [] false)).run (-100) 100 =
    .fail .precision := by decide +kernel

/-- C83: programs with rectilinear objects only never leave the Manhattan code, whatever the parity of the coordinates. -/
theorem C83_rectilinear_stays (hu : umin ≤ umax) {p : Prog} (h : p.Ok umin umax) (hr : p.Rectilinear) :
    ∃ u, p.run umin umax = .ok u ∧ u.manh = true ∧ ∀ q, depth u.data q = p.depth q := by
  rcases run_spec hu h with ⟨u, e, g⟩ | ⟨-, h'⟩
  · exact ⟨u, e, g.manh hr, g.depth⟩
  · exact absurd (even_of_rect hr) h'

example : (Prog.op (.rect .new ⟨⟨0, 3⟩, ⟨0, 5⟩⟩ false) 3 (.poly .new [(1, 1), (4, 1), (4, 2), (1, 2)] [] false)).Rectilinear := by
  refine ⟨trivial, trivial, fun r hr => ?_⟩
  simp only [List.mem_singleton] at hr
  subst hr
  decide +kernel

/-! ## C84 -/

open Verif.Spec.Arb in
/-- C84: inserting a polygon with holes adds its depth, or takes it away if it is inserted as a hole, at every point, whatever
the set holds, in whichever direction the outlines run and however often points are repeated. -/
theorem C84_insert_polygon {s : S45} (hs : Valid umin umax s) (P : List (Int × Int)) (H : List (List (Int × Int))) (isHole : Bool)
    (hp : ∀ r ∈ P :: H, Poly45 r ∧ ∀ p ∈ r, (umin ≤ p.1 ∧ p.1 ≤ umax) ∧ umin ≤ p.2 ∧ p.2 ≤ umax) :
    Valid umin umax (s.insertHoles P H isHole) ∧
    ∀ q, depth (s.insertHoles P H isHole).data q = depth s.data q + (if isHole then -1 else 1) * objDepth P H q :=
  have h := insertHoles_spec hs (pts := P) (holes := H) (fun r hr => ⟨(hp r hr).2, (hp r hr).1⟩) isHole
  ⟨h.1, h.2.2.1⟩

example : ∀ r ∈ [(0, 0), (0, 0), (8, 0), (8, 8), (4, 4), (0, 0)] :: [[(6, 1), (7, 2), (7, 1)]], Poly45 r ∧
    ∀ p ∈ r, ((-100 : Int) ≤ p.1 ∧ p.1 ≤ 100) ∧ -100 ≤ p.2 ∧ p.2 ≤ 100 := by decide +kernel

/-- C84: inserting a rectangle. -/
theorem C84_insert_rectangle {s : S45} (hs : Valid umin umax s) (r : Rect) (isHole : Bool)
    (h1 : umin ≤ r.h.lo ∧ r.h.lo ≤ r.h.hi ∧ r.h.hi ≤ umax) (h2 : umin ≤ r.v.lo ∧ r.v.lo ≤ r.v.hi ∧ r.v.hi ≤ umax) :
    Valid umin umax (s.insertRect r isHole) ∧
    ∀ q : ℚ × ℚ, depth (s.insertRect r isHole).data q = depth s.data q + (if isHole then -1 else 1) *
      (if (r.h.lo : ℚ) ≤ q.1 ∧ q.1 < r.h.hi ∧ (r.v.lo : ℚ) ≤ q.2 ∧ q.2 < r.v.hi then 1 else 0) :=
  have h := insertRect_spec hs (r := r) (by
    intro p hp
    simp [corners4] at hp
    rcases hp with rfl | rfl | rfl | rfl <;> simp only <;> omega) h1.2.1 h2.2.1 isHole
  ⟨h.1, h.2.2.1⟩

/-- C84: inserting a set. -/
theorem C84_insert_set {s t : S45} (hs : Valid umin umax s) (ht : Valid umin umax t) (isHole : Bool) :
    Valid umin umax (s.insertSet t isHole) ∧ (s.insertSet t isHole).err = s.err ++ t.err ∧
    ∀ q, depth (s.insertSet t isHole).data q = depth s.data q + (if isHole then -1 else 1) * depth t.data q :=
  have h := insertSet_spec hs ht isHole
  ⟨h.1, h.2.1, h.2.2.1⟩

/-- C84 is violated for vertices: `insert(vertex, is_hole)` does not look at `is_hole`, because the result of `invert()` is not used. -/
theorem C84_vertex_hole_violated (s : S45) (v : VC) : s.insertVertex v true = s.insertVertex v false := rfl

/-- C84 is violated for `polygon_90_set_data`: inserted as a hole only the horizontal edges are negated. A set that holds a square, from which the
same square is taken in this way, is left with data of no closed polygons. -/
theorem C84_set90_hole_violated :
    let sq := (Set90.PSet.mk0 Isotropy.VERTICAL).insertRect ⟨⟨0, 2⟩, ⟨0, 2⟩⟩ false
    ¬ Closed (S45.new.insert90 sq true).data ∧ Closed (S45.new.insert90 sq false).data := by
  constructor
  · intro h
    have := h.point (0, 0)
    revert this
    decide +kernel
  · have : (S45.new.insert90 ((Set90.PSet.mk0 Isotropy.VERTICAL).insertRect ⟨⟨0, 2⟩, ⟨0, 2⟩⟩ false) false).data =
        [((0, 0), ⟨0, 1, 0, 1⟩), ((0, 2), ⟨0, -1, 0, -1⟩), ((2, 0), ⟨0, -1, 0, -1⟩), ((2, 2), ⟨0, 1, 0, 1⟩)] := by decide +kernel
    rw [this]
    refine ⟨fun p => ?_, fun k => ?_, fun k => ?_, fun k => ?_, fun k => ?_⟩ <;> simp [tot] <;> split_ifs <;> omega

/-- C84 is violated for raw data: `set(value)` keeps the flag for Manhattan data, so a triangle set in this way is cleaned
to nothing. -/
theorem C84_set_data_violated :
    let tri := S45.new.insertPoly [(0, 0), (4, 0), (4, 4)] false
    (S45.new.setData tri.data).clean (-100) 100 = .ok S45.new ∧ 0 < depth (S45.new.setData tri.data).data (3, 1) := by
  refine ⟨by decide +kernel, ?_⟩
  have : (S45.new.insertPoly [(0, 0), (4, 0), (4, 4)] false).data =
      [((4, 0), ⟨0, -1, 0, -1⟩), ((4, 4), ⟨0, 0, 1, 1⟩), ((0, 0), ⟨0, 1, -1, 0⟩)] := by decide +kernel
  show 0 < depth (S45.new.insertPoly [(0, 0), (4, 0), (4, 4)] false).data (3, 1)
  rw [this]
  norm_num [Deg45.depth, ray]

/-! ## C85 -/

/-- C85: cleaning keeps exactly the points of positive depth and makes the depth one there. -/
theorem C85_clean (hu : umin ≤ umax) {s : S45} (hs : Valid umin umax s) :
    (∃ u, s.clean umin umax = .ok u ∧ Valid umin umax u ∧ u.dirty = false ∧ u.unsorted = false ∧
      ∀ q, depth u.data q = if 0 < depth s.data q then 1 else 0) ∨
    (s.clean umin umax = .fail .precision ∧ ¬ OnGrid s.data) := by
  rcases clean_spec hu hs with ⟨u, e, h1, h2, -, h4, -⟩ | ⟨e, -, h2⟩
  · refine Or.inl ⟨u, e, h1, h2.1, h2.2, fun q => ?_⟩
    rw [h4]
    by_cases c : 0 < depth s.data q
    · rw [decide_eq_true c, if_pos c]; rfl
    · rw [decide_eq_false c, if_neg c]; rfl
  · exact Or.inr ⟨e, h2⟩

/-- C85: `self_intersect` keeps the points of depth two and more, in the Manhattan code and in the other. -/
theorem C85_self_intersect (hu : umin ≤ umax) {s : S45} (hs : Valid umin umax s) :
    (∃ u, s.self 1 umin umax = .ok u ∧ Valid umin umax u ∧ ∀ q, depth u.data q = if 1 < depth s.data q then 1 else 0) ∨
    (s.self 1 umin umax = .fail .precision ∧ ¬ OnGrid s.data) := by
  obtain ⟨f1, -⟩ := sort_facts s
  rcases applyUnary_spec (op := 1) (Or.inr (Or.inl rfl)) hu (valid_sort hs) with ⟨u, e, h1, -, -, h4, -⟩ | ⟨e, -, h2⟩
  · refine Or.inl ⟨u, e, h1, fun q => ?_⟩
    rw [h4, depth_perm f1]
    have : (if s.sort.manh = true then test90 1 else logic1 1) (depth s.data q) = decide (1 < depth s.data q) := by
      split_ifs <;> rfl
    rw [this]
    by_cases c : 1 < depth s.data q
    · rw [decide_eq_true c, if_pos c]; rfl
    · rw [decide_eq_false c, if_neg c]; rfl
  · exact Or.inr ⟨e, fun h => h2 (fun v hv => h v (f1.mem_iff.1 hv))⟩

/-- C85: `self_xor` keeps the points of odd depth, if no depth is negative. -/
theorem C85_self_xor_partial (hu : umin ≤ umax) {s : S45} (hs : Valid umin umax s) (h0 : ∀ q, 0 ≤ depth s.data q) :
    (∃ u, s.self 3 umin umax = .ok u ∧ Valid umin umax u ∧ ∀ q, depth u.data q = depth s.data q % 2) ∨
    (s.self 3 umin umax = .fail .precision ∧ ¬ OnGrid s.data) := by
  obtain ⟨f1, -⟩ := sort_facts s
  rcases applyUnary_spec (op := 3) (Or.inr (Or.inr rfl)) hu (valid_sort hs) with ⟨u, e, h1, -, -, h4, -⟩ | ⟨e, -, h2⟩
  · refine Or.inl ⟨u, e, h1, fun q => ?_⟩
    rw [h4, depth_perm f1]
    have hq := h0 q
    have hm : (depth s.data q).tmod 2 = depth s.data q % 2 := Int.tmod_eq_emod_of_nonneg hq
    have hc : depth s.data q % 2 = 0 ∨ depth s.data q % 2 = 1 := by omega
    by_cases cm : s.sort.manh = true
    · rw [if_pos cm]
      show ind (BooleanOp.posUnary (depth s.data q)) = _
      unfold BooleanOp.posUnary
      rw [hm]
      rcases hc with c | c <;> rw [c] <;> rfl
    · rw [if_neg cm]
      show ind (logic1 3 (depth s.data q)) = _
      unfold logic1
      simp only [hm]
      rcases hc with c | c <;> rw [c] <;> rfl
  · exact Or.inr ⟨e, fun h => h2 (fun v hv => h v (f1.mem_iff.1 hv))⟩

example : ∀ q, 0 ≤ depth S45.new.data q := fun _ => le_refl _

/-- A square inserted as a hole. -/
def exNeg : S45 := S45.new.insertRect ⟨⟨0, 2⟩, ⟨0, 2⟩⟩ true

/-- C85 is violated for negative depths: `self_xor` of a square of depth -1 is empty, but with a triangle far away in the same set it is the
square and the triangle. -/
theorem C85_self_xor_violated :
    exNeg.self 3 (-100) 100 = .ok S45.new ∧
    ∃ u, (exNeg.insertPoly [(10, 0), (14, 0), (14, 4)] false).self 3 (-100) 100 = .ok u ∧ depth u.data (1, 1) = 1 ∧ depth u.data (13, 1) = 1 := by
  refine ⟨by decide +kernel, ⟨[], [((0, 0), ⟨0, 1, 0, 1⟩), ((0, 2), ⟨0, -1, 0, -1⟩), ((2, 0), ⟨0, -1, 0, -1⟩), ((2, 2), ⟨0, 1, 0, 1⟩),
    ((10, 0), ⟨0, 1, -1, 0⟩), ((14, 0), ⟨0, -1, 0, -1⟩), ((14, 4), ⟨0, 0, 1, 1⟩)], false, false, false⟩, by decide +kernel, ?_, ?_⟩ <;>
    norm_num [Deg45.depth, ray]

/-! ## C86 -/

/-- C86: sets that compare equal cover the same points. -/
theorem C86_equal_sound (hu : umin ≤ umax) {s t : S45} (hs : Valid umin umax s) (ht : Valid umin umax t)
    (h : s.eq umin umax t = some true) : ∀ q, Covers s q ↔ Covers t q := by
  unfold S45.eq at h
  rcases clean_spec hu hs with ⟨u, e, -, -, -, h4, -⟩ | ⟨e, -⟩
  · rcases clean_spec hu ht with ⟨v, e', -, -, -, h4', -⟩ | ⟨e', -⟩
    · rw [e, e'] at h
      simp only [Option.some.injEq, decide_eq_true_eq] at h
      intro q
      have h1 := h4 q
      have h2 := h4' q
      rw [h, h2] at h1
      unfold Deg45.Covers
      by_cases c : 0 < depth s.data q <;> by_cases c' : 0 < depth t.data q <;> simp [c, c', ind] at h1 ⊢
    · rw [e, e'] at h; simp at h
  · rw [e] at h; simp at h

private theorem covers_clean {s a : S45} (hs : Valid (-100) 100 s) (e : s.clean (-100) 100 = .ok a) (q : ℚ × ℚ) :
    Covers s q ↔ 0 < depth a.data q := by
  rcases clean_spec (by norm_num) hs with ⟨u, e', -, -, -, h4, -⟩ | ⟨e', -⟩
  · rw [e] at e'; injection e' with e'; rw [e', h4]
    unfold Deg45.Covers
    by_cases c : 0 < depth s.data q <;> simp [c, ind]
  · rw [e] at e'; simp at e'

/-- C86: and two sets that cover the same points have, once cleaned, the same weights at every point: the data differs at most
in how the weights of one point are listed. -/
theorem C86_equal_complete_partial (hu : umin ≤ umax) {s t : S45} (hs : Valid umin umax s) (ht : Valid umin umax t)
    (h : ∀ q, Covers s q ↔ Covers t q) {a b : S45} (ha : s.clean umin umax = .ok a) (hb : t.clean umin umax = .ok b) (p : Int × Int) :
    (tot a.data (fun x => decide (x = p)) Quad.n = tot b.data (fun x => decide (x = p)) Quad.n ∧
      tot a.data (fun x => decide (x = p)) Quad.z = tot b.data (fun x => decide (x = p)) Quad.z) ∧
    tot a.data (fun x => decide (x = p)) Quad.p = tot b.data (fun x => decide (x = p)) Quad.p ∧
      tot a.data (fun x => decide (x = p)) Quad.v = tot b.data (fun x => decide (x = p)) Quad.v := by
  rcases clean_spec hu hs with ⟨u, e, h1, -, -, h4, -⟩ | ⟨e, -⟩
  · rcases clean_spec hu ht with ⟨v, e', h1', -, -, h4', -⟩ | ⟨e', -⟩
    · rw [ha] at e; injection e with e; subst e
      rw [hb] at e'; injection e' with e'; subst e'
      refine corners_eq h1.closed h1'.closed (fun q => ?_) p
      rw [h4, h4']
      congr 1
      exact decide_eq_decide.2 (h q)
    · rw [hb] at e'; simp at e'
  · rw [ha] at e; simp at e

/-- Two squares that touch in a corner, as rectangles. -/
def exSq : S45 := (S45.new.insertRect ⟨⟨0, 2⟩, ⟨0, 2⟩⟩ false).insertRect ⟨⟨2, 4⟩, ⟨2, 4⟩⟩ false
/-- The same squares, each as two triangles. -/
def exTri : S45 := [[(0, 0), (2, 0), (2, 2)], [(0, 0), (2, 2), (0, 2)], [(2, 2), (4, 2), (4, 4)], [(2, 2), (4, 4), (2, 4)]].foldl
  (fun s p => s.insertPoly p false) S45.new

theorem exSq_valid : Valid (-100) 100 exSq :=
  C82_programs_valid (p := .rect (.rect .new ⟨⟨0, 2⟩, ⟨0, 2⟩⟩ false) ⟨⟨2, 4⟩, ⟨2, 4⟩⟩ false) (by norm_num) (by decide +kernel) rfl

theorem exTri_valid : Valid (-100) 100 exTri :=
  C82_programs_valid (p := .poly (.poly (.poly (.poly .new [(0, 0), (2, 0), (2, 2)] [] false) [(0, 0), (2, 2), (0, 2)] [] false)
    [(2, 2), (4, 2), (4, 4)] [] false) [(2, 2), (4, 4), (2, 4)] [] false) (by norm_num)
    (by decide +kernel) rfl

/-- C86 is violated in the other direction: the same two squares, once inserted as rectangles and once as triangles, cover the same points but do
not compare equal, because the corner in which they touch is listed twice by the Manhattan code and once by the other. -/
theorem C86_equal_violated : exSq.eq (-100) 100 exTri = some false ∧ ∀ q, Covers exSq q ↔ Covers exTri q := by
  refine ⟨by decide +kernel, fun q => ?_⟩
  have ha : exSq.clean (-100) 100 = .ok ⟨[], [((0, 0), ⟨0, 1, 0, 1⟩), ((0, 2), ⟨0, -1, 0, -1⟩), ((2, 0), ⟨0, -1, 0, -1⟩), ((2, 2), ⟨0, 1, 0, 1⟩),
    ((2, 2), ⟨0, 1, 0, 1⟩), ((2, 4), ⟨0, -1, 0, -1⟩), ((4, 2), ⟨0, -1, 0, -1⟩), ((4, 4), ⟨0, 1, 0, 1⟩)], false, false, true⟩ := by decide +kernel
  have hb : exTri.clean (-100) 100 = .ok ⟨[], [((0, 0), ⟨0, 1, 0, 1⟩), ((0, 2), ⟨0, -1, 0, -1⟩), ((2, 0), ⟨0, -1, 0, -1⟩), ((2, 2), ⟨0, 2, 0, 2⟩),
    ((2, 4), ⟨0, -1, 0, -1⟩), ((4, 2), ⟨0, -1, 0, -1⟩), ((4, 4), ⟨0, 1, 0, 1⟩)], false, false, true⟩ := by decide +kernel
  have k1 : Covers exSq q ↔ _ := covers_clean exSq_valid ha q
  have k2 : Covers exTri q ↔ _ := covers_clean exTri_valid hb q
  rw [k1, k2]
  have two : ∀ (p : Int × Int) (r : Int), ray q p r (2 : Int) = ray q p r 1 + ray q p r 1 := by
    intro p r; unfold ray; split_ifs <;> rfl
  simp only [Deg45.depth, List.map_cons, List.map_nil, List.sum_cons, List.sum_nil, two]
  have zero : ∀ (p : Int × Int) (r : Int), ray q p r (0 : Int) = 0 := by
    intro p r; unfold ray; split_ifs <;> rfl
  simp only [zero]
  constructor <;> intro h <;> linarith

/-- C86 is violated for `empty`, which does not clean the set: a square and the same square as a hole leave no point covered, but the set is not empty. -/
theorem C86_empty_violated :
    let s := (S45.new.insertRect ⟨⟨0, 2⟩, ⟨0, 2⟩⟩ false).insertRect ⟨⟨0, 2⟩, ⟨0, 2⟩⟩ true
    s.empty = false ∧ s.clean (-100) 100 = .ok S45.new ∧ ∀ q, ¬ Covers s q := by
  have hv : Valid (-100) 100 ((S45.new.insertRect ⟨⟨0, 2⟩, ⟨0, 2⟩⟩ false).insertRect ⟨⟨0, 2⟩, ⟨0, 2⟩⟩ true) :=
    C82_programs_valid (p := .rect (.rect .new ⟨⟨0, 2⟩, ⟨0, 2⟩⟩ false) ⟨⟨0, 2⟩, ⟨0, 2⟩⟩ true) (by norm_num) (by decide +kernel) rfl
  have e : ((S45.new.insertRect ⟨⟨0, 2⟩, ⟨0, 2⟩⟩ false).insertRect ⟨⟨0, 2⟩, ⟨0, 2⟩⟩ true).clean (-100) 100 = .ok S45.new := by decide +kernel
  refine ⟨by decide +kernel, e, fun q h => ?_⟩
  have := (covers_clean hv e q).1 h
  exact absurd this (by simp [S45.new, Deg45.depth])

end Verif.Properties.Deg45
