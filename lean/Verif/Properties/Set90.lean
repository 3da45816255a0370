import Verif.Proofs.Set90Extents
import Mathlib.Algebra.Ring.Int.Parity
import Mathlib.Tactic.NormNum
/-!
# C01 – C07, C09 – C12, C15, C46: Manhattan polygon sets

The statements use `Spec/Cover.lean` and `Spec/Region.lean` only: `depth s p` (how often the set
covers the rational point `p`), `Covers s p` (positive depth), `Reach`/`Valid` (which sets).
-/
namespace Verif.Properties.Set90
open Verif.BooleanOp Verif.Set90 Verif.Spec Verif.Isotropy Verif.Rectangle Verif.Transform

variable {umin umax : Int}

/-! ## Sample sets used to show that hypotheses are met -/

/-- `[0,4) × [0,3)` and `[2,6) × [1,5)` inserted in a horizontal set: overlapping, pending. -/
def exA : PSet := ((PSet.mk0 HORIZONTAL).insertRect ⟨⟨0, 4⟩, ⟨0, 3⟩⟩ false).insertRect ⟨⟨2, 6⟩, ⟨1, 5⟩⟩ false
/-- `[1,3) × [-1,7)` minus `[1,2) × [0,1)`, in a vertical set. -/
def exB : PSet := ((PSet.mk0 VERTICAL).insertRect ⟨⟨1, 3⟩, ⟨-1, 7⟩⟩ false).insertRect ⟨⟨1, 2⟩, ⟨0, 1⟩⟩ true

theorem exA_reach : Reach (-100) 100 exA :=
  .insertRect _ _ (.insertRect _ _ (.new _ (Or.inl rfl)) (by simp [RectIn])) (by simp [RectIn])
theorem exB_reach : Reach (-100) 100 exB :=
  .insertRect _ _ (.insertRect _ _ (.new _ (Or.inr rfl)) (by simp [RectIn])) (by simp [RectIn])

/-! ## C02 -/

/-- C02: every set a program can build through the API satisfies the representation invariant,
so the theorems below, stated for `Valid` sets, apply to it. -/
theorem C02_reachable_is_valid {s : PSet} (h : Reach umin umax s) : Valid umin umax s := reach_valid h

/-- C02: `clean` (hence `empty`, `size`, `==`, `extents`, `get`) and `self_xor` never leave defined
behaviour, for arbitrary vertex data — closed or not — as long as data marked sorted is sorted. -/
theorem C02_clean_defined (s : PSet) (h : s.unsorted = false → s.data.Pairwise VLex) :
    (∃ t, s.clean umax = some t) ∧ ∃ t, s.selfXor umax = some t := by
  obtain ⟨f1, f2, f3, f4⟩ := sort_facts s
  have hs : SortedXY s.sort.data := by
    apply sortedXY_of_vlex
    unfold PSet.sort
    split_ifs with hu
    · exact sortData_sorted _
    · exact h (by simpa using hu)
  constructor
  · unfold PSet.clean
    by_cases hd : s.sort.dirty = true
    · obtain ⟨d, e⟩ := applyBooleanOr_safe posInt umax _ hs
      exact ⟨{ s.sort with data := d, dirty := false }, by simp [hd, e]⟩
    · exact ⟨s.sort, by simp [hd]⟩
  · unfold PSet.selfXor
    by_cases hd : s.sort.dirty = true
    · obtain ⟨d, e⟩ := applyBooleanOr_safe posUnary umax _ hs
      exact ⟨{ s.sort with data := d, dirty := false }, by simp [hd, e]⟩
    · exact ⟨s.sort, by simp [hd]⟩

private theorem view_sorted (arg : PSet) (o : Nat) :
    SortedXY (insertIntoViewArg (PSet.mk0 o) arg arg.orient).data := by
  unfold insertIntoViewArg
  by_cases he : arg.data = []
  · simp [PSet.insertRange, he, PSet.sort, PSet.mk0, SortedXY]
  · rw [insertRange_eq _ _ _ he]
    exact sortedXY_of_vlex (sortData_sorted _)

private theorem view_bounded {arg : PSet} (h : Bounded umax arg.data) (o : Nat) :
    Bounded umax (insertIntoViewArg (PSet.mk0 o) arg arg.orient).data := by
  unfold insertIntoViewArg
  by_cases he : arg.data = []
  · simp [PSet.insertRange, he, PSet.sort, PSet.mk0, Bounded]
  · rw [insertRange_eq _ _ _ he]
    intro v hv
    have := (sort_facts _).2.2.2.mem_iff.mp hv
    by_cases ho : arg.orient = (PSet.mk0 o).orient
    · rw [if_pos ho] at this
      exact h v (by simpa [PSet.mk0] using this)
    · rw [if_neg ho] at this
      have this : v ∈ arg.data.map swapV := by simpa [PSet.mk0] using this
      obtain ⟨w, hw, rfl⟩ := List.mem_map.mp this
      have := h w hw
      simp only [swapV]; omega

/-- C02: the binary operators and the operator assignments never leave defined behaviour, for
arbitrary in-range vertex data — closed or not — in either orientation. -/
theorem C02_binary_defined (f : Int → Int → Bool) (l r : PSet)
    (hl : l.unsorted = false → l.data.Pairwise VLex) (hr : r.unsorted = false → r.data.Pairwise VLex)
    (hb : ∀ v ∈ r.data, v.x ≤ umax ∧ v.y ≤ umax) :
    (∃ out, binaryOp f umax l r = some out) ∧ ∃ out, assignOp f umax l r = some out := by
  have srt : ∀ s : PSet, (s.unsorted = false → s.data.Pairwise VLex) → SortedXY s.sort.data := by
    intro s h
    apply sortedXY_of_vlex
    unfold PSet.sort
    split_ifs with hu
    · exact sortData_sorted _
    · exact h (by simpa using hu)
  have bd : Bounded umax r.sort.data := fun v hv => hb v ((sort_facts r).2.2.2.mem_iff.mp hv)
  constructor
  · unfold binaryOp computeValue
    by_cases ho : l.orient = r.orient
    · obtain ⟨d, e⟩ := applyBooleanBinaryOp_safe f umax _ _ (srt l hl) (srt r hr) bd
      exact ⟨(⟨l.orient, d, false, false⟩, l.sort, r.sort), by simp [ho, e]⟩
    · obtain ⟨d, e⟩ := applyBooleanBinaryOp_safe f umax _ _ (srt l hl) (view_sorted r l.orient)
        (view_bounded hb l.orient)
      exact ⟨(⟨l.orient, d, false, false⟩, l.sort, r), by simp [ho, e]⟩
  · obtain ⟨d, e⟩ := applyBooleanBinaryOp_safe f umax _ _ (view_sorted l l.orient) (view_sorted r l.orient)
      (view_bounded hb l.orient)
    exact ⟨_, by simp only [assignOp, e]; rfl⟩

-- open vertex data that bounds nothing still runs to completion
example : ((⟨HORIZONTAL, [⟨3, 1, 2⟩, ⟨0, 5, -1⟩, ⟨0, 5, 7⟩], true, true⟩ : PSet).clean 100).isSome = true := by decide +kernel
example : (binaryOp binaryXor 100 ⟨HORIZONTAL, [⟨3, 1, 2⟩, ⟨0, 5, 7⟩], true, true⟩
    ⟨VERTICAL, [⟨3, 1, 2⟩, ⟨3, 8, 1⟩], false, false⟩).isSome = true := by decide +kernel

/-! ## C01 -/

/-- C01: each binary operator computes the set operation on regions, whatever the scanline
orientations of the operands, and the result covers no point more than once. The operands are
left covering what they covered. -/
theorem C01_boolean_operators (op : BOp) {l r : PSet} (hl : Valid umin umax l) (hr : Valid umin umax r) :
    ∃ out l' r', binaryOp op.code umax l r = some (out, l', r') ∧
      (∀ p, Covers out p ↔ op.holds (Covers l p) (Covers r p)) ∧
      (∀ p, depth out p = 0 ∨ depth out p = 1) ∧
      (∀ p, depth l' p = depth l p ∧ depth r' p = depth r p) := by
  obtain ⟨out, l', r', e, h1, h2, -, -, -, -, h3⟩ := binaryOp_spec (bop_zero op) hl hr
  refine ⟨out, l', r', e, fun p => ?_, fun p => by rw [h3]; exact ind_cases _, fun p => ⟨?_, ?_⟩⟩
  · unfold Covers; rw [h3, ind_pos, bop_iff]
  · rcases h1 with rfl | rfl
    · rfl
    · exact sort_depth l p
  · rcases h2 with rfl | rfl
    · rfl
    · exact sort_depth r p

/-- C01: the operator assignments (`|= &= ^= -=` and `+= *=`) compute the same set operations. -/
theorem C01_operator_assignments (op : BOp) {l r : PSet} (hl : Valid umin umax l) (hr : Valid umin umax r) :
    ∃ out, assignOp op.code umax l r = some out ∧
      (∀ p, Covers out p ↔ op.holds (Covers l p) (Covers r p)) ∧
      (∀ p, depth out p = 0 ∨ depth out p = 1) := by
  obtain ⟨out, e, -, -, h3⟩ := assignOp_spec (bop_zero op) hl hr
  refine ⟨out, e, fun p => ?_, fun p => by rw [h3]; exact ind_cases _⟩
  unfold Covers; rw [h3, ind_pos, bop_iff]

/-- Nested Boolean expressions over sets built from rectangles: the leaves insert a list of
rectangles (each possibly as a hole) into a set of the given orientation. -/
inductive Expr
  | leaf (orient : Nat) (rects : List (Rect × Bool))
  | bin (op : BOp) (l r : Expr)

/-- What the program computes. -/
def Expr.eval (umax : Int) : Expr → Option PSet
  | .leaf o rects => some (rects.foldl (fun s r => s.insertRect r.1 r.2) (PSet.mk0 o))
  | .bin op l r => do
    let (out, _) ← binaryOp op.code umax (← l.eval umax) (← r.eval umax)
    pure out

/-- What the expression means: a leaf holds at a point when more rectangles than holes contain it. -/
def Expr.means : Expr → ℚ × ℚ → Prop
  | .leaf _ rects, p =>
    ((rects.filter (fun r => r.2)).countP (fun r => InRect r.1 p)) <
      ((rects.filter (fun r => !r.2)).countP (fun r => InRect r.1 p))
  | .bin op l r, p => op.holds (l.means p) (r.means p)

/-- All rectangles of the expression are in range and all orientations are proper. -/
def Expr.ok (umin umax : Int) : Expr → Prop
  | .leaf o rects => (o = HORIZONTAL ∨ o = VERTICAL) ∧ ∀ r ∈ rects, RectIn umin umax r.1
  | .bin _ l r => l.ok umin umax ∧ r.ok umin umax

private theorem leaf_fold (rects : List (Rect × Bool)) :
    ∀ s : PSet, Valid umin umax s → (∀ r ∈ rects, RectIn umin umax r.1) →
    Valid umin umax (rects.foldl (fun s r => s.insertRect r.1 r.2) s) ∧
    ∀ p, depth (rects.foldl (fun s r => s.insertRect r.1 r.2) s) p = depth s p +
      ((rects.filter (fun r => !r.2)).countP (fun r => InRect r.1 p) : ℤ) -
      ((rects.filter (fun r => r.2)).countP (fun r => InRect r.1 p) : ℤ) := by
  induction rects with
  | nil => intro s hs _; exact ⟨hs, fun p => by simp⟩
  | cons r L ih =>
    intro s hs hr
    have hr0 := hr r (by simp)
    obtain ⟨i1, i2⟩ := ih (s.insertRect r.1 r.2) (insertRect_valid hs r.1 r.2 hr0) (fun q hq => hr q (by simp [hq]))
    refine ⟨i1, fun p => ?_⟩
    rw [List.foldl_cons, i2, insertRect_depth hs.orient r.1 r.2 hr0.2.1 hr0.2.2.2.2.1]
    obtain ⟨rr, b⟩ := r
    cases b <;> simp only [List.filter_cons, Bool.not_true, Bool.not_false, if_true, List.countP_cons,
      Bool.false_eq_true, if_false, decide_eq_true_eq] <;>
      by_cases hc : InRect rr p <;> simp only [hc, if_true, if_false] <;>
      (unfold InRect at hc; simp only [hc, if_false]) <;> push_cast <;>
      (try simp only [and_self, if_true]) <;> omega

/-- C01, for whole programs: evaluating any nested expression of Boolean operators over sets
built by inserting rectangles and holes yields a set that covers exactly the points the
expression denotes. -/
theorem C01_expressions (e : Expr) (he : e.ok umin umax) :
    ∃ s, e.eval umax = some s ∧ Valid umin umax s ∧ ∀ p, Covers s p ↔ e.means p := by
  induction e with
  | leaf o rects =>
    obtain ⟨h1, h2⟩ := leaf_fold rects (PSet.mk0 o) (mk0_valid o he.1) he.2
    refine ⟨_, rfl, h1, fun p => ?_⟩
    have h0 : depth (PSet.mk0 o) p = 0 := by simp [depth_def, PSet.mk0, coverZ]
    unfold Covers
    rw [h2, h0]
    simp only [Expr.means]
    omega
  | bin op l r ihl ihr =>
    obtain ⟨sl, el, vl, cl⟩ := ihl he.1
    obtain ⟨sr, er, vr, cr⟩ := ihr he.2
    obtain ⟨out, l', r', e, -, -, vo, -, -, -, h3⟩ := binaryOp_spec (bop_zero op) vl vr
    refine ⟨out, by simp [Expr.eval, el, er, e], vo, fun p => ?_⟩
    have : Covers out p ↔ op.holds (Covers sl p) (Covers sr p) := by
      unfold Covers; rw [h3, ind_pos, bop_iff]
    rw [this]
    simp only [Expr.means]
    cases op <;> simp only [BOp.holds, cl, cr]

example : Valid (-100) 100 exA ∧ Valid (-100) 100 exB ∧ exA.orient ≠ exB.orient :=
  ⟨C02_reachable_is_valid exA_reach, C02_reachable_is_valid exB_reach, by decide⟩
example : (binaryOp BOp.minus.code 100 exB exA).map (fun t => t.1.data.length) = some 10 := by decide +kernel
example : (Expr.bin .xor (.leaf VERTICAL [(⟨⟨0, 4⟩, ⟨0, 4⟩⟩, false), (⟨⟨1, 2⟩, ⟨1, 2⟩⟩, true)])
    (.leaf HORIZONTAL [(⟨⟨2, 6⟩, ⟨2, 6⟩⟩, false)])).ok (-100) 100 := by
  simp [Expr.ok, RectIn, HORIZONTAL, VERTICAL]

/-! ## C03 -/

/-- C03: after `clean()` a point is covered once if its accumulated count was positive, and not
at all otherwise. -/
theorem C03_clean {s : PSet} (h : Valid umin umax s) :
    ∃ t, s.clean umax = some t ∧ ∀ p, depth t p = if 0 < depth s p then 1 else 0 := by
  obtain ⟨t, e, t1, -, -, -, -, t6⟩ := clean_spec h
  refine ⟨t, e, fun p => ?_⟩
  rw [clean_depth t1 t6]
  unfold ind
  simp

example : (exA.clean 100).map (fun t => t.data) = some
    [⟨0, 0, 1⟩, ⟨0, 4, -1⟩, ⟨1, 4, 1⟩, ⟨1, 6, -1⟩, ⟨3, 0, -1⟩, ⟨3, 2, 1⟩, ⟨5, 2, -1⟩, ⟨5, 6, 1⟩] := by decide +kernel

/-! ## C04 -/

/-- The stored form of a clean, sorted set is determined by its orientation and region. -/
theorem canonical_form {s t : PSet} (hs : Valid umin umax s) (ht : Valid umin umax t)
    (ds : s.dirty = false) (us : s.unsorted = false) (dt : t.dirty = false) (ut : t.unsorted = false)
    (ho : s.orient = t.orient) (h : ∀ p, Covers s p ↔ Covers t p) : s = t := by
  have fs := hs.clean ds
  have ft := ht.clean dt
  have hd : s.data = t.data := by
    apply canon_unique (canon_of_flat (hs.sorted us) fs) (canon_of_flat (ht.sorted ut) ft)
    intro a y
    have h1 := fs.2.2 a y
    have h2 := ft.2.2 a y
    rw [cover_int] at h1 h2
    by_cases hv : s.orient = VERTICAL
    · have := h ((a : ℚ), (y : ℚ))
      simp only [Covers, depth_def, hv, ← ho, if_true, Int.floor_intCast] at this
      omega
    · have := h ((y : ℚ), (a : ℚ))
      simp only [Covers, depth_def, hv, ← ho, if_false, Int.floor_intCast] at this
      omega
  obtain ⟨o, d, b, c⟩ := s
  obtain ⟨o', d', b', c'⟩ := t
  simp only at *
  rw [ho, hd, ds, us, dt, ut]

/-- C04: for sets of the same scanline orientation, `==` holds exactly when they cover the same
points, whatever the insertion history. -/
theorem C04_equality {s t : PSet} (hs : Valid umin umax s) (ht : Valid umin umax t) (ho : s.orient = t.orient) :
    ∃ b s' t', s.eq umax t = some (b, s', t') ∧ (b = true ↔ ∀ p, Covers s p ↔ Covers t p) := by
  obtain ⟨s', es, s1, s2, s3, -, s5, s6⟩ := clean_spec hs
  obtain ⟨t', et, t1, t2, t3, -, t5, t6⟩ := clean_spec ht
  refine ⟨s'.data == t'.data, s', t', by simp [PSet.eq, ho, es, et], ?_⟩
  have cs : ∀ p, Covers s' p ↔ Covers s p := fun p => by
    unfold Covers; rw [clean_depth s1 s6, ind_pos, decide_eq_true_eq]
  have ct : ∀ p, Covers t' p ↔ Covers t p := fun p => by
    unfold Covers; rw [clean_depth t1 t6, ind_pos, decide_eq_true_eq]
  rw [beq_iff_eq]
  constructor
  · intro hd p
    rw [← cs, ← ct]
    unfold Covers
    rw [depth_def, depth_def, s1, t1, ho, hd]
  · intro h
    have := canonical_form s5 t5 s2 s3 t2 t3 (by rw [s1, t1, ho]) (fun p => by rw [cs, ct, h])
    rw [this]

/-- C04: `==` between sets of different orientation is false even when they cover the same
points — the statement above really needs the orientations to agree. -/
theorem C04_orientation_matters (s t : PSet) (ho : s.orient ≠ t.orient) :
    s.eq umax t = some (false, s, t) := by simp [PSet.eq, ho]

example : (exA.eq 100 (((PSet.mk0 HORIZONTAL).insertRect ⟨⟨2, 6⟩, ⟨1, 5⟩⟩ false).insertSet exA)).map (fun t => t.1) = some true := by
  decide +kernel
example : (exA.eq 100 ((PSet.mk0 HORIZONTAL).insertRect ⟨⟨2, 6⟩, ⟨1, 5⟩⟩ false)).map (fun t => t.1) = some false := by
  decide +kernel

/-! ## C05 -/

/-- The result of `l op r`. -/
def run (umax : Int) (op : BOp) (l r : PSet) : Option PSet := (binaryOp op.code umax l r).map (fun t => t.1)

private theorem run_spec (op : BOp) {l r : PSet} (hl : Valid umin umax l) (hr : Valid umin umax r) :
    ∃ out, run umax op l r = some out ∧ Valid umin umax out ∧ out.orient = l.orient ∧ out.dirty = false ∧
      out.unsorted = false ∧ ∀ p, Covers out p ↔ op.holds (Covers l p) (Covers r p) := by
  obtain ⟨out, l', r', e, -, -, h1, h2, h3, h4, h5⟩ := binaryOp_spec (bop_zero op) hl hr
  exact ⟨out, by simp [run, e], h1, h2, h3, h4, fun p => by unfold Covers; rw [h5, ind_pos, bop_iff]⟩

theorem clean_spec' {s : PSet} (hs : Valid umin umax s) :
    ∃ t, s.clean umax = some t ∧ Valid umin umax t ∧ t.orient = s.orient ∧ t.dirty = false ∧
      t.unsorted = false ∧ ∀ p, Covers t p ↔ Covers s p := by
  obtain ⟨s', es, s1, s2, s3, -, s5, s6⟩ := clean_spec hs
  exact ⟨s', es, s5, s1, s2, s3, fun p => by
    unfold Covers; rw [clean_depth s1 s6, ind_pos, decide_eq_true_eq]⟩

/-- C05: cleaning twice is cleaning once, vertex for vertex. -/
theorem C05_clean_idempotent {s : PSet} (h : Valid umin umax s) :
    ∃ t, s.clean umax = some t ∧ t.clean umax = some t := by
  obtain ⟨t, e, v, -, d, u, -⟩ := clean_spec' h
  exact ⟨t, e, by simp [PSet.clean, PSet.sort, d, u]⟩

/-- C05: `A|B`, `B|A` and inserting `B` into `A` and cleaning give identical stored data. -/
theorem C05_or_commutes {a b : PSet} (ha : Valid umin umax a) (hb : Valid umin umax b) (ho : a.orient = b.orient)
    (hpos : ∀ p, 0 ≤ depth a p ∧ 0 ≤ depth b p) :
    ∃ t, run umax .or a b = some t ∧ run umax .or b a = some t ∧ (a.insertSet b).clean umax = some t := by
  obtain ⟨x, ex, vx, ox, dx, ux, cx⟩ := run_spec .or ha hb
  obtain ⟨y, ey, vy, oy, dy, uy, cy⟩ := run_spec .or hb ha
  obtain ⟨z, ez, vz, oz, dz, uz, cz'⟩ := clean_spec' (insertSet_valid ha hb)
  have e1 : x = y := canonical_form vx vy dx ux dy uy (by rw [ox, oy, ho]) (fun p => by
    rw [cx, cy]; exact or_comm)
  have oi : (a.insertSet b).orient = a.orient := by
    unfold PSet.insertSet
    by_cases he : b.data = []
    · rw [PSet.insertRange, if_pos he]
    · rw [insertRange_eq _ _ _ he]
  have e2 : x = z := canonical_form vx vz dx ux dz uz (by rw [ox, oz, oi]) (fun p => by
    rw [cx, cz']
    have := hpos p
    unfold Covers
    rw [insertSet_depth ha.orient hb.orient]
    simp only [BOp.holds]
    omega)
  exact ⟨x, ex, by rw [ey, e1], by rw [ez, ← e2]⟩

/-- C05: `&` and `^` commute on stored data. -/
theorem C05_and_xor_commute {a b : PSet} (ha : Valid umin umax a) (hb : Valid umin umax b) (ho : a.orient = b.orient) :
    run umax .and a b = run umax .and b a ∧ run umax .xor a b = run umax .xor b a := by
  obtain ⟨x, ex, vx, ox, dx, ux, cx⟩ := run_spec .and ha hb
  obtain ⟨y, ey, vy, oy, dy, uy, cy⟩ := run_spec .and hb ha
  obtain ⟨x', ex', vx', ox', dx', ux', cx'⟩ := run_spec .xor ha hb
  obtain ⟨y', ey', vy', oy', dy', uy', cy'⟩ := run_spec .xor hb ha
  constructor
  · rw [ex, ey]; congr 1
    exact canonical_form vx vy dx ux dy uy (by rw [ox, oy, ho]) (fun p => by
      rw [cx, cy]; simp only [BOp.holds]; tauto)
  · rw [ex', ey']; congr 1
    exact canonical_form vx' vy' dx' ux' dy' uy' (by rw [ox', oy', ho]) (fun p => by
      rw [cx', cy']; simp only [BOp.holds]; tauto)

/-- C05: `A&A`, `A|A` and `clean(A)` are identical; `A^A` and `A-A` are empty. -/
theorem C05_idempotence {a : PSet} (ha : Valid umin umax a) :
    run umax .and a a = a.clean umax ∧ run umax .or a a = a.clean umax ∧
    run umax .xor a a = some (PSet.mk0 a.orient) ∧ run umax .minus a a = some (PSet.mk0 a.orient) := by
  obtain ⟨z, ez, vz, oz, dz, uz, cz'⟩ := clean_spec' ha
  have key : ∀ (op : BOp) (t : PSet), Valid umin umax t → t.orient = a.orient → t.dirty = false → t.unsorted = false →
      (∀ p, Covers t p ↔ op.holds (Covers a p) (Covers a p)) → run umax op a a = some t := by
    intro op t vt ot dt ut ct
    obtain ⟨x, ex, vx, ox, dx, ux, cx⟩ := run_spec op ha ha
    rw [ex]; congr 1
    exact canonical_form vx vt dx ux dt ut (by rw [ox, ot]) (fun p => by rw [cx, ct])
  have h0 : ∀ p, ¬ Covers (PSet.mk0 a.orient) p := fun p => by
    simp [Covers, depth_def, PSet.mk0, coverZ]
  refine ⟨?_, ?_, ?_, ?_⟩
  · rw [ez]; exact key .and z vz oz dz uz (fun p => by rw [cz']; simp [BOp.holds])
  · rw [ez]; exact key .or z vz oz dz uz (fun p => by rw [cz']; simp [BOp.holds])
  · exact key .xor _ (mk0_valid _ ha.orient) rfl rfl rfl (fun p => by simp [h0, BOp.holds])
  · exact key .minus _ (mk0_valid _ ha.orient) rfl rfl rfl (fun p => by simp [h0, BOp.holds])

/-- C05: any two nested expressions of operators over the same sets that agree as propositional
formulas give identical stored data. `F` and `G` are the two programs; associativity,
distributivity and De Morgan are instances below. -/
private theorem law {x y : Option PSet} {o : Nat} {P Q : ℚ × ℚ → Prop}
    (hx : ∃ s, x = some s ∧ Valid umin umax s ∧ s.orient = o ∧ s.dirty = false ∧ s.unsorted = false ∧ ∀ p, Covers s p ↔ P p)
    (hy : ∃ s, y = some s ∧ Valid umin umax s ∧ s.orient = o ∧ s.dirty = false ∧ s.unsorted = false ∧ ∀ p, Covers s p ↔ Q p)
    (h : ∀ p, P p ↔ Q p) : x = y ∧ x.isSome := by
  obtain ⟨s, rfl, v1, o1, d1, u1, c1⟩ := hx
  obtain ⟨t, rfl, v2, o2, d2, u2, c2⟩ := hy
  refine ⟨?_, rfl⟩
  congr 1
  exact canonical_form v1 v2 d1 u1 d2 u2 (by rw [o1, o2]) (fun p => by rw [c1, c2, h])

private theorem nest_r (op1 op2 : BOp) {a b c : PSet} (ha : Valid umin umax a) (hb : Valid umin umax b)
    (hc : Valid umin umax c) :
    ∃ s, (run umax op2 b c).bind (fun x => run umax op1 a x) = some s ∧ Valid umin umax s ∧ s.orient = a.orient ∧
      s.dirty = false ∧ s.unsorted = false ∧
      ∀ p, Covers s p ↔ op1.holds (Covers a p) (op2.holds (Covers b p) (Covers c p)) := by
  obtain ⟨x, ex, vx, -, -, -, cx⟩ := run_spec op2 hb hc
  obtain ⟨y, ey, vy, oy, dy, uy, cy⟩ := run_spec op1 ha vx
  refine ⟨y, by simp [ex, ey], vy, oy, dy, uy, fun p => ?_⟩
  rw [cy]; cases op1 <;> simp only [BOp.holds, cx]

private theorem nest_l (op1 op2 : BOp) {a b c : PSet} (ha : Valid umin umax a) (hb : Valid umin umax b)
    (hc : Valid umin umax c) :
    ∃ s, (run umax op2 a b).bind (fun x => run umax op1 x c) = some s ∧ Valid umin umax s ∧ s.orient = a.orient ∧
      s.dirty = false ∧ s.unsorted = false ∧
      ∀ p, Covers s p ↔ op1.holds (op2.holds (Covers a p) (Covers b p)) (Covers c p) := by
  obtain ⟨x, ex, vx, ox, -, -, cx⟩ := run_spec op2 ha hb
  obtain ⟨y, ey, vy, oy, dy, uy, cy⟩ := run_spec op1 vx hc
  refine ⟨y, by simp [ex, ey], vy, by rw [oy, ox], dy, uy, fun p => ?_⟩
  rw [cy]; cases op1 <;> simp only [BOp.holds, cx]

private theorem nest_2 (op op1 op2 : BOp) {a b c d : PSet} (ha : Valid umin umax a) (hb : Valid umin umax b)
    (hc : Valid umin umax c) (hd : Valid umin umax d) :
    ∃ s, (run umax op1 a b).bind (fun x => (run umax op2 c d).bind (fun y => run umax op x y)) = some s ∧
      Valid umin umax s ∧ s.orient = a.orient ∧ s.dirty = false ∧ s.unsorted = false ∧
      ∀ p, Covers s p ↔ op.holds (op1.holds (Covers a p) (Covers b p)) (op2.holds (Covers c p) (Covers d p)) := by
  obtain ⟨x, ex, vx, ox, -, -, cx⟩ := run_spec op1 ha hb
  obtain ⟨x', ex', vx', ox', -, -, cx'⟩ := run_spec op2 hc hd
  obtain ⟨y, ey, vy, oy, dy, uy, cy⟩ := run_spec op vx vx'
  refine ⟨y, by simp [ex, ex', ey], vy, by rw [oy, ox], dy, uy, fun p => ?_⟩
  rw [cy]; cases op <;> simp only [BOp.holds, cx, cx']

/-- C05: associativity of `|`, `&` and `^` as equality of stored data. -/
theorem C05_associativity {a b c : PSet} (ha : Valid umin umax a) (hb : Valid umin umax b) (hc : Valid umin umax c) :
    ∀ op ∈ [BOp.or, BOp.and, BOp.xor],
      (run umax op a b).bind (fun x => run umax op x c) = (run umax op b c).bind (fun x => run umax op a x) ∧
      ((run umax op a b).bind (fun x => run umax op x c)).isSome := by
  intro op hop
  refine law (nest_l op op ha hb hc) (nest_r op op ha hb hc) (fun p => ?_)
  simp only [List.mem_cons, List.not_mem_nil, or_false] at hop
  rcases hop with rfl | rfl | rfl <;> simp only [BOp.holds] <;> tauto

/-- C05: `A&(B|C) = (A&B)|(A&C)` and `A|(B&C) = (A|B)&(A|C)` as equality of stored data. -/
theorem C05_distributivity {a b c : PSet} (ha : Valid umin umax a) (hb : Valid umin umax b) (hc : Valid umin umax c) :
    ((run umax .or b c).bind (fun x => run umax .and a x) =
      (run umax .and a b).bind (fun x => (run umax .and a c).bind (fun y => run umax .or x y))) ∧
    ((run umax .and b c).bind (fun x => run umax .or a x) =
      (run umax .or a b).bind (fun x => (run umax .or a c).bind (fun y => run umax .and x y))) := by
  refine ⟨(law (nest_r .and .or ha hb hc) (nest_2 .or .and .and ha hb ha hc) (fun p => ?_)).1,
    (law (nest_r .or .and ha hb hc) (nest_2 .and .or .or ha hb ha hc) (fun p => ?_)).1⟩ <;>
  simp only [BOp.holds] <;> tauto

/-- C05: De Morgan relative to `A`: `A-(B|C) = (A-B)&(A-C)` and `A-(B&C) = (A-B)|(A-C)`; and
`A^B = (A-B)|(B-A)`, all as equality of stored data. -/
theorem C05_de_morgan {a b c : PSet} (ha : Valid umin umax a) (hb : Valid umin umax b) (hc : Valid umin umax c) :
    ((run umax .or b c).bind (fun x => run umax .minus a x) =
      (run umax .minus a b).bind (fun x => (run umax .minus a c).bind (fun y => run umax .and x y))) ∧
    ((run umax .and b c).bind (fun x => run umax .minus a x) =
      (run umax .minus a b).bind (fun x => (run umax .minus a c).bind (fun y => run umax .or x y))) ∧
    (run umax .xor a b =
      (run umax .minus a b).bind (fun x => (run umax .minus b a).bind (fun y => run umax .or x y))) := by
  refine ⟨(law (nest_r .minus .or ha hb hc) (nest_2 .and .minus .minus ha hb ha hc) (fun p => ?_)).1,
    (law (nest_r .minus .and ha hb hc) (nest_2 .or .minus .minus ha hb ha hc) (fun p => ?_)).1,
    (law (run_spec .xor ha hb) (nest_2 .or .minus .minus ha hb hb ha) (fun p => ?_)).1⟩ <;>
  simp only [BOp.holds] <;> tauto

example : (run 100 .xor exA exB).map (fun s => s.data.length) = some 22 := by decide +kernel

/-! ## C06 -/

/-- C06: on a set with pending inserts `self_xor` leaves exactly the points of odd depth. -/
theorem C06_self_xor {s : PSet} (h : Valid umin umax s) (hd : s.dirty = true) :
    ∃ t, s.selfXor umax = some t ∧ (∀ p, depth t p = 0 ∨ depth t p = 1) ∧
      ∀ p, 0 ≤ depth s p → (Covers t p ↔ Odd (depth s p)) := by
  obtain ⟨t, e, -, -, -, hdp⟩ := selfXor_spec h hd
  refine ⟨t, e, fun p => by rw [hdp]; exact ind_cases _, fun p hp => ?_⟩
  unfold Covers
  rw [hdp, ind_pos, posUnary, decide_eq_true_eq, Int.odd_iff, Int.tmod_eq_emod_of_nonneg hp]
  omega

/-- C06: on a set with pending inserts `self_intersect` leaves exactly the points covered at
least twice. -/
theorem C06_self_intersect {s : PSet} (h : Valid umin umax s) (hu : umin ≤ umax) (hd : s.dirty = true) :
    ∃ t, s.selfIntersect umin umax = some t ∧ (∀ p, depth t p = 0 ∨ depth t p = 1) ∧
      ∀ p, Covers t p ↔ 2 ≤ depth s p := by
  obtain ⟨t, e, -, -, -, hdp⟩ := selfIntersect_spec h hu hd
  refine ⟨t, e, fun p => by rw [hdp]; exact ind_cases _, fun p => ?_⟩
  unfold Covers
  rw [hdp, ind_pos, decide_eq_true_eq, insertRect_depth h.orient _ _ hu hu]
  simp only [if_true]
  -- outside the coordinate range nothing is covered
  split_ifs with hin
  · omega
  · have h0 : depth s p = 0 := by
      simp only [← Int.le_floor, ← Int.floor_lt] at hin
      have sw : ∀ v ∈ s.data.map swapV, ∃ w ∈ s.data, v = swapV w := fun v hv => by
        obtain ⟨w, hw, rfl⟩ := List.mem_map.mp hv; exact ⟨w, hw, rfl⟩
      have l1 : ∀ a y, a < umin → coverZ s.data a y = 0 := fun a y ha =>
        cover_zero_left (fun v hv => (h.range v hv).1) ha
      have l2 : ∀ a y, umax ≤ a → coverZ s.data a y = 0 := fun a y ha =>
        cover_zero_right h.closed (fun v hv => (h.range v hv).2.1) ha
      have l3 : ∀ a y, y < umin → coverZ s.data a y = 0 := fun a y ha => by
        rw [← coverZ_swap]
        exact cover_zero_left (fun v hv => by
          obtain ⟨w, hw, rfl⟩ := sw v hv; exact (h.range w hw).2.2.1) ha
      have l4 : ∀ a y, umax ≤ y → coverZ s.data a y = 0 := fun a y ha => by
        rw [← coverZ_swap]
        exact cover_zero_right (closed_swap h.closed) (fun v hv => by
          obtain ⟨w, hw, rfl⟩ := sw v hv; exact (h.range w hw).2.2.2) ha
      rw [depth_def]
      by_cases c1 : ⌊p.1⌋ < umin
      · split_ifs
        · exact l1 _ _ c1
        · exact l3 _ _ c1
      · by_cases c2 : umax ≤ ⌊p.1⌋
        · split_ifs
          · exact l2 _ _ c2
          · exact l4 _ _ c2
        · by_cases c3 : ⌊p.2⌋ < umin
          · split_ifs
            · exact l3 _ _ c3
            · exact l1 _ _ c3
          · have c4 : umax ≤ ⌊p.2⌋ := by omega
            split_ifs
            · exact l4 _ _ c4
            · exact l2 _ _ c4
    omega

example : exA.dirty = true ∧ (exA.selfXor 100).map (fun t => t.data.length) = some 12 ∧
    (exA.selfIntersect (-100) 100).map (fun t => t.data) =
      some [⟨1, 2, 1⟩, ⟨1, 4, -1⟩, ⟨3, 2, -1⟩, ⟨3, 4, 1⟩] := by decide +kernel

/-! ## C07 -/

/-- C07: inserting a rectangle adds one to the depth of exactly the points of the (half-open)
rectangle, inserting it as a hole subtracts one there, for either scanline orientation and any
prior content. -/
theorem C07_insert_rectangle (s : PSet) (ho : s.orient = HORIZONTAL ∨ s.orient = VERTICAL) (r : Rect)
    (hh : r.h.lo ≤ r.h.hi) (hv : r.v.lo ≤ r.v.hi) (p : ℚ × ℚ) :
    (InRect r p → depth (s.insertRect r false) p = depth s p + 1 ∧ depth (s.insertRect r true) p = depth s p - 1) ∧
    (¬ InRect r p → depth (s.insertRect r false) p = depth s p ∧ depth (s.insertRect r true) p = depth s p) := by
  rw [insertRect_depth ho r _ hh hv, insertRect_depth ho r _ hh hv]
  constructor
  · intro h; unfold InRect at h; simp [h]; rfl
  · intro h; unfold InRect at h; simp [h]

/-- C07: inserting another set adds its depth at every point, whatever the two orientations. -/
theorem C07_insert_set (s t : PSet) (hs : s.orient = HORIZONTAL ∨ s.orient = VERTICAL)
    (ht : t.orient = HORIZONTAL ∨ t.orient = VERTICAL) (p : ℚ × ℚ) :
    depth (s.insertSet t) p = depth s p + depth t p := insertSet_depth hs ht p

/-- C07: inserting one vertex, given in the convention of `orient`, changes the depth by its count
(negated for a hole) at the points above and to the right of it, and nowhere else. -/
theorem C07_insert_vertex (s : PSet) (hs : s.orient = HORIZONTAL ∨ s.orient = VERTICAL) (v : V) (hole : Bool) (orient : Nat)
    (ho : orient = HORIZONTAL ∨ orient = VERTICAL) (p : ℚ × ℚ) :
    let at_ : Int × Int := if orient = VERTICAL then (v.x, v.y) else (v.y, v.x)
    depth (s.insertVertex v hole orient) p =
      depth s p + (if (at_.1 : ℚ) ≤ p.1 ∧ (at_.2 : ℚ) ≤ p.2 then (if hole then -v.c else v.c) else 0) := by
  have hV : VERTICAL = 1 := rfl
  have hH : HORIZONTAL = 0 := rfl
  simp only [depth_def, PSet.insertVertex, ← Int.le_floor]
  generalize ⌊p.1⌋ = a
  generalize ⌊p.2⌋ = b
  rcases hs with hs | hs <;> rcases ho with ho | ho <;> rw [hs, ho] <;> cases hole <;>
    simp [hV, hH, coverZ, swapV] <;> split_ifs <;> first | rfl | omega

/-- C07: inserting the vertical edge from `(x, y0)` to `(x, y1)` changes the depth by its count (negated for a hole)
at the points to the right of it. -/
theorem C07_insert_edge (s : PSet) (hs : s.orient = HORIZONTAL ∨ s.orient = VERTICAL) (x y0 y1 c : Int) (hy : y0 ≤ y1) (hole : Bool)
    (p : ℚ × ℚ) :
    depth (s.insertEdge (x, y0) (x, y1) c hole) p =
      depth s p + (if (x : ℚ) ≤ p.1 ∧ (y0 : ℚ) ≤ p.2 ∧ p.2 < y1 then (if hole then -c else c) else 0) := by
  have hV : VERTICAL = 1 := rfl
  unfold PSet.insertEdge
  rw [C07_insert_vertex _ (by simpa [PSet.insertVertex] using hs) _ _ _ (Or.inr rfl), C07_insert_vertex _ hs _ _ _ (Or.inr rfl)]
  simp only [hV, if_true, Bool.false_eq_true, if_false]
  have hy' : (y0 : ℚ) ≤ y1 := by exact_mod_cast hy
  by_cases h1 : (x : ℚ) ≤ p.1 <;> by_cases h2 : (y0 : ℚ) ≤ p.2 <;> by_cases h3 : (y1 : ℚ) ≤ p.2 <;>
    cases hole <;> simp [h1, h2, h3, not_lt.mpr, not_le.mp] <;> first | rfl | omega | (exfalso; linarith) | skip

example : InRect ⟨⟨0, 4⟩, ⟨0, 3⟩⟩ (1 / 2, 2) ∧ ¬ InRect ⟨⟨0, 4⟩, ⟨0, 3⟩⟩ (4, 2) := by
  constructor <;> norm_num [InRect]

/-! ## C09 -/

/-- C09: transforming a set moves its region: the image of a point (off the grid lines, i.e. up
to boundaries) is covered as often as the point was; and the set stays valid, so a clean set is
still clean after re-sorting. `t` is any of the eight axis transformations followed by a
translation. -/
theorem C09_transform {s : PSet} (h : Valid umin umax s) (t : Transformation) (ht : t.atr < 8) :
    (∀ p, OffGrid p →
      depth (s.transformT t) (axisMap t.atr (p.1 - t.p.1, p.2 - t.p.2)) = depth s p) ∧
    (InRange umin umax (s.transformT t).data → Valid umin umax (s.transformT t)) ∧
    (s.transformT t).dirty = s.dirty :=
  ⟨fun p hp => transformT_depth h t ht p hp, fun hr => transformT_valid h t ht hr, rfl⟩

/-- C09 for `axis_transformation` arguments. -/
theorem C09_axis_transform {s : PSet} (h : Valid umin umax s) (atr : Nat) (ha : atr < 8) (p : ℚ × ℚ) (hp : OffGrid p) :
    depth (s.transform atr) (axisMap atr p) = depth s p := by
  have e : s.transform atr = s.transformT ⟨atr, (0, 0)⟩ := by
    have : Transformation.transform ⟨atr, (0, 0)⟩ = axisTransform atr := by
      funext q; simp [Transformation.transform]
    unfold PSet.transform PSet.transformT
    rw [this]
  have := transformT_depth h ⟨atr, (0, 0)⟩ ha p hp
  rw [e]
  simpa using this

example : OffGrid (1 / 2, 7 / 3) := by
  constructor <;> intro n h <;> simp only at h
  · have h2 : (1 : ℚ) = ((2 * n : ℤ) : ℚ) := by push_cast; linarith
    have : (1 : ℤ) = 2 * n := by exact_mod_cast h2
    omega
  · have h2 : (7 : ℚ) = ((3 * n : ℤ) : ℚ) := by push_cast; linarith
    have : (7 : ℤ) = 3 * n := by exact_mod_cast h2
    omega
example : (exA.transform 5).data.length = 8 ∧ (exA.transform 5).unsorted = true := by decide +kernel

/-! ## C10 -/

/-- C10: `move` translates the region and keeps sortedness and cleanness (the flags are
untouched and still truthful). -/
theorem C10_move {s : PSet} (h : Valid umin umax s) (dx dy : Int) :
    (∀ p : ℚ × ℚ, depth (s.move dx dy) p = depth s (p.1 - dx, p.2 - dy)) ∧
    (s.move dx dy).dirty = s.dirty ∧ (s.move dx dy).unsorted = s.unsorted ∧
    (InRange umin umax (s.move dx dy).data → Valid umin umax (s.move dx dy)) :=
  ⟨move_depth s h.orient dx dy, rfl, rfl, move_valid h dx dy⟩

/-- C10: `scale_up` scales the region and keeps sortedness and cleanness. -/
theorem C10_scale_up {s : PSet} (h : Valid umin umax s) (k : Int) (hk : 0 < k) :
    (∀ p : ℚ × ℚ, depth (s.scaleUp k) p = depth s (p.1 / k, p.2 / k)) ∧
    (s.scaleUp k).dirty = s.dirty ∧ (s.scaleUp k).unsorted = s.unsorted ∧
    (InRange umin umax (s.scaleUp k).data → Valid umin umax (s.scaleUp k)) :=
  ⟨scaleUp_depth s k hk, rfl, rfl, scaleUp_valid h k hk⟩

example : InRange (-100) 100 (exA.move 5 (-7)).data ∧ InRange (-100) 100 (exA.scaleUp 3).data := by
  constructor <;> · unfold InRange; decide +kernel

/-! ## C12 -/

/-- C12: `empty()` is exact. -/
theorem C12_empty {s : PSet} (h : Valid umin umax s) :
    ∃ b t, s.empty umax = some (b, t) ∧ (b = true ↔ ∀ p, ¬ Covers s p) := by
  obtain ⟨t, e, v, o, d, u, c⟩ := clean_spec' h
  refine ⟨t.data.isEmpty, t, by simp [PSet.empty, e], ?_⟩
  constructor
  · intro he p
    rw [← c]
    have : t.data = [] := by simpa using he
    simp [Covers, depth_def, this, coverZ]
  · intro hn
    have : t = PSet.mk0 s.orient := canonical_form v (mk0_valid _ h.orient) d u rfl rfl o (fun p => by
      rw [c]
      have h0 : ¬ Covers (PSet.mk0 s.orient) p := by simp [Covers, depth_def, PSet.mk0, coverZ]
      simp [h0, hn p])
    rw [this]; rfl

/-- C12: `extents` returns false exactly when nothing is covered; otherwise the rectangle it
returns is the smallest closed rectangle containing every covered point: any bounds that hold for
all covered points hold for the rectangle, and conversely. -/
theorem C12_extents {s : PSet} (h : Valid umin umax s) :
    ∃ res t, s.extents umax = some (res, t) ∧ (res = none ↔ ∀ p, ¬ Covers s p) ∧
      ∀ r, res = some r → ∀ x1 x2 y1 y2 : ℚ,
        ((∀ p, Covers s p → x1 ≤ p.1 ∧ p.1 ≤ x2 ∧ y1 ≤ p.2 ∧ p.2 ≤ y2) ↔
          (x1 ≤ r.h.lo ∧ (r.h.hi : ℚ) ≤ x2 ∧ y1 ≤ r.v.lo ∧ (r.v.hi : ℚ) ≤ y2)) := by
  obtain ⟨b, t', e', hb⟩ := C12_empty h
  obtain ⟨t, e, v, o, d, u, c⟩ := clean_spec' h
  have hempty : t.data = [] ↔ ∀ p, ¬ Covers s p := by
    rw [← hb]
    simp [PSet.empty, e] at e'
    rw [← e'.1]; simp
  cases hd : t.data with
  | nil =>
    refine ⟨none, t, by simp [PSet.extents, e, hd], ?_, by simp⟩
    simpa using hempty.mp hd
  | cons w L =>
    refine ⟨some (L.dropLast.foldl (fun e w => (encompassPt e (pointOf t.orient w)).1)
      (setPoints (pointOf t.orient w) (pointOf t.orient ((w :: L).getLast (by simp))))), t, ?_, ?_, ?_⟩
    · simp [PSet.extents, e, hd]
    · have : ¬ ∀ p, ¬ Covers s p := by rw [← hempty, hd]; simp
      simp only [reduceCtorEq, false_iff]; exact this
    · rintro r hr x1 x2 y1 y2
      injection hr with hr
      have hbox := extents_bbox (v := w) (r := L) (pointOf t.orient)
      rw [hr] at hbox
      have hf := v.clean d
      have hcl := v.closed
      rw [hd] at hf hcl
      -- cells in the vertical frame
      obtain ⟨hin, ⟨ya, hya⟩, ⟨yb, hyb⟩, ⟨xa, hxa⟩, ⟨xb, hxb⟩⟩ :
          (∀ a y, 0 < cz t VERTICAL a y → r.h.lo ≤ a ∧ a < r.h.hi ∧ r.v.lo ≤ y ∧ y < r.v.hi) ∧
          (∃ y, 0 < cz t VERTICAL r.h.lo y) ∧ (∃ y, 0 < cz t VERTICAL (r.h.hi - 1) y) ∧
          (∃ a, 0 < cz t VERTICAL a r.v.lo) ∧ (∃ a, 0 < cz t VERTICAL a (r.v.hi - 1)) := by
        rcases v.orient with ho | ho
        · have hb2 : BBox r (((w :: L).map swapV).map (fun v => (v.x, v.y))) := by
            rw [List.map_map]
            rw [show ((fun v : V => (v.x, v.y)) ∘ swapV) = pointOf t.orient from by
              funext v; simp [pointOf, ho, swapV]]
            exact hbox
          have := bbox_cells (flat_swap hf) (closed_swap hcl) hb2
          simp only [coverZ_swap] at this
          simpa [cz, ho, HORIZONTAL, VERTICAL, hd] using this
        · have hb2 : BBox r ((w :: L).map (fun v => (v.x, v.y))) := by
            rw [show (fun v : V => (v.x, v.y)) = pointOf t.orient from by
              funext v; simp [pointOf, ho, HORIZONTAL, VERTICAL]]
            exact hbox
          have := bbox_cells hf hcl hb2
          simpa [cz, ho, VERTICAL, hd] using this
      have hcov : ∀ p, Covers s p ↔ 0 < cz t VERTICAL ⌊p.1⌋ ⌊p.2⌋ := fun p => by
        rw [← c]; unfold Covers; rw [depth_cz v.orient (Or.inr rfl), if_pos rfl]
      -- a point of the cell `(a, y)` with prescribed abscissa offset
      have hcell : ∀ (a y : ℤ) (x z : ℚ), 0 < cz t VERTICAL a y → (a : ℚ) ≤ x → x < a + 1 → (y : ℚ) ≤ z → z < y + 1 →
          Covers s (x, z) := by
        intro a y x z hc h1 h2 h3 h4
        rw [hcov]
        have e1 : ⌊x⌋ = a := by rw [Int.floor_eq_iff]; exact ⟨h1, h2⟩
        have e2 : ⌊z⌋ = y := by rw [Int.floor_eq_iff]; exact ⟨h3, h4⟩
        simpa only [e1, e2] using hc
      constructor
      · intro hall
        refine ⟨?_, ?_, ?_, ?_⟩
        · exact (hall _ (hcell _ _ r.h.lo ya hya (le_refl _) (by linarith) (le_refl _) (by linarith))).1
        · by_contra hlt
          push Not at hlt
          have := (hall _ (hcell _ _ (max ((r.h.hi : ℚ) - 1) ((x2 + r.h.hi) / 2)) yb hyb
            (by push_cast; exact le_max_left _ _) (by push_cast; rw [max_lt_iff]; constructor <;> linarith)
            (le_refl _) (by linarith))).2.1
          have h3 := le_max_right ((r.h.hi : ℚ) - 1) ((x2 + r.h.hi) / 2)
          simp only at this
          linarith
        · exact (hall _ (hcell _ _ xa r.v.lo hxa (le_refl _) (by linarith) (le_refl _) (by linarith))).2.2.1
        · by_contra hlt
          push Not at hlt
          have := (hall _ (hcell _ _ xb (max ((r.v.hi : ℚ) - 1) ((y2 + r.v.hi) / 2)) hxb
            (le_refl _) (by linarith)
            (by push_cast; exact le_max_left _ _) (by push_cast; rw [max_lt_iff]; constructor <;> linarith))).2.2.2
          have h3 := le_max_right ((r.v.hi : ℚ) - 1) ((y2 + r.v.hi) / 2)
          simp only at this
          linarith
      · rintro ⟨g1, g2, g3, g4⟩ p hp
        obtain ⟨k1, k2, k3, k4⟩ := hin _ _ ((hcov p).mp hp)
        rw [Int.le_floor] at k1 k3
        rw [Int.floor_lt] at k2 k4
        exact ⟨by linarith, by linarith, by linarith, by linarith⟩

example : (exA.extents 100).map (fun t => t.1) = some (some ⟨⟨0, 6⟩, ⟨0, 5⟩⟩) := by decide +kernel
example : (((PSet.mk0 VERTICAL).insertRect ⟨⟨2, 2⟩, ⟨0, 5⟩⟩ false).extents 100).map (fun t => t.1) = some none := by decide +kernel

/-! ## C11 -/

/-- C11 does not hold: `scale_down` on a clean set leaves the clean flag set although rounding
may make vertices cancel. A clean 1x1 square scaled down by 4 covers nothing, yet `empty()` is
false and it does not equal the empty set. -/
theorem C11_scale_down_violated :
    ∃ s : PSet, Reach (-100) 100 s ∧ (∀ p, ¬ Covers (s.scaleDown 4) p) ∧
      ((s.scaleDown 4).empty 100).map (fun t => t.1) = some false ∧
      ((s.scaleDown 4).eq 100 (PSet.mk0 HORIZONTAL)).map (fun t => t.1) = some false := by
  refine ⟨⟨HORIZONTAL, [⟨0, 0, 1⟩, ⟨0, 1, -1⟩, ⟨1, 0, -1⟩, ⟨1, 1, 1⟩], false, false⟩, ?_, ?_, ?_, ?_⟩
  · exact .clean (s := (PSet.mk0 HORIZONTAL).insertRect ⟨⟨0, 1⟩, ⟨0, 1⟩⟩ false)
      (.insertRect _ _ (.new _ (Or.inl rfl)) (by simp [RectIn])) (by decide +kernel)
  · intro p
    have e : (PSet.scaleDown ⟨HORIZONTAL, [⟨0, 0, 1⟩, ⟨0, 1, -1⟩, ⟨1, 0, -1⟩, ⟨1, 1, 1⟩], false, false⟩ 4) =
      ⟨HORIZONTAL, [⟨0, 0, 1⟩, ⟨0, 0, -1⟩, ⟨0, 0, -1⟩, ⟨0, 0, 1⟩], false, true⟩ := by decide +kernel
    rw [e]
    simp only [Covers, depth_def, coverZ, List.map_cons, List.map_nil, List.sum_cons, List.sum_nil]
    split_ifs <;> omega
  · decide +kernel
  · decide +kernel

/-- The rounded coordinate is at most `a` exactly up to a threshold. -/
private theorem round_le (k : Int) (hk : 0 < k) (x a : Int) :
    roundHalfUp ((x : ℚ) / k) ≤ a ↔ x ≤ ⌈((a : ℚ) + 1 / 2) * k⌉ - 1 := by
  have hk' : (0 : ℚ) < k := by exact_mod_cast hk
  have e : roundHalfUp ((x : ℚ) / k) = ⌊(x : ℚ) / k + 1 / 2⌋ := rfl
  rw [e, Int.le_sub_one_iff, Int.lt_ceil, ← Int.lt_add_one_iff, Int.floor_lt]
  constructor
  · intro h
    have : (x : ℚ) / k < a + 1 / 2 := by push_cast at h; linarith
    rwa [div_lt_iff₀ hk'] at this
  · intro h
    rw [← div_lt_iff₀ hk'] at h
    push_cast; linarith

private theorem scaleDown_cover (L : List V) (k : Int) (hk : 0 < k) (a y : Int) :
    coverZ (L.map (fun v => (⟨roundHalfUp ((v.x : ℚ) / k), roundHalfUp ((v.y : ℚ) / k), v.c⟩ : V))) a y =
      coverZ L (⌈((a : ℚ) + 1 / 2) * k⌉ - 1) (⌈((y : ℚ) + 1 / 2) * k⌉ - 1) := by
  simp only [coverZ, List.map_map]
  congr 1
  apply List.map_congr_left
  intro v _
  simp only [Function.comp, round_le k hk]

/-- C11, the part that holds: `scale_down` on a set with pending inserts keeps the invariant, so
`empty()` (and with `C04_equality`, `C12_extents` all observers) describe the region it covers.
Missing: sets that are already clean, for which the claim is false (`C11_scale_down_violated`). -/
theorem C11_scale_down_partial {s : PSet} (h : Valid umin umax s) (hd : s.dirty = true) (k : Int) (hk : 0 < k)
    (hr : InRange umin umax (s.scaleDown k).data) :
    Valid umin umax (s.scaleDown k) ∧
    ∃ b t, (s.scaleDown k).empty umax = some (b, t) ∧ (b = true ↔ ∀ p, ¬ Covers (s.scaleDown k) p) := by
  have hk' : (0 : ℚ) < k := by exact_mod_cast hk
  have big : ∀ x0 a : Int, max x0 0 ≤ a → x0 ≤ ⌈((a : ℚ) + 1 / 2) * k⌉ - 1 := by
    intro x0 a ha
    rw [Int.le_sub_one_iff, Int.lt_ceil]
    have h1 : (x0 : ℚ) ≤ a := by exact_mod_cast (by omega)
    have h2 : (0 : ℚ) ≤ a := by exact_mod_cast (by omega)
    have h3 : (1 : ℚ) ≤ k := by exact_mod_cast hk
    nlinarith
  have hv : Valid umin umax (s.scaleDown k) := by
    refine ⟨h.orient, by simp [PSet.scaleDown], fun hd' => by simp [PSet.scaleDown, hd] at hd', ?_, hr⟩
    apply closed_of_cover
    · obtain ⟨x0, h0⟩ := cover_right h.closed
      exact ⟨max x0 0, fun a y ha => (scaleDown_cover s.data k hk a y).trans (h0 _ _ (big _ _ ha))⟩
    · obtain ⟨x0, h0⟩ := cover_top h.closed
      exact ⟨max x0 0, fun a y ha => (scaleDown_cover s.data k hk a y).trans (h0 _ _ (big _ _ ha))⟩
  exact ⟨hv, C12_empty hv⟩

example : exA.dirty = true ∧ InRange (-100) 100 (exA.scaleDown 3).data := by
  unfold InRange; decide +kernel

/-! ## C15 -/

/-- C15: copying vertex data into a set of the other scanline orientation (by `insert`, or by an
operator assignment, or as operand of a binary operator) covers the same points. -/
theorem C15_orientation_change {s : PSet} (h : Valid umin umax s) (o : Nat) (ho : o = HORIZONTAL ∨ o = VERTICAL) :
    (∀ p, depth ((PSet.mk0 o).insertSet s) p = depth s p) ∧
    (∃ t, assignOp BOp.or.code umax (PSet.mk0 o) s = some t ∧ t.orient = o ∧ ∀ p, Covers t p ↔ Covers s p) := by
  have h0 : ∀ p, depth (PSet.mk0 o) p = 0 := fun p => by simp [depth_def, PSet.mk0, coverZ]
  constructor
  · intro p
    rw [insertSet_depth ho h.orient, h0]; simp
  · obtain ⟨t, e, -, o1, h3⟩ := assignOp_spec (bop_zero .or) (mk0_valid o ho) h
    refine ⟨t, e, o1, fun p => ?_⟩
    unfold Covers
    rw [h3, ind_pos, bop_iff, h0]
    simp [BOp.holds]

/-- C15: the result of a binary operator does not depend, as a region, on the orientations of
the operands: operands covering the same points give results covering the same points. -/
theorem C15_operators_see_regions_only (op : BOp) {l r l2 r2 : PSet} (hl : Valid umin umax l) (hr : Valid umin umax r)
    (hl2 : Valid umin umax l2) (hr2 : Valid umin umax r2)
    (el : ∀ p, Covers l p ↔ Covers l2 p) (er : ∀ p, Covers r p ↔ Covers r2 p) :
    ∃ out out2, run umax op l r = some out ∧ run umax op l2 r2 = some out2 ∧ ∀ p, Covers out p ↔ Covers out2 p := by
  obtain ⟨x, ex, -, -, -, -, cx⟩ := run_spec op hl hr
  obtain ⟨y, ey, -, -, -, -, cy⟩ := run_spec op hl2 hr2
  refine ⟨x, y, ex, ey, fun p => ?_⟩
  rw [cx, cy]
  cases op <;> simp only [BOp.holds, el, er]

/-- C15 does not hold for the constructor taking an orientation and a vertex range: it ignores
the orientation. Copying the vertices of a vertical 2x1 rectangle `[0,2)×[0,1)` with their own
orientation gives the transposed rectangle. -/
theorem C15_range_constructor_violated :
    ∃ s : PSet, Reach (-100) 100 s ∧ Covers s (3 / 2, 1 / 2) ∧
      ¬ Covers (PSet.ofRange s.orient s.data) (3 / 2, 1 / 2) := by
  refine ⟨(PSet.mk0 VERTICAL).insertRect ⟨⟨0, 2⟩, ⟨0, 1⟩⟩ false,
    .insertRect _ _ (.new _ (Or.inr rfl)) (by simp [RectIn]), ?_, ?_⟩
  · show 0 < depth _ _
    have := (C07_insert_rectangle (PSet.mk0 VERTICAL) (Or.inr rfl) ⟨⟨0, 2⟩, ⟨0, 1⟩⟩ (by decide) (by decide)
      (3 / 2, 1 / 2)).1 (by norm_num [InRect])
    rw [this.1]
    simp [depth_def, PSet.mk0, coverZ]
  · have e : PSet.ofRange VERTICAL ((PSet.mk0 VERTICAL).insertRect ⟨⟨0, 2⟩, ⟨0, 1⟩⟩ false).data =
        ⟨HORIZONTAL, [⟨0, 0, 1⟩, ⟨0, 1, -1⟩, ⟨2, 0, -1⟩, ⟨2, 1, 1⟩], true, true⟩ := by decide +kernel
    show ¬ 0 < depth (PSet.ofRange VERTICAL _) _
    rw [e]
    have f1 : ⌊(3 / 2 : ℚ)⌋ = 1 := by rw [Int.floor_eq_iff]; norm_num
    have f2 : ⌊(1 / 2 : ℚ)⌋ = 0 := by rw [Int.floor_eq_iff]; norm_num
    rw [one_div] at f2
    simp [depth_def, HORIZONTAL, VERTICAL, f1, f2, coverZ]

example : Valid (-100) 100 exB ∧ exB.orient = VERTICAL := ⟨C02_reachable_is_valid exB_reach, rfl⟩

/-! ## C46 -/

/-- C46 does not hold: `empty()` is a const observer, but calling it turns a following
`self_xor()` or `self_intersect()` into a no-op. The unit square inserted twice: without the call
`self_xor` leaves nothing and `self_intersect` leaves the square of depth two; after the call
`self_xor` leaves the square. For a square inserted once, `self_intersect` leaves nothing, after
the call it leaves the square. -/
theorem C46_const_observer_violated :
    ∃ s : PSet, Reach (-100) 100 s ∧
      (s.selfXor 100).map (fun t => t.data) = some [] ∧
      (((s.empty 100).bind (fun bt => bt.2.selfXor 100)).map (fun t => t.data.length)) = some 4 ∧
    ∃ s' : PSet, Reach (-100) 100 s' ∧
      (s'.selfIntersect (-100) 100).map (fun t => t.data) = some [] ∧
      (((s'.empty 100).bind (fun bt => bt.2.selfIntersect (-100) 100)).map (fun t => t.data.length)) = some 4 := by
  refine ⟨((PSet.mk0 HORIZONTAL).insertRect ⟨⟨0, 1⟩, ⟨0, 1⟩⟩ false).insertRect ⟨⟨0, 1⟩, ⟨0, 1⟩⟩ false, ?_, ?_, ?_,
    (PSet.mk0 HORIZONTAL).insertRect ⟨⟨0, 1⟩, ⟨0, 1⟩⟩ false, ?_, ?_, ?_⟩
  · exact .insertRect _ _ (.insertRect _ _ (.new _ (Or.inl rfl)) (by simp [RectIn])) (by simp [RectIn])
  · decide +kernel
  · decide +kernel
  · exact .insertRect _ _ (.new _ (Or.inl rfl)) (by simp [RectIn])
  · decide +kernel
  · decide +kernel

/-- C46, the part that holds: after any of the observers (`empty`, `size`, `==`, `extents`, all of
which leave `clean()`'s result behind) the set covers the same points in the same orientation,
every binary operator and operator assignment yields identical stored data, and `empty`, `size`,
`extents`, `==` return the same answers. Missing: `self_xor`, `self_intersect` (see
`C46_const_observer_violated`) and inserts followed by operations that look at depth. -/
theorem C46_const_observer_partial {s : PSet} (h : Valid umin umax s) :
    ∃ t, s.clean umax = some t ∧
      (s.empty umax).map (fun x => x.2) = some t ∧ (s.size umax).map (fun x => x.2) = some t ∧
      (s.extents umax).map (fun x => x.2) = some t ∧
      t.orient = s.orient ∧ (∀ p, Covers t p ↔ Covers s p) ∧
      (∀ (op : BOp) (r : PSet), Valid umin umax r → run umax op t r = run umax op s r ∧ run umax op r t = run umax op r s) ∧
      (t.empty umax = s.empty umax ∧ t.size umax = s.size umax ∧ t.extents umax = s.extents umax) ∧
      ∀ r, Valid umin umax r → r.orient = s.orient → (t.eq umax r).map (fun x => x.1) = (s.eq umax r).map (fun x => x.1) := by
  obtain ⟨t, e, v, o, d, u, c⟩ := clean_spec' h
  have ec : t.clean umax = some t := by simp [PSet.clean, PSet.sort, d, u]
  refine ⟨t, e, by simp [PSet.empty, e], by simp [PSet.size, e], ?_, o, c, ?_, ?_, ?_⟩
  · unfold PSet.extents
    simp only [e]
    cases hd : t.data <;> simp [hd]
  · intro op r hr
    constructor
    · obtain ⟨x, ex, vx, ox, dx, ux, cx⟩ := run_spec op v hr
      obtain ⟨y, ey, vy, oy, dy, uy, cy⟩ := run_spec op h hr
      rw [ex, ey]; congr 1
      exact canonical_form vx vy dx ux dy uy (by rw [ox, oy, o]) (fun p => by
        rw [cx, cy]; cases op <;> simp only [BOp.holds, c])
    · obtain ⟨x, ex, vx, ox, dx, ux, cx⟩ := run_spec op hr v
      obtain ⟨y, ey, vy, oy, dy, uy, cy⟩ := run_spec op hr h
      rw [ex, ey]; congr 1
      exact canonical_form vx vy dx ux dy uy (by rw [ox, oy]) (fun p => by
        rw [cx, cy]; cases op <;> simp only [BOp.holds, c])
  · refine ⟨by simp [PSet.empty, e, ec], by simp [PSet.size, e, ec], ?_⟩
    unfold PSet.extents
    rw [e, ec]
  · intro r hr ho
    simp [PSet.eq, ho, o, e, ec]

end Verif.Properties.Set90
