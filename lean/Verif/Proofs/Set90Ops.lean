import Verif.Proofs.Set90
import Mathlib.Tactic.Push
/-! Binary operators, self operations, inserts and motions of `polygon_90_set_data`. -/
namespace Verif.Set90
open Verif.BooleanOp Verif.Spec Verif.Isotropy Verif.Rectangle Verif.Transform

variable {umin umax : Int}

/-- Coverage of a set read in the frame of orientation `o`. -/
def cz (s : PSet) (o : Nat) (a y : Int) : Int := if s.orient = o then coverZ s.data a y else coverZ s.data y a

theorem depth_cz {s : PSet} {o : Nat} (hs : s.orient = HORIZONTAL ∨ s.orient = VERTICAL)
    (ho : o = HORIZONTAL ∨ o = VERTICAL) (p : ℚ × ℚ) :
    depth s p = if o = VERTICAL then cz s o ⌊p.1⌋ ⌊p.2⌋ else cz s o ⌊p.2⌋ ⌊p.1⌋ := by
  rw [depth_def]
  rcases hs with hs | hs <;> rcases ho with ho | ho <;> simp [cz, hs, ho, HORIZONTAL, VERTICAL]

theorem viewArg {arg : PSet} (h : Valid umin umax arg) (o : Nat) :
    SortedXY (insertIntoViewArg (PSet.mk0 o) arg arg.orient).data ∧
    Closed (insertIntoViewArg (PSet.mk0 o) arg arg.orient).data ∧
    InRange umin umax (insertIntoViewArg (PSet.mk0 o) arg arg.orient).data ∧
    ∀ a y, coverZ (insertIntoViewArg (PSet.mk0 o) arg arg.orient).data a y = cz arg o a y := by
  unfold insertIntoViewArg
  by_cases he : arg.data = []
  · have : ((PSet.mk0 o).insertRange arg.data arg.orient).sort = PSet.mk0 o := by
      simp [PSet.insertRange, he, PSet.sort, PSet.mk0]
    rw [this]
    exact ⟨List.Pairwise.nil, closed_nil, by simp [InRange, PSet.mk0], fun a y => by simp [PSet.mk0, cz, he, coverZ]⟩
  · rw [insertRange_eq _ _ _ he]
    obtain ⟨-, -, f3, f4⟩ := sort_facts ⟨(PSet.mk0 o).orient, (PSet.mk0 o).data ++
      (if arg.orient = (PSet.mk0 o).orient then arg.data else arg.data.map swapV), true, true⟩
    refine ⟨sortedXY_of_vlex (sortData_sorted _), closed_perm f4.symm ?_, inRange_perm f4.symm ?_, fun a y => ?_⟩
    · show Closed ([] ++ _)
      rw [List.nil_append]
      split_ifs
      · exact h.closed
      · exact closed_swap h.closed
    · show InRange umin umax ([] ++ _)
      rw [List.nil_append]
      split_ifs
      · exact h.range
      · intro v hv
        obtain ⟨w, hw, rfl⟩ := List.mem_map.mp hv
        have := h.range w hw
        simp only [swapV]; omega
    · rw [coverZ_perm f4]
      show coverZ ([] ++ _) a y = _
      rw [List.nil_append]
      unfold cz
      by_cases ho : arg.orient = o
      · rw [if_pos ho, if_pos (show arg.orient = (PSet.mk0 o).orient from ho)]
      · rw [if_neg ho, if_neg (show ¬ arg.orient = (PSet.mk0 o).orient from ho), coverZ_swap]

theorem sortCz {s : PSet} (o : Nat) (a y : Int) (ho : o = s.orient) : coverZ s.sort.data a y = cz s o a y := by
  rw [cz, if_pos ho.symm, coverZ_perm (sort_facts s).2.2.2]

theorem scan2 {f : Int → Int → Bool} (hf : f 0 0 = false) {L M : List V} {g h : Int → Int → Int}
    (h1 : SortedXY L) (h2 : SortedXY M) (c1 : Closed L) (c2 : Closed M)
    (r1 : InRange umin umax L) (r2 : InRange umin umax M)
    (e1 : ∀ a y, coverZ L a y = g a y) (e2 : ∀ a y, coverZ M a y = h a y) :
    ∃ d, applyBooleanBinaryOp f umax L M = some d ∧ Canon d ∧ Closed d ∧ InRange umin umax d ∧
      ∀ a y, coverZ d a y = ind (f (g a y) (h a y)) := by
  obtain ⟨d, e, hc, hd⟩ := applyBooleanBinaryOp_spec f hf umax L M h1 h2 (bounded_of_inRange r2)
    ((closed_iff _).mp c1).1 ((closed_iff _).mp c2).1
  refine ⟨d, e, hc, ?_, inRange_out (f := fun u v => ind (f u v)) hc hd r1 r2,
    fun a y => by rw [hd, e1, e2]⟩
  apply closed_of_cover
  · obtain ⟨x0, hx⟩ := cover_right c1
    obtain ⟨x1, hx1⟩ := cover_right c2
    exact ⟨max x0 x1, fun a y ha => by rw [hd, hx a y (by omega), hx1 a y (by omega), hf]; rfl⟩
  · obtain ⟨x0, hx⟩ := cover_top c1
    obtain ⟨x1, hx1⟩ := cover_top c2
    exact ⟨max x0 x1, fun a y ha => by rw [hd, hx a y (by omega), hx1 a y (by omega), hf]; rfl⟩

theorem computeValue_spec {f : Int → Int → Bool} (hf : f 0 0 = false) {l r : PSet} (hl : Valid umin umax l)
    (hr : Valid umin umax r) (o : Nat) :
    ∃ d l' r', computeValue f umax l r o = some (d, l', r') ∧ (l' = l ∨ l' = l.sort) ∧ (r' = r ∨ r' = r.sort) ∧
      Canon d ∧ Closed d ∧ InRange umin umax d ∧ ∀ a y, coverZ d a y = ind (f (cz l o a y) (cz r o a y)) := by
  obtain ⟨a1, a2, a3, a4⟩ := viewArg hl o
  obtain ⟨b1, b2, b3, b4⟩ := viewArg hr o
  unfold computeValue
  by_cases ol : o = l.orient <;> by_cases or' : o = r.orient
  · obtain ⟨d, e, h1, h2, h3, h4⟩ := scan2 hf hl.sortedData hr.sortedData hl.sort.closed hr.sort.closed
      hl.sort.range hr.sort.range (fun a y => sortCz o a y ol) (fun a y => sortCz o a y or')
    exact ⟨d, l.sort, r.sort, by rw [if_pos ⟨ol, or'⟩]; simp [e], Or.inr rfl, Or.inr rfl, h1, h2, h3, h4⟩
  · obtain ⟨d, e, h1, h2, h3, h4⟩ := scan2 hf hl.sortedData b1 hl.sort.closed b2
      hl.sort.range b3 (fun a y => sortCz o a y ol) b4
    exact ⟨d, l.sort, r, by
      rw [if_neg (fun h => or' h.2), if_neg (fun h => h.1 ol), if_neg (fun h => h ol)]; simp [e],
      Or.inr rfl, Or.inl rfl, h1, h2, h3, h4⟩
  · obtain ⟨d, e, h1, h2, h3, h4⟩ := scan2 hf a1 hr.sortedData a2 hr.sort.closed
      a3 hr.sort.range a4 (fun a y => sortCz o a y or')
    exact ⟨d, l, r.sort, by
      rw [if_neg (fun h => ol h.1), if_neg (fun h => h.2 or'), if_pos ol]; simp [e],
      Or.inl rfl, Or.inr rfl, h1, h2, h3, h4⟩
  · obtain ⟨d, e, h1, h2, h3, h4⟩ := scan2 hf a1 b1 a2 b2 a3 b3 a4 b4
    exact ⟨d, l, r, by
      rw [if_neg (fun h => ol h.1), if_pos ⟨ol, or'⟩]; simp [e],
      Or.inl rfl, Or.inl rfl, h1, h2, h3, h4⟩

theorem depth_of_cz {f : Int → Int → Int} {l r : PSet} (hl : l.orient = HORIZONTAL ∨ l.orient = VERTICAL)
    (hr : r.orient = HORIZONTAL ∨ r.orient = VERTICAL) {o : Nat} (ho : o = HORIZONTAL ∨ o = VERTICAL)
    {d : List V} {b c : Bool}
    (h : ∀ a y, coverZ d a y = f (cz l o a y) (cz r o a y)) (p : ℚ × ℚ) :
    depth ⟨o, d, b, c⟩ p = f (depth l p) (depth r p) := by
  rw [depth_def, depth_cz hl ho, depth_cz hr ho]
  simp only
  split_ifs <;> rw [h]

theorem valid_out {o : Nat} (ho : o = HORIZONTAL ∨ o = VERTICAL) {d : List V} {g : Int → Int → Bool} (hc : Canon d)
    (hcl : Closed d) (hr : InRange umin umax d) (h : ∀ a y, coverZ d a y = ind (g a y)) (b c : Bool) :
    Valid umin umax ⟨o, d, b, c⟩ :=
  ⟨ho, fun _ => vlex_of_canon hc, fun _ => flat_of_canon hc (fun a y => by rw [h]; exact ind_cases _), hcl, hr⟩

theorem binaryOp_spec {f : Int → Int → Bool} (hf : f 0 0 = false) {l r : PSet} (hl : Valid umin umax l)
    (hr : Valid umin umax r) :
    ∃ out l' r', binaryOp f umax l r = some (out, l', r') ∧ (l' = l ∨ l' = l.sort) ∧ (r' = r ∨ r' = r.sort) ∧
      Valid umin umax out ∧ out.orient = l.orient ∧ out.dirty = false ∧ out.unsorted = false ∧
      ∀ p, depth out p = ind (f (depth l p) (depth r p)) := by
  obtain ⟨d, l', r', e, h1, h2, h3, h4, h5, h6⟩ := computeValue_spec hf hl hr l.orient
  refine ⟨⟨l.orient, d, false, false⟩, l', r', by simp [binaryOp, e], h1, h2, valid_out hl.orient h3 h4 h5 h6 _ _,
    rfl, rfl, rfl, fun p => ?_⟩
  exact depth_of_cz (f := fun u v => ind (f u v)) hl.orient hr.orient hl.orient h6 p

theorem assignOp_spec {f : Int → Int → Bool} (hf : f 0 0 = false) {l r : PSet} (hl : Valid umin umax l)
    (hr : Valid umin umax r) :
    ∃ out, assignOp f umax l r = some out ∧ Valid umin umax out ∧ out.orient = l.orient ∧
      ∀ p, depth out p = ind (f (depth l p) (depth r p)) := by
  obtain ⟨a1, a2, a3, a4⟩ := viewArg hl l.orient
  obtain ⟨b1, b2, b3, b4⟩ := viewArg hr l.orient
  obtain ⟨d, e, h1, h2, h3, h4⟩ := scan2 hf a1 b1 a2 b2 a3 b3 a4 b4
  refine ⟨⟨l.orient, d, true, true⟩, by simp [assignOp, e, PSet.setData], valid_out hl.orient h1 h2 h3 h4 _ _, rfl,
    fun p => ?_⟩
  exact depth_of_cz (f := fun u v => ind (f u v)) hl.orient hr.orient hl.orient h4 p

theorem clean_depth {s t : PSet} (ho : t.orient = s.orient)
    (h : ∀ a y, coverZ t.data a y = ind (decide (0 < coverZ s.data a y))) (p : ℚ × ℚ) :
    depth t p = ind (decide (0 < depth s p)) := by
  rw [depth_def, depth_def, ho]
  split_ifs <;> rw [h]

theorem bop_zero (op : BOp) : op.code 0 0 = false := by cases op <;> rfl

theorem bop_iff (op : BOp) (a b : Int) : op.code a b = true ↔ op.holds (0 < a) (0 < b) := by
  cases op <;> simp [BOp.code, BOp.holds, binaryOr, binaryAnd, binaryXor, binaryNot]
  by_cases h : 0 < a <;> by_cases h' : 0 < b <;> simp [h, h'] <;> omega

theorem ind_pos (b : Bool) : 0 < ind b ↔ b = true := by cases b <;> simp [ind]

/-! ### inserting -/

theorem insertSet_depth {s t : PSet} (hs : s.orient = HORIZONTAL ∨ s.orient = VERTICAL)
    (ht : t.orient = HORIZONTAL ∨ t.orient = VERTICAL) (p : ℚ × ℚ) :
    depth (s.insertSet t) p = depth s p + depth t p := by
  unfold PSet.insertSet
  by_cases he : t.data = []
  · have : depth t p = 0 := by rw [depth_def, he]; simp [coverZ]
    rw [this, PSet.insertRange, if_pos he]; simp
  · rw [insertRange_eq _ _ _ he, depth_def, depth_def, depth_cz ht hs p]
    simp only [coverZ_append, cz]
    split_ifs <;> simp [coverZ_swap]

theorem insertSet_valid {s t : PSet} (hs : Valid umin umax s) (ht : Valid umin umax t) :
    Valid umin umax (s.insertSet t) := by
  unfold PSet.insertSet
  by_cases he : t.data = []
  · rw [PSet.insertRange, if_pos he]; exact hs
  · rw [insertRange_eq _ _ _ he]
    refine ⟨hs.orient, by simp, by simp, closed_append hs.closed ?_, ?_⟩
    · split_ifs
      · exact ht.closed
      · exact closed_swap ht.closed
    · intro v hv
      rcases List.mem_append.mp hv with hv | hv
      · exact hs.range v hv
      · split_ifs at hv
        · exact ht.range v hv
        · obtain ⟨w, hw, rfl⟩ := List.mem_map.mp hv
          have := ht.range w hw
          simp only [swapV]; omega

theorem rectVertices_closed (r : Rect) (o : Nat) (hole : Bool) : Closed (rectVertices r o hole) := by
  constructor <;> intro a <;> simp only [rectVertices, List.map_cons, List.map_nil, List.sum_cons, List.sum_nil] <;>
    split_ifs <;> omega

theorem rectVertices_ne (r : Rect) (o : Nat) (hole : Bool) : rectVertices r o hole ≠ [] := by simp [rectVertices]

theorem rectVertices_cover (r : Rect) (o : Nat) (hole : Bool) (a y : Int)
    (hh : (r.get (perpendicular o)).lo ≤ (r.get (perpendicular o)).hi) (hv : (r.get o).lo ≤ (r.get o).hi) :
    coverZ (rectVertices r o hole) a y =
      if (r.get (perpendicular o)).lo ≤ a ∧ a < (r.get (perpendicular o)).hi ∧ (r.get o).lo ≤ y ∧ y < (r.get o).hi
      then (if hole then -1 else 1) else 0 := by
  simp only [coverZ, rectVertices, List.map_cons, List.map_nil, List.sum_cons, List.sum_nil]
  split_ifs <;> omega

theorem insertRect_eq (s : PSet) (r : Rect) (hole : Bool) :
    s.insertRect r hole = ⟨s.orient, s.data ++ rectVertices r s.orient hole, true, true⟩ := by
  rw [PSet.insertRect, insertIter_eq _ _ _ (rectVertices_ne _ _ _), if_pos rfl]

theorem insertRect_valid {s : PSet} (hs : Valid umin umax s) (r : Rect) (hole : Bool) (hr : RectIn umin umax r) :
    Valid umin umax (s.insertRect r hole) := by
  rw [insertRect_eq]
  refine ⟨hs.orient, by simp, by simp, closed_append hs.closed (rectVertices_closed _ _ _), ?_⟩
  intro v hv
  rcases List.mem_append.mp hv with hv | hv
  · exact hs.range v hv
  · obtain ⟨h1, h2, h3, h4, h5, h6⟩ := hr
    have := hs.orient
    simp only [rectVertices, Rect.get, List.mem_cons, List.not_mem_nil, or_false] at hv
    rcases this with ho | ho <;> simp only [ho, perpendicular, HORIZONTAL, VERTICAL] at hv <;>
      simp at hv <;> rcases hv with rfl | rfl | rfl | rfl <;> simp only <;> omega

/-- The half-open point set of a rectangle. -/
theorem insertRect_depth {s : PSet} (hs : s.orient = HORIZONTAL ∨ s.orient = VERTICAL) (r : Rect) (hole : Bool)
    (h1 : r.h.lo ≤ r.h.hi) (h2 : r.v.lo ≤ r.v.hi) (p : ℚ × ℚ) :
    depth (s.insertRect r hole) p = depth s p +
      if (r.h.lo : ℚ) ≤ p.1 ∧ p.1 < r.h.hi ∧ (r.v.lo : ℚ) ≤ p.2 ∧ p.2 < r.v.hi
      then (if hole then -1 else 1) else 0 := by
  rw [insertRect_eq, depth_def, depth_def]
  simp only [coverZ_append, ← Int.le_floor, ← Int.floor_lt]
  rcases hs with ho | ho
  · have e1 : r.get (perpendicular s.orient) = r.v := by rw [ho]; rfl
    have e2 : r.get s.orient = r.h := by rw [ho]; rfl
    rw [if_neg (by rw [ho]; decide), if_neg (by rw [ho]; decide), rectVertices_cover, e1, e2]
    · congr 1; split_ifs <;> first | rfl | omega
    · rw [e1]; exact h2
    · rw [e2]; exact h1
  · have e1 : r.get (perpendicular s.orient) = r.h := by rw [ho]; rfl
    have e2 : r.get s.orient = r.v := by rw [ho]; rfl
    rw [if_pos ho, if_pos ho, rectVertices_cover, e1, e2]
    · rw [e1]; exact h1
    · rw [e2]; exact h2

/-! ### self_xor, self_intersect -/

theorem selfXor_spec {s : PSet} (h : Valid umin umax s) (hd : s.dirty = true) :
    ∃ t, s.selfXor umax = some t ∧ Valid umin umax t ∧ t.orient = s.orient ∧ t.dirty = false ∧
      ∀ p, depth t p = ind (posUnary (depth s p)) := by
  obtain ⟨f1, f2, f3, f4⟩ := sort_facts s
  obtain ⟨d, e, hc, hd', hv⟩ := scan1 h posUnary rfl
  refine ⟨⟨s.orient, d, false, false⟩, ?_, hv, rfl, rfl, fun p => ?_⟩
  · simp only [PSet.selfXor, f2, hd, if_true, e]
    simp [f1, f3]
  · rw [depth_def, depth_def]
    simp only
    split_ifs <;> rw [hd']

theorem selfIntersect_spec {s : PSet} (h : Valid umin umax s) (hu : umin ≤ umax) (hd : s.dirty = true) :
    ∃ t, s.selfIntersect umin umax = some t ∧ Valid umin umax t ∧ t.orient = s.orient ∧ t.dirty = false ∧
      ∀ p, depth t p = ind (decide (0 < depth (s.insertRect ⟨⟨umin, umax⟩, ⟨umin, umax⟩⟩ true) p)) := by
  obtain ⟨f1, f2, f3, f4⟩ := sort_facts s
  have hv := insertRect_valid h.sort ⟨⟨umin, umax⟩, ⟨umin, umax⟩⟩ true
    (by simp only [RectIn]; omega)
  obtain ⟨t, e, t1, t2, t3, t4, t5, t6⟩ := clean_spec hv
  refine ⟨t, ?_, t5, by rw [t1, insertRect_eq]; exact f1, t2, fun p => ?_⟩
  · simp only [PSet.selfIntersect, f2, hd, if_true, e]
  · rw [clean_depth t1 t6, insertRect_depth (by rw [f1]; exact h.orient) _ _ hu hu,
      insertRect_depth h.orient _ _ hu hu, sort_depth]

end Verif.Set90
