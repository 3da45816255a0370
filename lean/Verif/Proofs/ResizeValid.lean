import Verif.Proofs.ResizeDir
import Verif.Proofs.Set90Ops
/-! # Helper lemmas: resizing on two sides at once, and the validity of resized sets -/
namespace Verif.Shift1D

/-- Move the leaving crossings up and the entering crossings down. -/
def both (s n : Int) (e : Int × Int) : Int × Int := (if e.2 < 0 then e.1 + n else if 0 < e.2 then e.1 - s else e.1, e.2)

theorem W_both (E : List (Int × Int)) (s n y : Int) (hs : 0 ≤ s) (hn : 0 ≤ n) :
    W (E.map (both s n)) y = W E y + neg E (y - n) y + pos E y (y + s) := by
  induction E with
  | nil => simp [W, neg, pos]
  | cons e E ih =>
    simp only [W, neg, pos, both, List.map_cons, List.sum_cons, List.map_map] at *
    rw [ih]
    split_ifs <;> omega

theorem W_both_neg (E : List (Int × Int)) (s n y : Int) (hs : 0 ≤ s) (hn : 0 ≤ n) :
    W (E.map (both (-s) (-n))) y = W E y - neg E y (y + n) - pos E (y - s) y := by
  induction E with
  | nil => simp [W, neg, pos]
  | cons e E ih =>
    simp only [W, neg, pos, both, List.map_cons, List.sum_cons, List.map_map] at *
    rw [ih]
    split_ifs <;> omega

theorem dilate_both {E : List (Int × Int)} (ho : NoOpp E) (h0 : ∀ y, 0 ≤ W E y) (s n y : Int) (hs : 0 ≤ s) (hn : 0 ≤ n) :
    0 < W (E.map (both s n)) y ↔ ∃ z, y - n ≤ z ∧ z ≤ y + s ∧ 0 < W E z := by
  have a := dilate_up ho h0 n y hn
  have b := dilate_dn ho h0 s y hs
  rw [W_up E n y hn] at a
  rw [W_dn E s y hs] at b
  rw [W_both E s n y hs hn]
  have h1 := neg_nonneg E (y - n) y
  have h2 := pos_nonneg E y (y + s)
  have h3 := h0 y
  have : 0 < W E y + neg E (y - n) y + pos E y (y + s) ↔ 0 < W E y + neg E (y - n) y ∨ 0 < W E y + pos E y (y + s) := by omega
  rw [this, a, b]
  constructor
  · rintro (⟨z, z1, z2, z3⟩ | ⟨z, z1, z2, z3⟩)
    · exact ⟨z, z1, by omega, z3⟩
    · exact ⟨z, by omega, z2, z3⟩
  · rintro ⟨z, z1, z2, z3⟩
    rcases le_total z y with h | h
    · exact Or.inl ⟨z, z1, h, z3⟩
    · exact Or.inr ⟨z, h, z2, z3⟩

theorem erode_both {E : List (Int × Int)} (ho : NoOpp E) (h1 : ∀ y, W E y ≤ 1) (s n y : Int) (hs : 0 ≤ s) (hn : 0 ≤ n) :
    0 < W (E.map (both (-s) (-n))) y ↔ ∀ z, y - s ≤ z → z ≤ y + n → 0 < W E z := by
  have a := erode_up ho h1 n y hn
  have b := erode_dn ho h1 s y hs
  rw [W_up_neg E n y hn] at a
  rw [W_dn_neg E s y hs] at b
  rw [W_both_neg E s n y hs hn]
  have k1 := neg_nonneg E y (y + n)
  have k2 := pos_nonneg E (y - s) y
  have k3 := h1 y
  have : 0 < W E y - neg E y (y + n) - pos E (y - s) y ↔ 0 < W E y - neg E y (y + n) ∧ 0 < W E y - pos E (y - s) y := by omega
  rw [this, a, b]
  constructor
  · rintro ⟨f, g⟩ z z1 z2
    rcases le_total z y with h | h
    · exact g z z1 h
    · exact f z h z2
  · intro f
    exact ⟨fun z z1 z2 => f z (by omega) z2, fun z z1 z2 => f z z1 (by omega)⟩

end Verif.Shift1D

namespace Verif.ResizePoly
open Verif.Spec Verif.Polygon Verif.BooleanOp Verif.Set90 Verif.Isotropy Verif.Shift1D

theorem collapseGo_sub (p : Int × Int) : ∀ (r : List (Int × Int)) (prev cur : Int × Int) (out : List (Int × Int)),
    p ∈ collapseGo prev cur out r → p ∈ out ∨ p = cur ∨ p ∈ r
  | [], prev, cur, out, h => by
    unfold collapseGo at h
    split_ifs at h
    · exact Or.inl h
    · simp only [List.mem_append, List.mem_singleton] at h
      tauto
  | c :: r, prev, cur, out, h => by
    unfold collapseGo at h
    split_ifs at h
    · rcases collapseGo_sub p r _ _ _ h with h | h | h
      · exact Or.inl h
      · simp [h]
      · simp [h]
    · rcases collapseGo_sub p r _ _ _ h with h | h | h
      · simp only [List.mem_append, List.mem_singleton] at h
        tauto
      · simp [h]
      · simp [h]

theorem collapse_sub {P : List (Int × Int)} {p : Int × Int} (h : p ∈ collapse P) : p ∈ P := by
  cases P with
  | nil => simp [collapse] at h
  | cons a r =>
    rcases collapseGo_sub p r _ _ _ h with h | h | h
    · simp at h
    · simp [h]
    · simp [h]

theorem removeColinear_sub (P : List (Int × Int)) {p : Int × Int} (h : p ∈ removeColinear P) : p ∈ P := by
  rw [removeColinear] at h
  split_ifs at h with h4 hl
  · exact collapse_sub (removeColinear_sub (collapse P) h)
  · exact collapse_sub h
  · exact h
termination_by P.length

theorem mod_pts {P : List (Int × Int)} (h : 2 ≤ P.length) {w e s n m umin umax : Int} (hw : |w| ≤ m) (he : |e| ≤ m) (hs : |s| ≤ m) (hn : |n| ≤ m)
    (hP : PtsIn (umin + m) (umax - m) P) : PtsIn umin umax (mod w e s n P) := by
  match P, h with
  | a :: b :: r, _ =>
    obtain ⟨Q, hQ, hrot, -⟩ := modifyAll_eq w e s n a b r
    have hm : mod w e s n (a :: b :: r) = Q := by simp [mod, hQ]
    rw [hm]
    intro p hp
    have hp' : p ∈ Q.rotate 1 := List.mem_rotate.2 hp
    rw [hrot] at hp'
    obtain ⟨t, ht, rfl⟩ := List.mem_map.1 hp'
    have hmem : t.2.1 ∈ a :: b :: r := by
      have := mem_trip ht
      simp only [List.cons_append, List.mem_cons, List.mem_append, List.not_mem_nil, or_false] at this ⊢
      tauto
    have := hP _ hmem
    rw [modifyPt_x, modifyPt_y]
    rw [abs_le] at hw he hs hn
    split_ifs <;> omega

theorem boundaryVertices_range {R : List (Int × Int)} {o : Nat} (ho : o = HORIZONTAL ∨ o = VERTICAL) {hole : Bool} {wd : Nat} {umin umax : Int}
    (h4 : 4 ≤ R.length) (hns : NoStutter R) (hR : PtsIn umin umax R) : InRange umin umax (boundaryVertices R o hole wd) := by
  match R, h4 with
  | a :: b :: c :: d :: r, _ =>
    intro v hv
    simp only [boundaryVertices] at hv
    rw [polyGo_eq _ _ _ _ _ _ _ _ (by simpa using hns.2)] at hv
    obtain ⟨t, ht, rfl⟩ := List.mem_map.mp hv
    have hm : t.2.1 ∈ a :: b :: c :: d :: r := by
      have := mem_trip ht
      simp only [List.cons_append, List.mem_cons, List.mem_append, List.not_mem_nil, or_false] at this ⊢
      tauto
    have := hR _ hm
    rcases ho with ho | ho <;> simp only [evalPts, pget, perpendicular, ho, HORIZONTAL, VERTICAL] <;> simp <;> omega

theorem boundaryVertices_short {R : List (Int × Int)} (h : R.length < 4) (o : Nat) (hole : Bool) (wd : Nat) : boundaryVertices R o hole wd = [] := by
  unfold boundaryVertices
  split
  · simp only [List.length_cons] at h; omega
  · rfl

theorem insert_valid {umin umax : Int} {t : PSet} (ht : Valid umin umax t) {M : List (Int × Int)} (hM : Rectilinear M) (hR : PtsIn umin umax M)
    (hole : Bool) (wd : Nat) (hw : (hole = false ∧ wd = HIGH) ∨ (hole = true ∧ wd = LOW)) :
    Valid umin umax (t.insertIter (boundaryVertices (removeColinear M) t.orient hole wd) t.orient) := by
  have hd := insert_depth t ht.orient M hM hole wd hw
  by_cases hb : boundaryVertices (removeColinear M) t.orient hole wd = []
  · rw [hb]; simpa [PSet.insertIter] using ht
  have h4 : 4 ≤ (removeColinear M).length := by
    by_contra h
    exact hb (boundaryVertices_short (by omega) _ _ _)
  have hcol := (removeColinear_spec M).resolve_left (by omega)
  obtain ⟨ha, hn⟩ := polyOk_of h4 (removeColinear_rect hM) hcol
  have hrng : InRange umin umax (boundaryVertices (removeColinear M) t.orient hole wd) :=
    boundaryVertices_range ht.orient h4 hn (fun p hp => hR p (removeColinear_sub M hp))
  have e := insertIter_eq t _ t.orient hb
  rw [if_pos rfl] at e
  rw [e] at hd ⊢
  obtain ⟨X, hX⟩ := cover_right ht.closed
  obtain ⟨Y, hY⟩ := cover_top ht.closed
  refine ⟨ht.orient, by simp, by simp, ?_, ?_⟩
  · have key : ∀ a b : Int, coverZ (t.data ++ boundaryVertices (removeColinear M) t.orient hole wd) a b = coverZ t.data a b +
        (if t.orient = VERTICAL then ((edges M).map (wE a b)).sum else ((edges M).map (wE b a)).sum) := by
      intro a b
      rcases ht.orient with ho | ho
      · have hv : ¬ t.orient = VERTICAL := by rw [ho]; decide
        have := (hd ((b : ℚ), (a : ℚ))).1
        rw [depth_def, depth_def, wind_eq] at this
        simpa [hv] using this
      · have := (hd ((a : ℚ), (b : ℚ))).1
        rw [depth_def, depth_def, wind_eq] at this
        simpa [ho] using this
    have fx : ∀ a b : Int, umax ≤ a → ((edges M).map (wE a b)).sum = 0 := fun a b h => wsum_far_x M a b (fun p hp => by have := hR p hp; omega)
    have fy : ∀ a b : Int, umax ≤ b → ((edges M).map (wE a b)).sum = 0 := fun a b h => wsum_far_y M hM a b (fun p hp => by have := hR p hp; omega)
    refine closed_of_cover ⟨max X umax, fun a y h => ?_⟩ ⟨max Y umax, fun a y h => ?_⟩
    · show coverZ (t.data ++ _) a y = 0
      rw [key, hX a y (by omega)]
      split_ifs
      · rw [fx a y (by omega)]; rfl
      · rw [fy y a (by omega)]; rfl
    · show coverZ (t.data ++ _) a y = 0
      rw [key, hY a y (by omega)]
      split_ifs
      · rw [fy a y (by omega)]; rfl
      · rw [fx y a (by omega)]; rfl
  · intro v hv
    rcases List.mem_append.1 hv with h | h
    · exact ht.range v h
    · exact hrng v h

variable {umin umax w e s n m : Int}

theorem down_valid (hw : |w| ≤ m) (he : |e| ≤ m) (hs : |s| ≤ m) (hn : |n| ≤ m) {t : PSet} (ht : Valid umin umax t) {P d : List (Int × Int)}
    (hP : Good P) (hr : PtsIn (umin + m) (umax - m) P) (hd : resizeDown P w e s n = some d) {hole : Bool} {wd : Nat}
    (hww : (hole = false ∧ wd = HIGH) ∨ (hole = true ∧ wd = LOW)) : Valid umin umax (t.insertIter (boundaryVertices d t.orient hole wd) t.orient) := by
  rw [resizeDown_eq hP] at hd
  have hd := Option.some_inj.1 hd
  have hnil : Valid umin umax (t.insertIter (boundaryVertices [] t.orient hole wd) t.orient) := by
    simpa [boundaryVertices, PSet.insertIter] using ht
  split_ifs at hd
  · subst hd; exact hnil
  · subst hd; exact insert_valid ht (mod_rect hP w e s n) (mod_pts hP.1 hw he hs hn hr) hole wd hww
  · subst hd; exact hnil

theorem bloatHoles_valid (hw : |w| ≤ m) (he : |e| ≤ m) (hs : |s| ≤ m) (hn : |n| ≤ m) : ∀ (H : List (List (Int × Int))) (t t' : PSet), Valid umin umax t →
    (∀ h ∈ H, Good h ∧ PtsIn (umin + m) (umax - m) h) → bloatHoles w e s n t H = some t' → Valid umin umax t'
  | [], t, t', ht, _, e1 => by
    simp only [bloatHoles, Option.some.injEq] at e1
    exact e1 ▸ ht
  | h :: H, t, t', ht, hH, e1 => by
    simp only [bloatHoles, Option.bind_eq_bind, Option.bind_eq_some_iff] at e1
    obtain ⟨d, hd, e2⟩ := e1
    obtain ⟨g1, g2⟩ := hH h (by simp)
    exact bloatHoles_valid hw he hs hn H _ t' (down_valid hw he hs hn ht g1 g2 hd (Or.inr ⟨rfl, rfl⟩)) (fun x hx => hH x (by simp [hx])) e2

theorem bloatPolys_valid (hw : |w| ≤ m) (he : |e| ≤ m) (hs : |s| ≤ m) (hn : |n| ≤ m) : ∀ (polys : List PolyHoles) (t t' : PSet), Valid umin umax t →
    (∀ P ∈ boundaries polys, Good P ∧ PtsIn (umin + m) (umax - m) P) → bloatPolys w e s n t polys = some t' → Valid umin umax t'
  | [], t, t', ht, _, e1 => by
    simp only [bloatPolys, Option.some.injEq] at e1
    exact e1 ▸ ht
  | p :: polys, t, t', ht, hP, e1 => by
    obtain ⟨g1, g2⟩ := hP p.1 (by simp [boundaries])
    simp only [bloatPolys, Option.bind_eq_bind, Option.bind_eq_some_iff, resizeUp_eq g1, Option.some.injEq, exists_eq_left'] at e1
    obtain ⟨t1, h1, e2⟩ := e1
    have v1 := insert_valid ht (mod_rect g1 w e s n) (mod_pts g1.1 hw he hs hn g2) false HIGH (Or.inl ⟨rfl, rfl⟩)
    refine bloatPolys_valid hw he hs hn polys t1 t' (bloatHoles_valid hw he hs hn p.2 _ t1 v1 (fun h hh => hP h (by simp [boundaries, hh])) h1) (fun x hx => hP x (by
      simp only [boundaries, List.flatMap_cons, List.mem_append] at hx ⊢; right; exact hx)) e2

theorem shrinkHoles_valid (hw : |w| ≤ m) (he : |e| ≤ m) (hs : |s| ≤ m) (hn : |n| ≤ m) : ∀ (H : List (List (Int × Int))) (t t' : PSet), Valid umin umax t →
    (∀ h ∈ H, Good h ∧ PtsIn (umin + m) (umax - m) h) → shrinkHoles w e s n t H = some t' → Valid umin umax t'
  | [], t, t', ht, _, e1 => by
    simp only [shrinkHoles, Option.some.injEq] at e1
    exact e1 ▸ ht
  | h :: H, t, t', ht, hH, e1 => by
    obtain ⟨g1, g2⟩ := hH h (by simp)
    simp only [shrinkHoles, Option.bind_eq_bind, Option.bind_eq_some_iff, resizeUp_eq g1, Option.some.injEq, exists_eq_left'] at e1
    exact shrinkHoles_valid hw he hs hn H _ t' (insert_valid ht (mod_rect g1 _ _ _ _)
      (mod_pts g1.1 (by rwa [abs_neg]) (by rwa [abs_neg]) (by rwa [abs_neg]) (by rwa [abs_neg]) g2) true LOW (Or.inr ⟨rfl, rfl⟩))
      (fun x hx => hH x (by simp [hx])) e1

theorem shrinkPolys_valid (hw : |w| ≤ m) (he : |e| ≤ m) (hs : |s| ≤ m) (hn : |n| ≤ m) : ∀ (polys : List PolyHoles) (t t' : PSet), Valid umin umax t →
    (∀ P ∈ boundaries polys, Good P ∧ PtsIn (umin + m) (umax - m) P) → shrinkPolys w e s n t polys = some t' → Valid umin umax t'
  | [], t, t', ht, _, e1 => by
    simp only [shrinkPolys, Option.some.injEq] at e1
    exact e1 ▸ ht
  | p :: polys, t, t', ht, hP, e1 => by
    obtain ⟨g1, g2⟩ := hP p.1 (by simp [boundaries])
    simp only [shrinkPolys, Option.bind_eq_bind, Option.bind_eq_some_iff] at e1
    obtain ⟨d, hd, e1⟩ := e1
    have hrest : ∀ P ∈ boundaries polys, Good P ∧ PtsIn (umin + m) (umax - m) P := fun x hx => hP x (by
      simp only [boundaries, List.flatMap_cons, List.mem_append] at hx ⊢; right; exact hx)
    split_ifs at e1 with h0
    · exact shrinkPolys_valid hw he hs hn polys t t' ht hrest e1
    · simp only [Option.bind_eq_some_iff] at e1
      obtain ⟨t1, h1, e2⟩ := e1
      have v1 := down_valid (m := m) (by rwa [abs_neg]) (by rwa [abs_neg]) (by rwa [abs_neg]) (by rwa [abs_neg]) ht g1 g2 hd (hole := false) (wd := HIGH) (Or.inl ⟨rfl, rfl⟩)
      exact shrinkPolys_valid hw he hs hn polys t1 t' (shrinkHoles_valid hw he hs hn p.2 _ t1 v1 (fun h hh => hP h (by simp [boundaries, hh])) h1) hrest e2

/-! ### The vertices of regular polygons lie where their region lies -/

theorem triple {P : List (Int × Int)} {p : Int × Int} (hp : p ∈ P) :
    ∃ t ∈ P.zip ((P.rotate 1).zip (P.rotate 2)), t.2.1 = p ∧ (t.1, p) ∈ edges P ∧ (p, t.2.2) ∈ edges P := by
  obtain ⟨i, hi, rfl⟩ := List.mem_iff_getElem.1 (List.mem_rotate.2 hp : p ∈ P.rotate 1)
  have hi' : i < P.length := by simpa using hi
  refine ⟨(P[i], (P.rotate 1)[i], (P.rotate 2)[i]'(by simpa using hi')), ?_, rfl, ?_, ?_⟩
  · rw [List.mem_iff_getElem]
    exact ⟨i, by simpa using hi', by simp⟩
  · unfold edges
    rw [List.mem_iff_getElem]
    exact ⟨i, by simpa using hi', by simp⟩
  · have hz : (P.rotate 1).zip (P.rotate 2) = (edges P).rotate 1 := by
      unfold edges
      rw [show P.rotate 2 = (P.rotate 1).rotate 1 by rw [List.rotate_rotate]]
      exact (List.zipWith_rotate_distrib Prod.mk P (P.rotate 1) 1 (by simp)).symm
    rw [← List.mem_rotate (n := 1), ← hz, List.mem_iff_getElem]
    exact ⟨i, by simpa using hi', by simp⟩

/-- If the upright edges of a boundary without spikes have their abscissas in a range, all vertices do. -/
theorem pts_x {P : List (Int × Int)} (h : Good P) {a b : Int} (hv : ∀ e ∈ edges P, e.1.2 ≠ e.2.2 → a ≤ e.1.1 ∧ e.1.1 ≤ b) : ∀ p ∈ P, a ≤ p.1 ∧ p.1 ≤ b := by
  intro p hp
  have step : ∀ t : (Int × Int) × (Int × Int) × (Int × Int), (t.1, t.2.1) ∈ edges P → (t.2.1, t.2.2) ∈ edges P →
      (a ≤ t.2.1.1 ∧ t.2.1.1 ≤ b) ∨ (t.1.2 = t.2.1.2 ∧ t.2.1.2 = t.2.2.2 ∧ t.1.1 ≠ t.2.1.1 ∧ t.2.1.1 ≠ t.2.2.1) := by
    rintro ⟨u, v, x⟩ e1 e2
    dsimp only at *
    by_cases g1 : u.2 = v.2
    · by_cases g2 : v.2 = x.2
      · right
        refine ⟨g1, g2, fun c => h.2.2.1 _ e1 (Prod.ext c g1), fun c => h.2.2.1 _ e2 (Prod.ext c g2)⟩
      · exact Or.inl (hv _ e2 g2)
    · have := hv _ e1 g1
      have hr := h.2.1 _ e1
      dsimp only at this hr
      left
      rcases hr with hr | hr
      · rw [hr] at this; exact this
      · exact absurd hr g1
  have hne : P.toFinset.Nonempty := ⟨p, List.mem_toFinset.2 hp⟩
  have nb : ∀ {x y}, (x, y) ∈ edges P → x ∈ P ∧ y ∈ P := fun he => ⟨(List.of_mem_zip he).1, List.mem_rotate.1 (List.of_mem_zip he).2⟩
  constructor
  · obtain ⟨q, hq, hmin⟩ := Finset.exists_min_image P.toFinset Prod.fst hne
    have hq := List.mem_toFinset.1 hq
    have hmin : ∀ x ∈ P, q.1 ≤ x.1 := fun x hx => hmin x (List.mem_toFinset.2 hx)
    obtain ⟨t, ht, rfl, e1, e2⟩ := triple hq
    rcases step t e1 e2 with g | ⟨g1, g2, g3, g4⟩
    · have := hmin p hp; omega
    · have := hmin _ (nb e1).1
      have := hmin _ (nb e2).2
      exact absurd ⟨g1, g2, Or.inr ⟨by omega, by omega⟩⟩ (h.2.2.2 t ht).1
  · obtain ⟨q, hq, hmin⟩ := Finset.exists_max_image P.toFinset Prod.fst hne
    have hq := List.mem_toFinset.1 hq
    have hmin : ∀ x ∈ P, x.1 ≤ q.1 := fun x hx => hmin x (List.mem_toFinset.2 hx)
    obtain ⟨t, ht, rfl, e1, e2⟩ := triple hq
    rcases step t e1 e2 with g | ⟨g1, g2, g3, g4⟩
    · have := hmin p hp; omega
    · have := hmin _ (nb e1).1
      have := hmin _ (nb e2).2
      exact absurd ⟨g1, g2, Or.inl ⟨by omega, by omega⟩⟩ (h.2.2.2 t ht).1

/-- If the level edges of a boundary without spikes have their ordinates in a range, all vertices do. -/
theorem pts_y {P : List (Int × Int)} (h : Good P) {a b : Int} (hv : ∀ e ∈ edges P, e.1.1 ≠ e.2.1 → a ≤ e.1.2 ∧ e.1.2 ≤ b) : ∀ p ∈ P, a ≤ p.2 ∧ p.2 ≤ b := by
  intro p hp
  have step : ∀ t : (Int × Int) × (Int × Int) × (Int × Int), (t.1, t.2.1) ∈ edges P → (t.2.1, t.2.2) ∈ edges P →
      (a ≤ t.2.1.2 ∧ t.2.1.2 ≤ b) ∨ (t.1.1 = t.2.1.1 ∧ t.2.1.1 = t.2.2.1 ∧ t.1.2 ≠ t.2.1.2 ∧ t.2.1.2 ≠ t.2.2.2) := by
    rintro ⟨u, v, x⟩ e1 e2
    dsimp only at *
    by_cases g1 : u.1 = v.1
    · by_cases g2 : v.1 = x.1
      · right
        refine ⟨g1, g2, fun c => h.2.2.1 _ e1 (Prod.ext g1 c), fun c => h.2.2.1 _ e2 (Prod.ext g2 c)⟩
      · exact Or.inl (hv _ e2 g2)
    · have := hv _ e1 g1
      have hr := h.2.1 _ e1
      dsimp only at this hr
      left
      rcases hr with hr | hr
      · exact absurd hr g1
      · rw [hr] at this; exact this
  have hne : P.toFinset.Nonempty := ⟨p, List.mem_toFinset.2 hp⟩
  have nb : ∀ {x y}, (x, y) ∈ edges P → x ∈ P ∧ y ∈ P := fun he => ⟨(List.of_mem_zip he).1, List.mem_rotate.1 (List.of_mem_zip he).2⟩
  constructor
  · obtain ⟨q, hq, hmin⟩ := Finset.exists_min_image P.toFinset Prod.snd hne
    have hq := List.mem_toFinset.1 hq
    have hmin : ∀ x ∈ P, q.2 ≤ x.2 := fun x hx => hmin x (List.mem_toFinset.2 hx)
    obtain ⟨t, ht, rfl, e1, e2⟩ := triple hq
    rcases step t e1 e2 with g | ⟨g1, g2, g3, g4⟩
    · have := hmin p hp; omega
    · have := hmin _ (nb e1).1
      have := hmin _ (nb e2).2
      exact absurd ⟨g1, g2, Or.inr ⟨by omega, by omega⟩⟩ (h.2.2.2 t ht).2
  · obtain ⟨q, hq, hmin⟩ := Finset.exists_max_image P.toFinset Prod.snd hne
    have hq := List.mem_toFinset.1 hq
    have hmin : ∀ x ∈ P, x.2 ≤ q.2 := fun x hx => hmin x (List.mem_toFinset.2 hx)
    obtain ⟨t, ht, rfl, e1, e2⟩ := triple hq
    rcases step t e1 e2 with g | ⟨g1, g2, g3, g4⟩
    · have := hmin p hp; omega
    · have := hmin _ (nb e1).1
      have := hmin _ (nb e2).2
      exact absurd ⟨g1, g2, Or.inl ⟨by omega, by omega⟩⟩ (h.2.2.2 t ht).2

/-- The vertices of regular polygons lie in every range that holds the covered points. -/
theorem regular_range {polys : List PolyHoles} (h : RegularPolys polys) {a b : Int}
    (hc : ∀ x y : Int, 0 < total polys ((x : ℚ), (y : ℚ)) → a ≤ x ∧ x < b ∧ a ≤ y ∧ y < b) : ∀ P ∈ boundaries polys, PtsIn a b P := by
  have hr : ∀ P ∈ boundaries polys, Rectilinear P := fun P hP => (h.boundary P hP).2.1
  have tV : ∀ x z : Int, W ((boundaries polys).flatMap (evV x)) z = total polys ((x : ℚ), (z : ℚ)) := by
    intro x z
    rw [W_flatMap]
    unfold total
    congr 1
    apply List.map_congr_left
    intro P hP
    rw [W_evV (hr P hP), wind_eq]
    simp
  have tH : ∀ y z : Int, W ((boundaries polys).flatMap (evH y)) z = total polys ((z : ℚ), (y : ℚ)) := by
    intro y z
    rw [W_flatMap]
    unfold total
    congr 1
    apply List.map_congr_left
    intro P hP
    rw [W_evH (hr P hP), wind_eq]
    simp
  intro P hP p hp
  have hx := pts_x (h.boundary P hP) (a := a) (b := b) (fun e he hne => by
    have hex := (hr P hP e he).resolve_right hne
    obtain ⟨z, z1, z2, z3⟩ := crossing_covered (lo := e.2.1 - 1) (hi := e.2.1) (noOpp_evH hr h.opposite (min e.1.2 e.2.2))
      (fun z => by rw [tH]; exact (h.once _).1)
      (e := (e.2.1, (if e.2.2 ≤ min e.1.2 e.2.2 then 1 else 0) - (if e.1.2 ≤ min e.1.2 e.2.2 then 1 else 0)))
      (List.mem_flatMap.2 ⟨P, hP, List.mem_map_of_mem he⟩) (by dsimp only; split_ifs <;> omega) (by simp) (le_refl _)
    rw [tH] at z3
    have := hc _ _ z3
    omega) p hp
  have hy := pts_y (h.boundary P hP) (a := a) (b := b) (fun e he hne => by
    have hex := (hr P hP e he).resolve_left hne
    obtain ⟨z, z1, z2, z3⟩ := crossing_covered (lo := e.1.2 - 1) (hi := e.1.2) (noOpp_evV hr h.opposite (min e.1.1 e.2.1))
      (fun z => by rw [tV]; exact (h.once _).1)
      (e := (e.1.2, (if e.1.1 ≤ min e.1.1 e.2.1 then 1 else 0) - (if e.2.1 ≤ min e.1.1 e.2.1 then 1 else 0)))
      (List.mem_flatMap.2 ⟨P, hP, List.mem_map_of_mem he⟩) (by dsimp only; split_ifs <;> omega) (by simp) (le_refl _)
    rw [tV] at z3
    have := hc _ _ z3
    omega) p hp
  exact ⟨hx.1, hx.2, hy.1, hy.2⟩

end Verif.ResizePoly
