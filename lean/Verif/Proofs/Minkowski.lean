import Verif.Model.Minkowski
import Verif.Spec.Minkowski
import Verif.Proofs.RingLoop
import Verif.Proofs.Parallel
import Verif.Proofs.PolyArea
import Verif.Properties.PolySet
/-!
# What the convolution of two polygons inserts
-/
namespace Verif.Proofs.Minkowski
open Verif.Minkowski Verif.Spec Verif.Spec.Arb Verif.Spec.Minkowski Verif.PolySet Verif.ArbForm Verif.Parallel

/-- An inserted object. -/
abbrev Obj := (List (Int × Int) × List (List (Int × Int))) × Bool

def ins (D : Data) (o : Obj) : Data := insertHoles D o.1.1 o.1.2 o.2

/-- The figures of two sequences. -/
def figs (s r : List (Int × Int)) : List Obj := (s.zip s.tail).flatMap (fun ea => (r.zip r.tail).map (fun eb => ((convolveTwoSegments eb ea, []), false)))

def figsPolys (s : List (Int × Int)) (B : List Poly) : List Obj := B.flatMap (fun Q => (Q.outer :: Q.holes).flatMap (figs s))

def moved (P : Poly) (d : Int × Int) : Obj := (((convolvePoly P d).outer, (convolvePoly P d).holes), false)

def first (P : Poly) : Int × Int := P.outer.headD (0, 0)

def opsOne (B : List Poly) (P : Poly) : List Obj :=
  (P.outer :: P.holes).flatMap (fun s => figsPolys s B) ++ B.flatMap (fun Q => [moved P (first Q), moved Q (first P)])

def ops (A B : List Poly) : List Obj := A.flatMap (opsOne B)

theorem foldl_flat {α β γ : Type*} (f : γ → β → γ) (g : α → List β) : ∀ (l : List α) (D : γ), (l.flatMap g).foldl f D = l.foldl (fun D a => (g a).foldl f D) D
  | [], _ => rfl
  | a :: r, D => by rw [List.flatMap_cons, List.foldl_append, foldl_flat f g r, List.foldl_cons]

theorem inner_eq (pa a : Int × Int) : ∀ (r : List (Int × Int)) (pb : Int × Int) (D : Data),
    innerLoop pa a D pb r = (((pb :: r).zip r).map (fun eb => (((convolveTwoSegments eb (pa, a), []), false) : Obj))).foldl ins D
  | [], _, _ => rfl
  | b :: r, pb, D => by
    rw [innerLoop, inner_eq pa a r]; rfl

theorem outer_eq (b0 : Int × Int) (rb : List (Int × Int)) : ∀ (r : List (Int × Int)) (pa : Int × Int) (D : Data),
    outerLoop b0 rb D pa r = (((pa :: r).zip r).flatMap (fun ea => ((b0 :: rb).zip rb).map (fun eb => (((convolveTwoSegments eb ea, []), false) : Obj)))).foldl ins D
  | [], _, _ => rfl
  | a :: r, pa, D => by
    rw [outerLoop, outer_eq b0 rb r, inner_eq, List.zip_cons_cons, List.flatMap_cons, List.foldl_append]

theorem seqs_eq (D : Data) (s r : List (Int × Int)) : convolveSeqs D s r = (figs s r).foldl ins D := by
  cases s with
  | nil => rfl
  | cons a ra =>
    cases r with
    | nil =>
      have : figs (a :: ra) [] = [] := List.flatMap_eq_nil_iff.2 fun _ _ => rfl
      rw [this]; rfl
    | cons b rb => exact outer_eq b rb ra a D

theorem seqPolys_eq (D : Data) (s : List (Int × Int)) (B : List Poly) : convolveSeqPolys D s B = (figsPolys s B).foldl ins D := by
  unfold convolveSeqPolys figsPolys
  rw [foldl_flat]
  congr 1
  funext D P
  rw [foldl_flat, List.foldl_cons, seqs_eq]
  congr 1
  funext D h
  exact seqs_eq D s h

theorem one_eq (B : List Poly) (P : Poly) (hP : P.outer ≠ []) (hB : ∀ Q ∈ B, Q.outer ≠ []) (D : Data) : convolveOne B D P = some ((opsOne B P).foldl ins D) := by
  unfold convolveOne opsOne
  have e1 : P.holes.foldl (fun D h => convolveSeqPolys D h B) (convolveSeqPolys D P.outer B) = ((P.outer :: P.holes).flatMap (fun s => figsPolys s B)).foldl ins D := by
    rw [foldl_flat, List.foldl_cons, seqPolys_eq]
    congr 1
    funext D h
    exact seqPolys_eq D h B
  rw [e1, List.foldl_append]
  clear e1
  generalize ((P.outer :: P.holes).flatMap (fun s => figsPolys s B)).foldl ins D = E
  induction B generalizing E with
  | nil => rfl
  | cons Q r ih =>
    have hQ := hB Q (by simp)
    rw [List.foldlM_cons, List.flatMap_cons, List.foldl_append]
    have : insertMoved P E Q = some ([moved P (first Q), moved Q (first P)].foldl ins E) := by
      unfold insertMoved
      obtain ⟨p, pr, hp⟩ := List.exists_cons_of_ne_nil hP
      obtain ⟨x, xr, hx⟩ := List.exists_cons_of_ne_nil hQ
      have f1 : first P = p := by unfold first; rw [hp]; rfl
      have f2 : first Q = x := by unfold first; rw [hx]; rfl
      have g1 : P.outer.head? = some p := by rw [hp]; rfl
      have g2 : Q.outer.head? = some x := by rw [hx]; rfl
      rw [f1, f2, g1, g2]; rfl
    rw [this]
    exact ih (fun Q hQ => hB Q (List.mem_cons_of_mem _ hQ)) _

theorem polys_eq (A B : List Poly) (hA : ∀ P ∈ A, P.outer ≠ []) (hB : ∀ Q ∈ B, Q.outer ≠ []) : convolvePolys A B = some ((ops A B).foldl ins []) := by
  unfold convolvePolys ops
  generalize ([] : Data) = D
  induction A generalizing D with
  | nil => rfl
  | cons P r ih =>
    rw [List.foldlM_cons, one_eq B P (hA P (by simp)) hB, List.flatMap_cons, List.foldl_append]
    exact ih (fun P hP => hA P (List.mem_cons_of_mem _ hP)) _

/-- The figure of two segments is the parallelogram of their sums. -/
theorem segs_corners (e f : Edge) : convolveTwoSegments e f = corners (e.1.1 + f.1.1, e.1.2 + f.1.2) (e.2.1 - e.1.1, e.2.2 - e.1.2) (f.2.1 - f.1.1, f.2.2 - f.1.2) := by
  unfold convolveTwoSegments corners convolvePt
  simp only [List.cons.injEq, Prod.mk.injEq, and_true]
  refine ⟨⟨by ring, by ring⟩, trivial, ⟨by ring, by ring⟩, by ring, by ring⟩

theorem fig_depth (e f : Edge) (q : ℚ × ℚ) : objDepth (convolveTwoSegments e f) [] q = orient (convolveTwoSegments e f) * windAt (convolveTwoSegments e f) q := by
  unfold objDepth; simp

theorem fig_nonneg (e f : Edge) (q : ℚ × ℚ) : 0 ≤ objDepth (convolveTwoSegments e f) [] q := by
  rw [fig_depth, segs_corners]; exact (depth_corners _ _ _ q).1

theorem fig_sum {e f : Edge} {q : ℚ × ℚ} (h : 0 < objDepth (convolveTwoSegments e f) [] q) : ∃ a b, OnEdge f a ∧ OnEdge e b ∧ q = a + b := by
  rw [fig_depth, segs_corners] at h
  obtain ⟨s, t, s1, s2, t1, t2, h1, h2⟩ := (depth_corners _ _ _ q).2.1 h.ne'
  push_cast at h1 h2
  refine ⟨(f.1.1 + t * (f.2.1 - f.1.1), f.1.2 + t * (f.2.2 - f.1.2)), (e.1.1 + s * (e.2.1 - e.1.1), e.1.2 + s * (e.2.2 - e.1.2)), ⟨t, t1, t2, rfl, rfl⟩, ⟨s, s1, s2, rfl, rfl⟩, ?_⟩
  ext
  · rw [h1]; simp only [Prod.fst_add]; ring
  · rw [h2]; simp only [Prod.snd_add]; ring

/-- A sum of points of two segments is in the figure, or one of the points is an end. -/
theorem fig_cover {e f : Edge} {a b : ℚ × ℚ} (ha : OnEdge f a) (hb : OnEdge e b) : 0 < objDepth (convolveTwoSegments e f) [] (a + b) ∨
    ∃ a' b', a + b = a' + b' ∧ ((EndOf f a' ∧ OnEdge e b') ∨ (OnEdge f a' ∧ EndOf e b')) := by
  obtain ⟨t, t1, t2, ax, ay⟩ := ha
  obtain ⟨s, s1, s2, bx, b'⟩ := hb
  -- a point of the rim
  have rim : ∀ s t : ℚ, 0 ≤ s → s ≤ 1 → 0 ≤ t → t ≤ 1 → (s = 0 ∨ s = 1 ∨ t = 0 ∨ t = 1) →
      (a + b).1 = e.1.1 + f.1.1 + (s * (e.2.1 - e.1.1) + t * (f.2.1 - f.1.1)) → (a + b).2 = e.1.2 + f.1.2 + (s * (e.2.2 - e.1.2) + t * (f.2.2 - f.1.2)) →
      ∃ a' b', a + b = a' + b' ∧ ((EndOf f a' ∧ OnEdge e b') ∨ (OnEdge f a' ∧ EndOf e b')) := by
    intro s t s1 s2 t1 t2 hst h1 h2
    refine ⟨(f.1.1 + t * (f.2.1 - f.1.1), f.1.2 + t * (f.2.2 - f.1.2)), (e.1.1 + s * (e.2.1 - e.1.1), e.1.2 + s * (e.2.2 - e.1.2)), ?_, ?_⟩
    · ext
      · rw [h1]; simp only [Prod.fst_add]; ring
      · rw [h2]; simp only [Prod.snd_add]; ring
    · rcases hst with rfl | rfl | rfl | rfl
      · exact Or.inr ⟨⟨t, t1, t2, rfl, rfl⟩, Or.inl ⟨by simp, by simp⟩⟩
      · exact Or.inr ⟨⟨t, t1, t2, rfl, rfl⟩, Or.inr ⟨by simp, by simp⟩⟩
      · exact Or.inl ⟨Or.inl ⟨by simp, by simp⟩, s, s1, s2, rfl, rfl⟩
      · exact Or.inl ⟨Or.inr ⟨by simp, by simp⟩, s, s1, s2, rfl, rfl⟩
  have h1 : (a + b).1 = e.1.1 + f.1.1 + (s * (e.2.1 - e.1.1) + t * (f.2.1 - f.1.1)) := by rw [Prod.fst_add, ax, bx]; ring
  have h2 : (a + b).2 = e.1.2 + f.1.2 + (s * (e.2.2 - e.1.2) + t * (f.2.2 - f.1.2)) := by rw [Prod.snd_add, ay, b']; ring
  by_cases hr : s = 0 ∨ s = 1 ∨ t = 0 ∨ t = 1
  · exact Or.inr (rim s t s1 s2 t1 t2 hr h1 h2)
  · push Not at hr
    by_cases hD : det (e.2.1 - e.1.1, e.2.2 - e.1.2) (f.2.1 - f.1.1, f.2.2 - f.1.2) = 0
    · obtain ⟨s', t', k1, k2, k3, k4, k5, k6, k7⟩ := flat_rim hD s1 s2 t1 t2
      push_cast at k6 k7
      exact Or.inr (rim s' t' k1 k2 k3 k4 k5 (by rw [h1, k6]) (by rw [h2, k7]))
    · left
      rw [fig_depth, segs_corners]
      have := (depth_corners (e.1.1 + f.1.1, e.1.2 + f.1.2) (e.2.1 - e.1.1, e.2.2 - e.1.2) (f.2.1 - f.1.1, f.2.2 - f.1.2) (a + b)).2.2 s t
        (lt_of_le_of_ne s1 (Ne.symm hr.1)) (lt_of_le_of_ne s2 hr.2.1) (lt_of_le_of_ne t1 (Ne.symm hr.2.2.1)) (lt_of_le_of_ne t2 hr.2.2.2) hD
        (by push_cast; rw [h1]; ring) (by push_cast; rw [h2]; ring)
      omega

theorem moved_wind (l : List (Int × Int)) (d : Int × Int) (q : ℚ × ℚ) : windAt (l.map (fun p => convolvePt p d)) q = windAt l (q.1 - d.1, q.2 - d.2) := by
  have := WindMap.wind_move l d (q.1 - d.1, q.2 - d.2)
  rw [← this]
  congr 1
  ext <;> simp

theorem moved_proper {P : Poly} (h : Proper P.outer P.holes) (d : Int × Int) : Proper (convolvePoly P d).outer (convolvePoly P d).holes where
  ccw := fun q => by unfold convolvePoly; rw [moved_wind]; exact h.ccw _
  cw := fun l hl q => by
    obtain ⟨l', hl', rfl⟩ := List.mem_map.1 hl
    rw [moved_wind]; exact h.cw _ hl' _
  once := fun q => by
    unfold convolvePoly
    simp only [List.map_map, Function.comp_def, moved_wind]
    exact h.once _
  real := fun l hl => by
    have back : ∀ l', (∃ q, windAt l' q ≠ 0) → ∃ q, windAt (l'.map (fun p => convolvePt p d)) q ≠ 0 := by
      rintro l' ⟨q, hq⟩
      refine ⟨(q.1 + d.1, q.2 + d.2), ?_⟩
      rw [moved_wind]
      simpa using hq
    rcases List.mem_cons.1 hl with rfl | hl
    · exact back _ (h.real _ (by simp))
    · obtain ⟨l', hl', rfl⟩ := List.mem_map.1 hl
      exact back _ (h.real _ (List.mem_cons_of_mem _ hl'))

theorem moved_inside {P : Poly} {d : Int × Int} {q : ℚ × ℚ} : Inside (convolvePoly P d).outer (convolvePoly P d).holes q ↔ Inside P.outer P.holes (q.1 - d.1, q.2 - d.2) := by
  unfold Inside convolvePoly
  simp only [moved_wind, List.mem_map, forall_exists_index, and_imp, forall_apply_eq_imp_iff₂]

theorem moved_depth {P : Poly} (h : Proper P.outer P.holes) (d : Int × Int) (q : ℚ × ℚ) : 0 ≤ objDepth (moved P d).1.1 (moved P d).1.2 q ∧
    (0 < objDepth (moved P d).1.1 (moved P d).1.2 q ↔ Inside P.outer P.holes (q.1 - d.1, q.2 - d.2)) := by
  have hp := moved_proper h d
  have h1 : objDepth (moved P d).1.1 (moved P d).1.2 q = windAt (convolvePoly P d).outer q + ((convolvePoly P d).holes.map (fun l => windAt l q)).sum := PolyArea.proper_depth hp q
  rw [h1, ← moved_inside, ← proper_cover hp]
  have := hp.once q
  omega

/-- A polygon as a pair of outlines. -/
abbrev reg (P : Poly) : Region := (P.outer, P.holes)

theorem sum_pos {α : Type*} (f : α → Int) : ∀ l : List α, (∀ x ∈ l, 0 ≤ f x) → 0 ≤ (l.map f).sum ∧ (0 < (l.map f).sum ↔ ∃ x ∈ l, 0 < f x)
  | [], _ => by simp
  | a :: r, h => by
    obtain ⟨i1, i2⟩ := sum_pos f r (fun x hx => h x (List.mem_cons_of_mem _ hx))
    have ha := h a (by simp)
    rw [List.map_cons, List.sum_cons]
    refine ⟨by omega, ?_⟩
    constructor
    · intro hs
      by_cases h0 : 0 < f a
      · exact ⟨a, by simp, h0⟩
      · obtain ⟨x, hx, h1⟩ := i2.1 (by omega)
        exact ⟨x, List.mem_cons_of_mem _ hx, h1⟩
    · rintro ⟨x, hx, h1⟩
      rcases List.mem_cons.1 hx with rfl | hx
      · omega
      · have := i2.2 ⟨x, hx, h1⟩; omega

theorem mem_ops {A B : List Poly} {o : Obj} : o ∈ ops A B ↔ ∃ P ∈ A, ∃ Q ∈ B, (∃ s ∈ P.outer :: P.holes, ∃ r ∈ Q.outer :: Q.holes, ∃ f ∈ s.zip s.tail, ∃ e ∈ r.zip r.tail,
    o = ((convolveTwoSegments e f, []), false)) ∨ o = moved P (first Q) ∨ o = moved Q (first P) := by
  unfold ops opsOne figsPolys figs
  simp only [List.mem_flatMap, List.mem_append, List.mem_map]
  constructor
  · rintro ⟨P, hP, ⟨s, hs, Q, hQ, r, hr, f, hf, e, he, rfl⟩ | ⟨Q, hQ, h⟩⟩
    · exact ⟨P, hP, Q, hQ, Or.inl ⟨s, hs, r, hr, f, hf, e, he, rfl⟩⟩
    · exact ⟨P, hP, Q, hQ, Or.inr (by simpa using h)⟩
  · rintro ⟨P, hP, Q, hQ, ⟨s, hs, r, hr, f, hf, e, he, rfl⟩ | h⟩
    · exact ⟨P, hP, Or.inl ⟨s, hs, Q, hQ, r, hr, f, hf, e, he, rfl⟩⟩
    · exact ⟨P, hP, Or.inr ⟨Q, hQ, by simpa using h⟩⟩

theorem first_on {l : List (Int × Int)} (h : 2 ≤ l.length) : OnLine l (Loop.qp (l.headD (0, 0))) := by
  rcases l with _ | ⟨a, _ | ⟨b, r⟩⟩
  · simp at h
  · simp at h
  · exact ⟨(a, b), by simp, 0, le_refl _, by norm_num, by simp [Loop.qp], by simp [Loop.qp]⟩

theorem vertex_of {P : Region} {l : List (Int × Int)} (hl : l ∈ P.1 :: P.2) {e : Edge} (he : e ∈ l.zip l.tail) {q : ℚ × ℚ} (h : EndOf e q) : IsVertex P q := by
  rcases h with ⟨h1, h2⟩ | ⟨h1, h2⟩
  · exact ⟨l, hl, e.1, (List.of_mem_zip he).1, Prod.ext h1 h2⟩
  · exact ⟨l, hl, e.2, List.mem_of_mem_tail (List.of_mem_zip he).2, Prod.ext h1 h2⟩

/-- What the objects add at a sum of inside points. -/
theorem cover {P Q : Poly} (hP : Sound (reg P)) (hQ : Sound (reg Q)) {a b : ℚ × ℚ} (ha : Inside P.outer P.holes a) (hb : Inside Q.outer Q.holes b) :
    (∃ s ∈ P.outer :: P.holes, ∃ r ∈ Q.outer :: Q.holes, ∃ f ∈ s.zip s.tail, ∃ e ∈ r.zip r.tail, 0 < objDepth (convolveTwoSegments e f) [] (a + b)) ∨
    0 < objDepth (moved P (first Q)).1.1 (moved P (first Q)).1.2 (a + b) ∨ 0 < objDepth (moved Q (first P)).1.1 (moved Q (first P)).1.2 (a + b) ∨
    OnRim (reg P) (reg Q) (a + b) := by
  by_contra hcon
  push Not at hcon
  obtain ⟨n1, n2, n3, n4⟩ := hcon
  obtain ⟨pP, rP⟩ := hP
  obtain ⟨pQ, rQ⟩ := hQ
  have eb : ((a + b).1 - a.1, (a + b).2 - a.2) = b := by ext <;> simp
  have := Loop.inside (O := Loop.ringLoop P.outer) (O' := Loop.turned (a + b) Q.outer) (H := P.holes.map Loop.ringLoop) (H' := Q.holes.map (Loop.turned (a + b))) (a := a)
    (Loop.ringLoop_ok (rP _ (by simp))) (Loop.turned_ok (rQ _ (by simp)) _)
    (by intro h hh; obtain ⟨l, hl, rfl⟩ := List.mem_map.1 hh; exact Loop.ringLoop_ok (rP l (List.mem_cons_of_mem _ hl)))
    (by intro h hh; obtain ⟨l, hl, rfl⟩ := List.mem_map.1 hh; exact Loop.turned_ok (rQ l (List.mem_cons_of_mem _ hl)) _)
    (by
      rw [← List.map_cons (f := Loop.ringLoop), ← List.map_cons (f := Loop.turned (a + b))]
      intro L hL M hM q h1 h2
      obtain ⟨s, hs, rfl⟩ := List.mem_map.1 hL
      obtain ⟨r, hr, rfl⟩ := List.mem_map.1 hM
      obtain ⟨f, hf, hf'⟩ := Loop.ringLoop_on.1 h1
      obtain ⟨e, he, he'⟩ := Loop.turned_on.1 h2
      have hs2 : q + ((a + b).1 - q.1, (a + b).2 - q.2) = a + b := by ext <;> simp
      rcases fig_cover hf' he' with g | ⟨a', b', g1, g2⟩
      · rw [hs2] at g
        exact absurd g (not_lt.2 (n1 s hs r hr f hf e he))
      · rw [hs2] at g1
        refine n4 ⟨a', b', g1, ?_⟩
        rcases g2 with ⟨g2, g3⟩ | ⟨g2, g3⟩
        · exact Or.inl ⟨vertex_of hs hf g2, r, hr, e, he, g3⟩
        · exact Or.inr ⟨⟨s, hs, f, hf, g2⟩, vertex_of hr he g3⟩)
    (by show windAt P.outer a ≠ 0; rw [ha.1]; decide)
    (by intro h hh; obtain ⟨l, hl, rfl⟩ := List.mem_map.1 hh; exact ha.2 l hl)
    (by show windAt Q.outer ((a + b).1 - a.1, (a + b).2 - a.2) ≠ 0; rw [eb, hb.1]; decide)
    (by intro h hh; obtain ⟨l, hl, rfl⟩ := List.mem_map.1 hh; show windAt l ((a + b).1 - a.1, (a + b).2 - a.2) = 0; rw [eb]; exact hb.2 l hl)
  rcases this with h | h
  · obtain ⟨e, he, ho⟩ := first_on (Loop.ring_two (rQ Q.outer (by simp)))
    obtain ⟨h1, h2⟩ := h ((a + b).1 - (first Q).1, (a + b).2 - (first Q).2) (Loop.turned_on.2 ⟨e, he, by
      convert ho using 1
      ext <;> simp [first, Loop.qp]⟩)
    apply absurd ((moved_depth pP (first Q) (a + b)).2.2 ⟨?_, fun l hl => h2 _ (List.mem_map.2 ⟨l, hl, rfl⟩)⟩) (not_lt.2 n2)
    exact (pP.ccw _).resolve_left h1
  · obtain ⟨e, he, ho⟩ := first_on (Loop.ring_two (rP P.outer (by simp)))
    obtain ⟨h1, h2⟩ := h (Loop.qp (first P)) (Loop.ringLoop_on.2 ⟨e, he, ho⟩)
    apply absurd ((moved_depth pQ (first P) (a + b)).2.2 ⟨?_, fun l hl => h2 _ (List.mem_map.2 ⟨l, hl, rfl⟩)⟩) (not_lt.2 n3)
    exact (pQ.ccw _).resolve_left h1

/-- The depth of the convolution. -/
theorem spec (A B : List Poly) (hA : ∀ P ∈ A, Sound (reg P)) (hB : ∀ Q ∈ B, Sound (reg Q)) :
    ∃ D, convolvePolys A B = some D ∧ Closed D ∧ (∀ e ∈ D, Directed e.1) ∧ (∀ q, 0 ≤ depth D q) ∧
      (∀ P ∈ A, ∀ Q ∈ B, ∀ a b, Inside P.outer P.holes a → Inside Q.outer Q.holes b → 0 < depth D (a + b) ∨ OnRim (reg P) (reg Q) (a + b)) ∧
      ∀ q, 0 < depth D q → ∃ P ∈ A, ∃ Q ∈ B, ∃ a b, q = a + b ∧ Within (reg P) a ∧ Within (reg Q) b := by
  have ne : ∀ P : Poly, Sound (reg P) → P.outer ≠ [] := by
    intro P hP h0
    have := Loop.ring_two (hP.2 P.outer (by simp))
    rw [h0] at this; simp at this
  obtain ⟨h1, h2, h3⟩ := Properties.PolySet.C71_history (ops A B)
  have nonneg : ∀ q, ∀ o ∈ ops A B, 0 ≤ (if o.2 then -1 else 1) * objDepth o.1.1 o.1.2 q := by
    intro q o ho
    obtain ⟨P, hP, Q, hQ, ⟨s, hs, r, hr, f, hf, e, he, rfl⟩ | rfl | rfl⟩ := mem_ops.1 ho
    · simpa using fig_nonneg e f q
    · simpa [moved] using (moved_depth (hA P hP).1 (first Q) q).1
    · simpa [moved] using (moved_depth (hB Q hQ).1 (first P) q).1
  refine ⟨_, polys_eq A B (fun P hP => ne P (hA P hP)) (fun Q hQ => ne Q (hB Q hQ)), h2, h3, fun q => ?_, ?_, ?_⟩
  · have := h1 q
    exact this ▸ (sum_pos _ _ (nonneg q)).1
  · intro P hP Q hQ a b ha hb
    have hc := cover (hA P hP) (hB Q hQ) ha hb
    rw [← or_assoc, ← or_assoc] at hc
    refine hc.imp_left fun hc => ?_
    have := h1 (a + b)
    refine this ▸ (sum_pos _ _ (nonneg (a + b))).2.2 ?_
    rcases hc with (⟨s, hs, r, hr, f, hf, e, he, g⟩ | g) | g
    · exact ⟨_, mem_ops.2 ⟨P, hP, Q, hQ, Or.inl ⟨s, hs, r, hr, f, hf, e, he, rfl⟩⟩, by simpa using g⟩
    · exact ⟨_, mem_ops.2 ⟨P, hP, Q, hQ, Or.inr (Or.inl rfl)⟩, by simpa [moved] using g⟩
    · exact ⟨_, mem_ops.2 ⟨P, hP, Q, hQ, Or.inr (Or.inr rfl)⟩, by simpa [moved] using g⟩
  · intro q hq
    have := h1 q
    have hq' : 0 < ((ops A B).map (fun o => (if o.2 then -1 else 1) * objDepth o.1.1 o.1.2 q)).sum := this ▸ hq
    obtain ⟨o, ho, hpos⟩ := (sum_pos _ _ (nonneg q)).2.1 hq'
    have on : ∀ P : Poly, Sound (reg P) → Within (reg P) (Loop.qp (first P)) := fun P hP =>
      Or.inr ⟨P.outer, by simp, first_on (Loop.ring_two (hP.2 P.outer (by simp)))⟩
    obtain ⟨P, hP, Q, hQ, ⟨s, hs, r, hr, f, hf, e, he, rfl⟩ | rfl | rfl⟩ := mem_ops.1 ho
    · obtain ⟨a, b, g1, g2, g3⟩ := fig_sum (by simpa using hpos)
      exact ⟨P, hP, Q, hQ, a, b, g3, Or.inr ⟨s, hs, f, hf, g1⟩, Or.inr ⟨r, hr, e, he, g2⟩⟩
    · refine ⟨P, hP, Q, hQ, _, _, ?_, Or.inl ((moved_depth (hA P hP).1 (first Q) q).2.1 (by simpa [moved] using hpos)), on Q (hB Q hQ)⟩
      ext <;> simp [Loop.qp]
    · refine ⟨P, hP, Q, hQ, _, _, ?_, on P (hA P hP), Or.inl ((moved_depth (hB Q hQ).1 (first P) q).2.1 (by simpa [moved] using hpos))⟩
      ext <;> simp [Loop.qp]

end Verif.Proofs.Minkowski
