import Verif.Model.ArbForm
import Verif.Spec.ArbForm
import Mathlib.Data.List.Perm.Basic
import Mathlib.Data.List.Nodup
import Mathlib.Tactic.Linarith
/-!
# Chains of active tails
-/
namespace Verif.ArbForm
open Verif.Arb Verif.Contains Verif.Spec.Arb

/-- The side from a point to a point. -/
def step (a b : Pt) : List Edge := if a = b then [] else [(a, b)]

theorem sides_nil : sides [] = [] := rfl
theorem sides_one (a : Pt) : sides [a] = [] := rfl
theorem sides_cons (a b : Pt) (r : List Pt) : sides (a :: b :: r) = step a b ++ sides (b :: r) := by
  unfold sides step
  rw [List.tail_cons, List.zip_cons_cons, List.filter_cons, List.tail_cons]
  by_cases h : a = b
  · rw [if_neg (by simpa using h), if_pos h]; rfl
  · rw [if_pos (by simpa using h), if_neg h]; rfl

theorem sides_append (m : List Pt) (v : Pt) : ∀ (l : List Pt) (u : Pt), sides (l ++ [u] ++ v :: m) = sides (l ++ [u]) ++ step u v ++ sides (v :: m)
  | [], u => by
    simp only [List.nil_append, List.singleton_append]
    rw [sides_cons, sides_one]; rfl
  | [a], u => by
    simp only [List.singleton_append, List.cons_append, List.nil_append]
    rw [sides_cons, sides_cons, sides_cons, sides_one]; simp
  | a :: b :: l, u => by
    have ih := sides_append m v (b :: l) u
    simp only [List.cons_append] at ih ⊢
    rw [sides_cons, ih, sides_cons]; simp

theorem pushFront_ne {p q : Pt} {l : List Pt} (h : l.head? = some q) (hne : q ≠ p) : pushFront p l = p :: l := by
  match l with
  | [] => rfl
  | [a] => rfl
  | a :: b :: r =>
    simp only [List.head?_cons, Option.some_inj] at h
    rw [pushFront, if_pos (by rw [h]; exact hne)]

theorem pushBack_ne {p q : Pt} {l : List Pt} (h : l.getLast? = some q) (hne : q ≠ p) : (pushFront p l.reverse).reverse = l ++ [p] := by
  rw [pushFront_ne (q := q) (by rw [List.head?_reverse]; exact h) hne]; simp

theorem getLast_split {l : List Pt} {u : Pt} (h : l.getLast? = some u) : l = l.dropLast ++ [u] := by
  have hne : l ≠ [] := by rintro rfl; simp at h
  rw [List.getLast?_eq_some_getLast hne] at h
  rw [← Option.some_inj.1 h, List.dropLast_concat_getLast]

theorem head_split {l : List Pt} {u : Pt} (h : l.head? = some u) : l = u :: l.tail := by
  cases l with
  | nil => simp at h
  | cons a r => simp at h; rw [h]; rfl

theorem sides_back {l : List Pt} {q p : Pt} (h : l.getLast? = some q) (hne : q ≠ p) : sides (l ++ [p]) = sides l ++ [(q, p)] := by
  conv_lhs => rw [getLast_split h]
  conv_rhs => rw [getLast_split h]
  rw [sides_append [] p, sides_one, step, if_neg hne]; simp

theorem sides_front {l : List Pt} {q p : Pt} (h : l.head? = some q) (hne : q ≠ p) : sides (p :: l) = (p, q) :: sides l := by
  rw [head_split h, sides_cons, step, if_neg (Ne.symm hne)]; rfl

theorem joinPts_spec {l m : List Pt} {u v : Pt} (h1 : l.getLast? = some u) (h2 : m.head? = some v) :
    ∃ ps, joinPts l m = some ps ∧ sides ps = sides l ++ step u v ++ sides m ∧ ps ≠ [] ∧ ps.head? = l.head? ∧ ps.getLast? = m.getLast? := by
  unfold joinPts
  rw [h1, h2]
  have e1 := getLast_split h1
  have e2 := head_split h2
  generalize l.dropLast = l' at *
  generalize m.tail = m' at *
  subst e1 e2
  dsimp only
  by_cases h : u = v
  · subst h
    rw [if_pos rfl]
    refine ⟨_, rfl, ?_, by simp, ?_, ?_⟩
    · rw [step, if_pos rfl, List.append_nil]
      cases l' with
      | nil => simp [sides_one]
      | cons a r =>
        rcases List.eq_nil_or_concat r with rfl | ⟨r', w, rfl⟩
        · have := sides_append m' u [] a
          simp only [List.nil_append, List.singleton_append] at this
          rw [List.singleton_append, this, List.singleton_append, sides_cons, sides_one]; simp [sides_one]
        · have e1 := sides_append m' u (a :: r') w
          have e2 := sides_append [] u (a :: r') w
          simp only [List.cons_append, List.append_assoc, List.nil_append] at e1 e2 ⊢
          rw [List.concat_eq_append, List.append_assoc, List.append_assoc]
          rw [List.singleton_append, List.singleton_append, e1, e2, sides_one]; simp
    · cases l' <;> simp
    · rw [List.getLast?_append_of_ne_nil _ (by simp)]
  · rw [if_neg h]
    refine ⟨_, rfl, ?_, by simp, ?_, ?_⟩
    · rw [sides_append]
    · cases l' <;> simp
    · rw [List.getLast?_append_of_ne_nil _ (by simp)]

/-- A line with its two open ends. -/
structure Chain where
  f : Nat
  b : Nat
  l : Nat

/-- An open end: the tail, its sign and the point where it is. -/
abbrev End := Nat × Int × Pt

/-- The open ends of a chain. -/
def Chain.ends (H : Heap) (c : Chain) : List End :=
  [(c.f, -1, ((H.line c.l).head?).getD (0, 0)), (c.b, 1, ((H.line c.l).getLast?).getD (0, 0))]

/-- The tails of a chain. -/
def Chain.tails (c : Chain) : List Nat := [c.f, c.b]

/-- The holes that hang on a chain. -/
def Chain.holes (H : Heap) (c : Chain) : List Nat := (H.tail c.f).holes ++ (H.tail c.b).holes

/-- A closed hole that hangs on nothing yet, with the holes that hang on it. -/
def float (H : Heap) : Option Nat → List Nat
  | none => []
  | some h => h :: ((H.tail h).holes ++ (H.tail (H.tail h).other).holes)

/-- The sides of a polygon. -/
def Poly.sides (P : Poly) : List Edge := Spec.Arb.sides P.outer ++ P.holes.flatMap Spec.Arb.sides

/-- The line of a hole. -/
def Heap.ring (H : Heap) (h : Nat) : List Pt := H.line (H.tail h).line

/-- All closed holes. -/
def closedHoles (H : Heap) (C : List Chain) (F : Option Nat) : List Nat := C.flatMap (Chain.holes H) ++ float H F

/-- The chains that are open, the closed holes and the figures written account for the edges. -/
structure WebC (H : Heap) (C : List Chain) (F : Option Nat) (out : List Poly) (X : List Edge) : Prop where
  nd : (C.flatMap Chain.tails).Nodup
  ndl : (C.map Chain.l).Nodup
  fr : ∀ c ∈ C, (H.tail c.f).line = c.l ∧ (H.tail c.f).other = c.b ∧ (H.tail c.f).head = true
  bk : ∀ c ∈ C, (H.tail c.b).line = c.l ∧ (H.tail c.b).other = c.f ∧ (H.tail c.b).head = false
  ne : ∀ c ∈ C, H.line c.l ≠ []
  fresh : ∀ c ∈ C, c.f < H.ft ∧ c.b < H.ft ∧ c.l < H.fl
  fh : ∀ h, F = some h → h ≠ (H.tail h).other ∧ h < H.ft ∧ (H.tail h).other < H.ft ∧
    ∀ c ∈ C, h ∉ c.tails ∧ (H.tail h).other ∉ c.tails
  kh : ∀ h ∈ closedHoles H C F, h < H.ft ∧ (H.tail h).line < H.fl ∧ (∀ c ∈ C, (H.tail h).line ≠ c.l) ∧ Ring (H.ring h)
  acc : (C.flatMap (fun c => sides (H.line c.l)) ++ (closedHoles H C F).flatMap (fun h => sides (H.ring h)) ++ out.flatMap Poly.sides).Perm X
  ok : ∀ P ∈ out, Ring P.outer ∧ ∀ h ∈ P.holes, Ring h

theorem closedHoles_permC {H : Heap} {C C' : List Chain} {F : Option Nat} (h : C.Perm C') : (closedHoles H C F).Perm (closedHoles H C' F) :=
  (h.flatMap_right _).append_right _

theorem WebC.permC {H : Heap} {C C' : List Chain} {F : Option Nat} {out : List Poly} {X : List Edge} (w : WebC H C F out X) (h : C.Perm C') :
    WebC H C' F out X where
  nd := (h.flatMap_right _).nodup_iff.1 w.nd
  ndl := (h.map _).nodup_iff.1 w.ndl
  fr c hc := w.fr c (h.mem_iff.2 hc)
  bk c hc := w.bk c (h.mem_iff.2 hc)
  ne c hc := w.ne c (h.mem_iff.2 hc)
  fresh c hc := w.fresh c (h.mem_iff.2 hc)
  fh f hf := ⟨(w.fh f hf).1, (w.fh f hf).2.1, (w.fh f hf).2.2.1, fun c hc => (w.fh f hf).2.2.2 c (h.mem_iff.2 hc)⟩
  kh k hk := by
    obtain ⟨h1, h2, h3, h4⟩ := w.kh k ((closedHoles_permC h).mem_iff.2 hk)
    exact ⟨h1, h2, fun c hc => h3 c (h.mem_iff.2 hc), h4⟩
  acc := (((h.symm.flatMap_right _).append ((closedHoles_permC h.symm).flatMap_right _)).append_right _).trans w.acc
  ok := w.ok

theorem WebC.permX {H : Heap} {C : List Chain} {F : Option Nat} {out : List Poly} {X X' : List Edge} (w : WebC H C F out X) (h : X.Perm X') :
    WebC H C F out X' := { w with acc := w.acc.trans h }

/-! ### A line is prolonged -/

theorem WebC.setLine {H : Heap} {c : Chain} {C : List Chain} {F : Option Nat} {out : List Poly} {X Y : List Edge} (w : WebC H (c :: C) F out X)
    {ps : List Pt} (hne : ps ≠ []) (hs : (sides ps).Perm (Y ++ sides (H.line c.l))) :
    WebC (H.setLine c.l ps) (c :: C) F out (Y ++ X) ∧ (∀ d ∈ C, (H.setLine c.l ps).line d.l = H.line d.l) ∧ (H.setLine c.l ps).line c.l = ps := by
  have hl : ∀ d ∈ C, d.l ≠ c.l := by
    intro d hd hc
    have := (List.nodup_cons.1 (by simpa only [List.map_cons] using w.ndl)).1
    exact this (List.mem_map.2 ⟨d, hd, hc⟩)
  have e0 : (H.setLine c.l ps).line c.l = ps := by unfold Heap.setLine; simp
  have e1 : ∀ n, n ≠ c.l → (H.setLine c.l ps).line n = H.line n := by
    intro n hn; unfold Heap.setLine; simp [hn]
  have ek : closedHoles (H.setLine c.l ps) (c :: C) F = closedHoles H (c :: C) F := rfl
  have er : ∀ h ∈ closedHoles H (c :: C) F, (H.setLine c.l ps).ring h = H.ring h := by
    intro h hh
    exact e1 _ ((w.kh h hh).2.2.1 c List.mem_cons_self)
  refine ⟨⟨w.nd, w.ndl, w.fr, w.bk, ?_, w.fresh, w.fh, ?_, ?_, w.ok⟩, fun d hd => e1 _ (hl d hd), e0⟩
  · intro d hd
    rcases List.mem_cons.1 hd with rfl | hd
    · rw [e0]; exact hne
    · rw [e1 _ (hl d hd)]; exact w.ne d (List.mem_cons_of_mem _ hd)
  · intro h hh
    rw [ek] at hh
    obtain ⟨a1, a2, a3, a4⟩ := w.kh h hh
    exact ⟨a1, a2, a3, by rw [er h hh]; exact a4⟩
  · have a := w.acc
    rw [ek, List.flatMap_congr (f := fun h => sides ((H.setLine c.l ps).ring h)) (g := fun h => sides (H.ring h))
      (fun h hh => by rw [er h hh])]
    rw [List.flatMap_cons] at a ⊢
    rw [List.flatMap_congr (f := fun d : Chain => sides ((H.setLine c.l ps).line d.l)) (g := fun d : Chain => sides (H.line d.l))
      (fun d hd => by rw [e1 _ (hl d hd)]), e0]
    refine (((hs.append_right _).append_right _).append_right _).trans ?_
    rw [List.append_assoc, List.append_assoc, List.append_assoc]
    apply List.Perm.append_left
    rw [← List.append_assoc, ← List.append_assoc]
    exact a

theorem WebC.pushF {H : Heap} {c : Chain} {C : List Chain} {F : Option Nat} {out : List Poly} {X : List Edge} (w : WebC H (c :: C) F out X) {p q : Pt}
    (hq : (H.line c.l).head? = some q) (hne : q ≠ p) :
    WebC (H.push c.f p) (c :: C) F out ((p, q) :: X) ∧ (∀ d ∈ C, (H.push c.f p).line d.l = H.line d.l) ∧ (H.push c.f p).line c.l = p :: H.line c.l := by
  obtain ⟨h1, h2, h3⟩ := w.fr c List.mem_cons_self
  have : H.push c.f p = H.setLine c.l (p :: H.line c.l) := by
    unfold Heap.push; simp only [h1, h3, if_true, pushFront_ne hq hne]
  rw [this]
  exact w.setLine (Y := [(p, q)]) (by simp) (by rw [sides_front hq hne]; rfl)

theorem WebC.pushB {H : Heap} {c : Chain} {C : List Chain} {F : Option Nat} {out : List Poly} {X : List Edge} (w : WebC H (c :: C) F out X) {p q : Pt}
    (hq : (H.line c.l).getLast? = some q) (hne : q ≠ p) :
    WebC (H.push c.b p) (c :: C) F out ((q, p) :: X) ∧ (∀ d ∈ C, (H.push c.b p).line d.l = H.line d.l) ∧ (H.push c.b p).line c.l = H.line c.l ++ [p] := by
  obtain ⟨h1, h2, h3⟩ := w.bk c List.mem_cons_self
  have : H.push c.b p = H.setLine c.l (H.line c.l ++ [p]) := by
    unfold Heap.push; simp only [h1, h3, Bool.false_eq_true, if_false, pushBack_ne hq hne]
  rw [this]
  exact w.setLine (Y := [(q, p)]) (by simp) (by rw [sides_back hq hne]; exact List.perm_append_comm)

/-! ### Two lines are joined -/

theorem link_comm (H : Heap) {o1 o2 : Nat} (l : Nat) (h : o1 ≠ o2) : H.link o1 o2 l = H.link o2 o1 l := by
  unfold Heap.link
  congr 1
  funext n
  by_cases h1 : n = o1
  · subst h1; simp [h]
  · by_cases h2 : n = o2
    · subst h2; simp [h1]
    · simp [h1, h2]

/-- Two heaps that differ in the lists of holes. -/
structure SameH (H H1 : Heap) : Prop where
  t : ∀ n, (H1.tail n).line = (H.tail n).line ∧ (H1.tail n).other = (H.tail n).other ∧ (H1.tail n).head = (H.tail n).head
  line : H1.line = H.line
  ft : H1.ft = H.ft
  fl : H1.fl = H.fl

theorem SameH.refl (H : Heap) : SameH H H := ⟨fun _ => ⟨rfl, rfl, rfl⟩, rfl, rfl, rfl⟩
theorem SameH.trans {H H1 H2 : Heap} (a : SameH H H1) (b : SameH H1 H2) : SameH H H2 :=
  ⟨fun n => ⟨(b.t n).1.trans (a.t n).1, (b.t n).2.1.trans (a.t n).2.1, (b.t n).2.2.trans (a.t n).2.2⟩, b.line.trans a.line, b.ft.trans a.ft, b.fl.trans a.fl⟩

theorem SameH.setHoles (H : Heap) (t : Nat) (hs : List Nat) : SameH H (H.setHoles t hs) := by
  refine ⟨fun n => ?_, rfl, rfl, rfl⟩
  unfold Heap.setHoles
  by_cases h : n = t <;> simp [h]

theorem SameH.copy (H : Heap) (t u : Nat) : SameH H (H.copyHoles t u) := (SameH.setHoles H t _).trans (SameH.setHoles _ u _)

theorem setHoles_holes (H : Heap) (t : Nat) (hs : List Nat) (n : Nat) : ((H.setHoles t hs).tail n).holes = if n = t then hs else (H.tail n).holes := by
  unfold Heap.setHoles; by_cases h : n = t <;> simp [h]

theorem copy_holes (H : Heap) {t u : Nat} (n : Nat) : ((H.copyHoles t u).tail n).holes =
    if n = u then [] else if n = t then (H.tail t).holes ++ (H.tail u).holes else (H.tail n).holes := by
  unfold Heap.copyHoles
  rw [setHoles_holes, setHoles_holes]

theorem ring_same {H H1 : Heap} (s : SameH H H1) (h : Nat) : H1.ring h = H.ring h := by
  unfold Heap.ring; rw [(s.t h).1, s.line]

theorem WebC.joined {H H1 : Heap} {c1 c2 : Chain} {C : List Chain} {out : List Poly} {X : List Edge} (w : WebC H (c1 :: c2 :: C) none out X)
    (s : SameH H H1) (hC : ∀ c ∈ C, Chain.holes H1 c = Chain.holes H c)
    (hh : ((H1.tail c1.f).holes ++ (H1.tail c2.b).holes).Perm (Chain.holes H c1 ++ Chain.holes H c2))
    {u v : Pt} (hu : (H.line c1.l).getLast? = some u) (hv : (H.line c2.l).head? = some v) :
    ∃ ps, joinPts (H1.line c1.l) (H1.line c2.l) = some ps ∧
      WebC ((H1.setLine c1.l ps).link c1.f c2.b c1.l) (⟨c1.f, c2.b, c1.l⟩ :: C) none out (step u v ++ X) ∧
      (∀ d ∈ C, ((H1.setLine c1.l ps).link c1.f c2.b c1.l).line d.l = H.line d.l) ∧
      (((H1.setLine c1.l ps).link c1.f c2.b c1.l).line c1.l).head? = (H.line c1.l).head? ∧
      (((H1.setLine c1.l ps).link c1.f c2.b c1.l).line c1.l).getLast? = (H.line c2.l).getLast? := by
  obtain ⟨ps, e, g1, g2, g3, g4⟩ := joinPts_spec hu hv
  rw [s.line]
  refine ⟨ps, e, ?_⟩
  have hnd := w.nd
  simp only [List.flatMap_cons, Chain.tails, List.cons_append, List.nil_append, List.nodup_cons, List.mem_cons, not_or] at hnd
  obtain ⟨⟨n1, n2, n3, n4⟩, ⟨m1, m2, m3⟩, ⟨k1, k2⟩, j1, hndC⟩ := hnd
  have hdC : ∀ d ∈ C, ∀ t ∈ d.tails, t ≠ c1.f ∧ t ≠ c1.b ∧ t ≠ c2.f ∧ t ≠ c2.b := by
    intro d hd t ht
    have : t ∈ C.flatMap Chain.tails := List.mem_flatMap.2 ⟨d, hd, ht⟩
    exact ⟨fun h => n4 (h ▸ this), fun h => m3 (h ▸ this), fun h => k2 (h ▸ this), fun h => j1 (h ▸ this)⟩
  have hl := w.ndl
  simp only [List.map_cons, List.nodup_cons, List.mem_cons, not_or] at hl
  obtain ⟨⟨l1, l2⟩, l3, hlC⟩ := hl
  have hlC1 : ∀ d ∈ C, d.l ≠ c1.l := fun d hd h => l2 (List.mem_map.2 ⟨d, hd, h⟩)
  have hm1 : c1 ∈ c1 :: c2 :: C := List.mem_cons_self
  have hm2 : c2 ∈ c1 :: c2 :: C := List.mem_cons_of_mem _ List.mem_cons_self
  have hmC : ∀ d ∈ C, d ∈ c1 :: c2 :: C := fun d hd => List.mem_cons_of_mem _ (List.mem_cons_of_mem _ hd)
  generalize hH : (H1.setLine c1.l ps).link c1.f c2.b c1.l = H'
  have el : ∀ n, H'.line n = if n = c1.l then ps else H.line n := by
    intro n; rw [← hH]; unfold Heap.link Heap.setLine; simp only [s.line]
  have et : ∀ n, n ≠ c1.f → n ≠ c2.b → H'.tail n = H1.tail n := by
    intro n h1 h2; rw [← hH]; unfold Heap.link Heap.setLine; simp [h1, h2]
  have et1 : H'.tail c1.f = { H1.tail c1.f with line := c1.l, other := c2.b } := by
    rw [← hH]; unfold Heap.link Heap.setLine; simp
  have et2 : H'.tail c2.b = { H1.tail c2.b with line := c1.l, other := c1.f } := by
    rw [← hH]; unfold Heap.link Heap.setLine; simp [Ne.symm n3]
  have eft : H'.ft = H.ft := by rw [← hH]; exact s.ft
  have efl : H'.fl = H.fl := by rw [← hH]; exact s.fl
  have ehC : ∀ d ∈ C, Chain.holes H' d = Chain.holes H d := by
    intro d hd
    rw [← hC d hd]
    unfold Chain.holes
    have a := hdC d hd d.f (by simp [Chain.tails])
    have b := hdC d hd d.b (by simp [Chain.tails])
    rw [et _ a.1 a.2.2.2, et _ b.1 b.2.2.2]
  have ek : (closedHoles H' (⟨c1.f, c2.b, c1.l⟩ :: C) none).Perm (closedHoles H (c1 :: c2 :: C) none) := by
    unfold closedHoles
    simp only [List.flatMap_cons, float, List.append_nil]
    rw [List.flatMap_congr ehC]
    unfold Chain.holes at hh ⊢
    rw [et1, et2, ← List.append_assoc]
    exact hh.append_right _
  have er : ∀ h ∈ closedHoles H (c1 :: c2 :: C) none, H'.tail h = H1.tail h ∧ H'.ring h = H.ring h := by
    intro h hh
    obtain ⟨a1, a2, a3, a4⟩ := w.kh h hh
    have h1 : h ≠ c1.f := by rintro rfl; exact a3 c1 hm1 (w.fr c1 hm1).1
    have h2 : h ≠ c2.b := by rintro rfl; exact a3 c2 hm2 (w.bk c2 hm2).1
    refine ⟨et h h1 h2, ?_⟩
    unfold Heap.ring
    rw [et h h1 h2, el, (s.t h).1, if_neg (a3 c1 hm1)]
  refine ⟨⟨?_, ?_, ?_, ?_, ?_, ?_, by simp, ?_, ?_, w.ok⟩, fun d hd => by rw [el, if_neg (hlC1 d hd)], by rw [el, if_pos rfl, g3], by rw [el, if_pos rfl, g4]⟩
  · simp only [List.flatMap_cons, Chain.tails, List.cons_append, List.nil_append, List.nodup_cons, List.mem_cons, not_or]
    exact ⟨⟨n3, n4⟩, j1, hndC⟩
  · simp only [List.map_cons, List.nodup_cons]
    exact ⟨l2, hlC⟩
  · intro d hd
    rcases List.mem_cons.1 hd with rfl | hd
    · dsimp only; rw [et1]; exact ⟨rfl, rfl, (s.t _).2.2.trans (w.fr c1 hm1).2.2⟩
    · have a := hdC d hd d.f (by simp [Chain.tails])
      rw [et _ a.1 a.2.2.2, (s.t _).1, (s.t _).2.1, (s.t _).2.2]; exact w.fr d (hmC d hd)
  · intro d hd
    rcases List.mem_cons.1 hd with rfl | hd
    · dsimp only; rw [et2]; exact ⟨rfl, rfl, (s.t _).2.2.trans (w.bk c2 hm2).2.2⟩
    · have a := hdC d hd d.b (by simp [Chain.tails])
      rw [et _ a.1 a.2.2.2, (s.t _).1, (s.t _).2.1, (s.t _).2.2]; exact w.bk d (hmC d hd)
  · intro d hd
    rcases List.mem_cons.1 hd with rfl | hd
    · dsimp only; rw [el, if_pos rfl]; exact g2
    · rw [el, if_neg (hlC1 d hd)]; exact w.ne d (hmC d hd)
  · intro d hd
    rw [eft, efl]
    rcases List.mem_cons.1 hd with rfl | hd
    · exact ⟨(w.fresh c1 hm1).1, (w.fresh c2 hm2).2.1, (w.fresh c1 hm1).2.2⟩
    · exact w.fresh d (hmC d hd)
  · intro h hh'
    have hh' := ek.mem_iff.1 hh'
    obtain ⟨a1, a2, a3, a4⟩ := w.kh h hh'
    obtain ⟨b1, b2⟩ := er h hh'
    rw [eft, efl, b1, b2, (s.t h).1]
    refine ⟨a1, a2, ?_, a4⟩
    intro d hd
    rcases List.mem_cons.1 hd with rfl | hd
    · exact a3 c1 hm1
    · exact a3 d (hmC d hd)
  · have a := w.acc
    have k1 := ek.flatMap_right (fun h => sides (H'.ring h))
    rw [List.flatMap_congr (f := fun h => sides (H'.ring h)) (g := fun h => sides (H.ring h)) (l := closedHoles H (c1 :: c2 :: C) none)
      (fun h hh => by rw [(er h hh).2])] at k1
    refine ((k1.append_left _).append_right _).trans ?_
    simp only [List.flatMap_cons] at a ⊢
    rw [List.flatMap_congr (f := fun d : Chain => sides (H'.line d.l)) (g := fun d : Chain => sides (H.line d.l))
      (fun d hd => by rw [el, if_neg (hlC1 d hd)]), el, if_pos rfl, g1]
    refine List.Perm.trans ?_ (a.append_left (step u v))
    generalize sides (H.line c1.l) = A1
    generalize sides (H.line c2.l) = A2
    generalize List.flatMap (fun d : Chain => sides (H.line d.l)) C = A3
    simp only [List.append_assoc]
    exact List.perm_append_comm_assoc _ _ _

theorem WebC.joinBF {H : Heap} {c1 c2 : Chain} {C : List Chain} {out : List Poly} {X : List Edge} (w : WebC H (c1 :: c2 :: C) none out X)
    {u v : Pt} (hu : (H.line c1.l).getLast? = some u) (hv : (H.line c2.l).head? = some v) {a b : Nat}
    (hab : (a = c1.b ∧ b = c2.f) ∨ (a = c2.f ∧ b = c1.b)) :
    ∃ H', H.join a b = some H' ∧ WebC H' (⟨c1.f, c2.b, c1.l⟩ :: C) none out (step u v ++ X) ∧ (∀ d ∈ C, H'.line d.l = H.line d.l) ∧
      (H'.line c1.l).head? = (H.line c1.l).head? ∧ (H'.line c1.l).getLast? = (H.line c2.l).getLast? := by
  have hnd := w.nd
  simp only [List.flatMap_cons, Chain.tails, List.cons_append, List.nil_append, List.nodup_cons, List.mem_cons, not_or] at hnd
  obtain ⟨⟨n1, n2, n3, n4⟩, ⟨m1, m2, m3⟩, ⟨k1, k2⟩, j1, hndC⟩ := hnd
  have hdC : ∀ d ∈ C, ∀ t ∈ d.tails, t ≠ c1.f ∧ t ≠ c1.b ∧ t ≠ c2.f ∧ t ≠ c2.b := by
    intro d hd t ht
    have : t ∈ C.flatMap Chain.tails := List.mem_flatMap.2 ⟨d, hd, ht⟩
    exact ⟨fun h => n4 (h ▸ this), fun h => m3 (h ▸ this), fun h => k2 (h ▸ this), fun h => j1 (h ▸ this)⟩
  have hm1 : c1 ∈ c1 :: c2 :: C := List.mem_cons_self
  have hm2 : c2 ∈ c1 :: c2 :: C := List.mem_cons_of_mem _ List.mem_cons_self
  obtain ⟨f11, f12, f13⟩ := w.fr c1 hm1
  obtain ⟨b11, b12, b13⟩ := w.bk c1 hm1
  obtain ⟨f21, f22, f23⟩ := w.fr c2 hm2
  obtain ⟨b21, b22, b23⟩ := w.bk c2 hm2
  rcases hab with ⟨rfl, rfl⟩ | ⟨rfl, rfl⟩
  · -- the holes go to `c2.b`
    have hj : H.join c1.b c2.f = (joinPts (((H.copyHoles c2.b c1.b).copyHoles c2.b c2.f).line c1.l) (((H.copyHoles c2.b c1.b).copyHoles c2.b c2.f).line c2.l)).map
        (fun ps => (((H.copyHoles c2.b c1.b).copyHoles c2.b c2.f).setLine c1.l ps).link c1.f c2.b c1.l) := by
      unfold Heap.join
      rw [if_neg (by rw [b12]; exact Ne.symm n2), if_neg (by rw [f23, b13]; simp)]
      simp only [b12, f22, f13, b13, b11, f21, Bool.not_true, Bool.false_eq_true, if_false]
    obtain ⟨ps, e, g⟩ := w.joined (H1 := (H.copyHoles c2.b c1.b).copyHoles c2.b c2.f) ((SameH.copy _ _ _).trans (SameH.copy _ _ _)) (by
      intro d hd
      have a := hdC d hd d.f (by simp [Chain.tails])
      have b := hdC d hd d.b (by simp [Chain.tails])
      unfold Chain.holes
      simp only [copy_holes, a.1, a.2.1, a.2.2.1, a.2.2.2, b.1, b.2.1, b.2.2.1, b.2.2.2, if_false]) (by
      unfold Chain.holes
      simp only [copy_holes]
      simp only [n1, n2, n3, m1, m2, k1, Ne.symm k1, Ne.symm m2, Ne.symm m1, if_false, if_true]
      simp only [List.append_assoc]
      apply List.Perm.append_left
      refine List.perm_append_comm.trans ?_
      rw [List.append_assoc]) hu hv
    refine ⟨_, ?_, g⟩
    rw [hj, e]; rfl
  · have hj : H.join c2.f c1.b = (joinPts (((H.copyHoles c2.b c1.b).copyHoles c2.b c2.f).line c1.l) (((H.copyHoles c2.b c1.b).copyHoles c2.b c2.f).line c2.l)).map
        (fun ps => (((H.copyHoles c2.b c1.b).copyHoles c2.b c2.f).setLine c1.l ps).link c2.b c1.f c1.l) := by
      unfold Heap.join
      rw [if_neg (by rw [f22]; exact m2), if_neg (by rw [f23, b13]; simp)]
      simp only [b12, f22, b23, f23, b11, f21, Bool.not_false, if_true]
    obtain ⟨ps, e, g⟩ := w.joined (H1 := (H.copyHoles c2.b c1.b).copyHoles c2.b c2.f) ((SameH.copy _ _ _).trans (SameH.copy _ _ _)) (by
      intro d hd
      have a := hdC d hd d.f (by simp [Chain.tails])
      have b := hdC d hd d.b (by simp [Chain.tails])
      unfold Chain.holes
      simp only [copy_holes, a.1, a.2.1, a.2.2.1, a.2.2.2, b.1, b.2.1, b.2.2.1, b.2.2.2, if_false]) (by
      unfold Chain.holes
      simp only [copy_holes]
      simp only [n1, n2, n3, m1, m2, k1, Ne.symm k1, Ne.symm m2, Ne.symm m1, if_false, if_true]
      simp only [List.append_assoc]
      apply List.Perm.append_left
      refine List.perm_append_comm.trans ?_
      rw [List.append_assoc]) hu hv
    refine ⟨_, ?_, g⟩
    rw [hj, e]
    simp only [Option.map_some, link_comm _ _ (Ne.symm n3)]

end Verif.ArbForm
