import Verif.Proofs.FormRing
import Verif.Model.Form45
/-!
# The lines of the two formations

The 45-degree formation leaves out points on horizontal and vertical lines, and does not look for points listed twice. Its lines
have the same ends and the same windings as those of the formation at any angle.
-/
namespace Verif.F45
open Verif.ArbForm Verif.Spec Verif.Spec.Arb
open Verif.Arb (Pt)

/-- The sum of the crossings along a list of points. -/
def wnd (q : ℚ × ℚ) : List Pt → Int
  | a :: b :: r => crossing q (a, b) + wnd q (b :: r)
  | _ => 0

/-- Two points on a line at a multiple of 45 degrees. -/
def Oct2 (a b : Pt) : Prop := a.1 = b.1 ∨ a.2 = b.2 ∨ b.2 - a.2 = b.1 - a.1 ∨ b.2 - a.2 = -(b.1 - a.1)

/-- All sides are at multiples of 45 degrees. -/
def Oct : List Pt → Prop
  | a :: b :: r => Oct2 a b ∧ Oct (b :: r)
  | _ => True

theorem Oct2.symm {a b : Pt} (h : Oct2 a b) : Oct2 b a := by unfold Oct2 at *; omega
theorem Oct2.refl (a : Pt) : Oct2 a a := Or.inl rfl

theorem wnd_cons (q : ℚ × ℚ) (a b : Pt) (r : List Pt) : wnd q (a :: b :: r) = crossing q (a, b) + wnd q (b :: r) := rfl
theorem wnd_one (q : ℚ × ℚ) (a : Pt) : wnd q [a] = 0 := rfl

/-- The link between two lists. -/
def lnk (q : ℚ × ℚ) (o p : Option Pt) : Int := match o, p with | some a, some b => crossing q (a, b) | _, _ => 0
def olnk (o p : Option Pt) : Prop := match o, p with | some a, some b => Oct2 a b | _, _ => True

theorem wnd_head (q : ℚ × ℚ) (a : Pt) (l : List Pt) : wnd q (a :: l) = lnk q (some a) l.head? + wnd q l := by
  cases l with
  | nil => rfl
  | cons b r => rfl

theorem oct_head (a : Pt) (l : List Pt) : Oct (a :: l) ↔ olnk (some a) l.head? ∧ Oct l := by
  cases l with
  | nil => simp [Oct, olnk]
  | cons b r => rfl

theorem wnd_append (q : ℚ × ℚ) : ∀ (l m : List Pt), wnd q (l ++ m) = wnd q l + lnk q l.getLast? m.head? + wnd q m
  | [], m => by simp [wnd, lnk]
  | [a], m => by rw [List.singleton_append, wnd_head]; simp [wnd]
  | a :: b :: r, m => by
    rw [List.cons_append, List.cons_append, wnd_cons, ← List.cons_append, wnd_append q (b :: r) m, wnd_cons, List.getLast?_cons_cons]
    ring

theorem oct_append : ∀ (l m : List Pt), Oct (l ++ m) ↔ Oct l ∧ olnk l.getLast? m.head? ∧ Oct m
  | [], m => by simp [Oct, olnk]
  | [a], m => by rw [List.singleton_append, oct_head]; simp [Oct]
  | a :: b :: r, m => by
    have e : Oct (a :: b :: r ++ m) ↔ Oct2 a b ∧ Oct (b :: r ++ m) := Iff.rfl
    rw [e, oct_append (b :: r) m, List.getLast?_cons_cons]
    have e2 : Oct (a :: b :: r) ↔ Oct2 a b ∧ Oct (b :: r) := Iff.rfl
    rw [e2, and_assoc]

theorem wnd_reverse (q : ℚ × ℚ) : ∀ l : List Pt, wnd q l.reverse = -wnd q l
  | [] => rfl
  | a :: l => by
    rw [List.reverse_cons, wnd_append, wnd_reverse q l, wnd_head q a l, wnd_one, List.getLast?_reverse]
    have : lnk q l.head? (some a) = -lnk q (some a) l.head? := by
      rcases l.head? with _ | b
      · rfl
      · exact PolySet.crossing_swap q (a, b)
    rw [show ([a] : List Pt).head? = some a from rfl, this]
    ring

theorem oct_reverse : ∀ l : List Pt, Oct l → Oct l.reverse
  | [], _ => trivial
  | a :: l, h => by
    rw [oct_head] at h
    rw [List.reverse_cons, oct_append, List.getLast?_reverse]
    refine ⟨oct_reverse l h.2, ?_, trivial⟩
    have := h.1
    cases e : l.head? with
    | none => trivial
    | some b => rw [e] at this; exact Oct2.symm this

/-- The lines have the same ends and windings. -/
structure LR (m l : List Pt) : Prop where
  hd : m.head? = l.head?
  ls : m.getLast? = l.getLast?
  w : ∀ q, wnd q m = wnd q l
  o : Oct l → Oct m

theorem LR.refl (l : List Pt) : LR l l := ⟨rfl, rfl, fun _ => rfl, id⟩
theorem LR.trans {a b c : List Pt} (h : LR a b) (g : LR b c) : LR a c := ⟨h.hd.trans g.hd, h.ls.trans g.ls, fun q => (h.w q).trans (g.w q), fun x => h.o (g.o x)⟩

theorem LR.reverse {m l : List Pt} (h : LR m l) : LR m.reverse l.reverse where
  hd := by rw [List.head?_reverse, List.head?_reverse, h.ls]
  ls := by rw [List.getLast?_reverse, List.getLast?_reverse, h.hd]
  w q := by rw [wnd_reverse, wnd_reverse, h.w]
  o x := oct_reverse _ (h.o (by have := oct_reverse _ x; rwa [List.reverse_reverse] at this))

theorem LR.append {m l m' l' : List Pt} (h : LR m l) (h' : LR m' l') : LR (m ++ m') (l ++ l') where
  hd := by rw [List.head?_append, List.head?_append, h.hd, h'.hd]
  ls := by rw [List.getLast?_append, List.getLast?_append, h.ls, h'.ls]
  w q := by rw [wnd_append, wnd_append, h.w, h'.w, h.ls, h'.hd]
  o x := by
    rw [oct_append] at x ⊢
    rw [h.ls, h'.hd]
    exact ⟨h.o x.1, x.2.1, h'.o x.2.2⟩

theorem LR.cons {m l : List Pt} (h : LR m l) (p : Pt) : LR (p :: m) (p :: l) := (LR.refl [p]).append h

theorem crossing_hor {q : ℚ × ℚ} {a b c : Pt} (h1 : a.2 = b.2) (h2 : b.2 = c.2) : crossing q (a, b) + crossing q (b, c) = crossing q (a, c) := by
  have e : ∀ a b : Pt, a.2 = b.2 → crossing q (a, b) = if (b.2 : ℚ) ≤ q.2 then (if (a.1 : ℚ) ≤ q.1 ∧ q.1 < b.1 then 1 else if (b.1 : ℚ) ≤ q.1 ∧ q.1 < a.1 then -1 else 0) else 0 := by
    intro a b h
    have hy : lineY a b q.1 = (b.2 : ℚ) := by
      unfold lineY
      rw [h]
      simp
    unfold crossing
    dsimp only
    rw [hy]
    by_cases c : (b.2 : ℚ) ≤ q.2
    · simp [c]
    · simp [c]
  rw [e a b h1, e b c h2, e a c (h1.trans h2), h2]
  by_cases g : (c.2 : ℚ) ≤ q.2
  · rw [if_pos g, if_pos g, if_pos g]
    by_cases c1 : (a.1 : ℚ) ≤ q.1 <;> by_cases c2 : (b.1 : ℚ) ≤ q.1 <;> by_cases c3 : (c.1 : ℚ) ≤ q.1 <;>
      simp [c1, c2, c3, not_lt.2, lt_of_not_ge] 
  · rw [if_neg g, if_neg g, if_neg g]; rfl

theorem crossing_ver {q : ℚ × ℚ} {a b c : Pt} (h1 : a.1 = b.1) (h2 : b.1 = c.1) : crossing q (a, b) + crossing q (b, c) = crossing q (a, c) := by
  rw [PolySet.crossing_vert h1, PolySet.crossing_vert h2, PolySet.crossing_vert (h1.trans h2)]; rfl

/-- The point put in front by the 45-degree formation. -/
theorem push45 (p : Pt) (l : List Pt) : LR (Form45.pushFront p l) (p :: l) := by
  rcases l with _ | ⟨a, _ | ⟨b, r⟩⟩
  · exact LR.refl _
  · exact LR.refl _
  · unfold Form45.pushFront
    dsimp only
    by_cases c : (b.2 = p.2 ∧ a.2 = p.2) ∨ (b.1 = p.1 ∧ a.1 = p.1)
    · rw [if_pos c]
      refine ⟨rfl, by simp, fun q => ?_, fun x => ?_⟩
      · rw [wnd_cons, wnd_cons, wnd_cons, ← add_assoc]
        congr 1
        rcases c with ⟨c1, c2⟩ | ⟨c1, c2⟩
        · exact (crossing_hor c2.symm (c2.trans c1.symm)).symm
        · exact (crossing_ver c2.symm (c2.trans c1.symm)).symm
      · refine ⟨?_, x.2.2⟩
        unfold Oct2
        omega
    · rw [if_neg c]
      exact LR.refl _

/-- The point put in front by the formation at any angle. -/
theorem pushA (p : Pt) (l : List Pt) : LR (p :: l) (ArbForm.pushFront p l) := by
  rcases l with _ | ⟨a, _ | ⟨b, r⟩⟩
  · exact LR.refl _
  · exact LR.refl _
  · unfold ArbForm.pushFront
    dsimp only
    by_cases c : a ≠ p
    · rw [if_pos c]; exact LR.refl _
    · rw [if_neg c]
      push Not at c
      subst c
      exact ⟨rfl, by simp, fun q => by rw [wnd_cons q a a, crossing_same, zero_add], fun x => ⟨Oct2.refl _, x⟩⟩

theorem LR.push {m l : List Pt} (h : LR m l) (p : Pt) : LR (Form45.pushFront p m) (ArbForm.pushFront p l) :=
  (push45 p m).trans ((h.cons p).trans (pushA p l))

theorem LR.join {m l m' l' k : List Pt} (h : LR m l) (h' : LR m' l') (hk : joinPts l l' = some k) : LR (m ++ m') k := by
  refine (h.append h').trans ?_
  unfold joinPts at hk
  rcases e1 : l.getLast? with _ | a
  · rw [e1] at hk; cases hk
  rcases e2 : l'.head? with _ | b
  · rw [e1, e2] at hk; cases hk
  rw [e1, e2] at hk
  dsimp only at hk
  by_cases c : a = b
  · rw [if_pos c] at hk
    obtain rfl := Option.some_inj.1 hk
    subst c
    have e3 : l = l.dropLast ++ [a] := by
      have : l ≠ [] := by rintro rfl; cases e1
      rw [List.getLast?_eq_some_getLast this] at e1
      conv_lhs => rw [← List.dropLast_append_getLast this]
      rw [Option.some_inj.1 e1]
    rcases l' with _ | ⟨b, r⟩
    · cases e2
    obtain rfl : b = a := by simpa using e2
    have key : LR (b :: b :: r) (b :: r) := ⟨rfl, by simp, fun q => by rw [wnd_cons, crossing_same, zero_add], fun x => ⟨Oct2.refl _, x⟩⟩
    conv_lhs => rw [e3]
    rw [List.append_assoc]
    exact (LR.refl _).append key
  · rw [if_neg c] at hk
    obtain rfl := Option.some_inj.1 hk
    exact LR.refl _

/-! ### Heaps -/

/-- The same tails, and lines with the same ends and windings. -/
structure HR (H' H : Heap) : Prop where
  t : H'.tail = H.tail
  l : ∀ n, LR (H'.line n) (H.line n)
  ft : H'.ft = H.ft
  fl : H'.fl = H.fl

/-- Polygons with the same windings. -/
structure PR (P' P : Poly) : Prop where
  o : LR P'.outer P.outer
  h : List.Forall₂ LR P'.holes P.holes

theorem HR.refl (H : Heap) : HR H H := ⟨rfl, fun _ => LR.refl _, rfl, rfl⟩

theorem HR.setLine {H' H : Heap} (h : HR H' H) {m l : List Pt} (hl : LR m l) (n : Nat) : HR (H'.setLine n m) (H.setLine n l) := by
  refine ⟨h.t, fun k => ?_, h.ft, h.fl⟩
  unfold Heap.setLine
  dsimp only
  by_cases c : k = n
  · rw [if_pos c, if_pos c]; exact hl
  · rw [if_neg c, if_neg c]; exact h.l k

theorem HR.setHoles {H' H : Heap} (h : HR H' H) (t : Nat) (hs : List Nat) : HR (H'.setHoles t hs) (H.setHoles t hs) :=
  ⟨by unfold Heap.setHoles; dsimp only; rw [h.t], h.l, h.ft, h.fl⟩

theorem HR.copyHoles {H' H : Heap} (h : HR H' H) (t u : Nat) : HR (H'.copyHoles t u) (H.copyHoles t u) := by
  unfold Heap.copyHoles
  rw [h.t]
  exact (h.setHoles _ _).setHoles _ _

theorem HR.link {H' H : Heap} (h : HR H' H) (a b l : Nat) : HR (H'.link a b l) (H.link a b l) :=
  ⟨by unfold Heap.link; dsimp only; rw [h.t], h.l, h.ft, h.fl⟩

theorem HR.addHole {H' H : Heap} (h : HR H' H) (t u : Nat) : HR (H'.addHole t u) (H.addHole t u) := by
  unfold Heap.addHole
  dsimp only
  have h1 := h.setHoles t ((H.tail t).holes ++ [u])
  rw [h.t]
  have h2 := h1.copyHoles t u
  rw [show ((H'.setHoles t ((H.tail t).holes ++ [u])).tail u).other = ((H.setHoles t ((H.tail t).holes ++ [u])).tail u).other by rw [h1.t]]
  exact h2.copyHoles _ _

theorem HR.newPair {H' H : Heap} (h : HR H' H) (p : Pt) (s : Bool) : HR (H'.newPair p s) (H.newPair p s) := by
  refine ⟨by unfold Heap.newPair; dsimp only; rw [h.t, h.ft, h.fl], fun k => ?_, ?_, ?_⟩
  · unfold Heap.newPair
    dsimp only
    rw [h.fl]
    by_cases c : k = H.fl
    · rw [if_pos c, if_pos c]; exact LR.refl _
    · rw [if_neg c, if_neg c]; exact h.l k
  · unfold Heap.newPair; dsimp only; rw [h.ft]
  · unfold Heap.newPair; dsimp only; rw [h.fl]

theorem HR.push {H' H : Heap} (h : HR H' H) (t : Nat) (p : Pt) : HR (Form45.push H' t p) (H.push t p) := by
  unfold Form45.push Heap.push
  dsimp only
  rw [h.t]
  have hl := h.l (H.tail t).line
  by_cases c : (H.tail t).head = true
  · rw [if_pos c, if_pos c]; exact h.setLine (hl.push p) _
  · rw [if_neg c, if_neg c]; exact h.setLine (hl.reverse.push p).reverse _

theorem HR.join {H' H H2 : Heap} (h : HR H' H) {a b : Nat} (e : H.join a b = some H2) : HR (Form45.join H' a b) H2 := by
  unfold Heap.join at e
  unfold Form45.join
  rw [h.t]
  by_cases c1 : b = (H.tail a).other
  · rw [if_pos c1] at e ⊢; cases e; exact h
  rw [if_neg c1] at e ⊢
  by_cases c2 : (H.tail b).head = (H.tail a).head
  · rw [if_pos c2] at e ⊢; cases e; exact h
  rw [if_neg c2] at e ⊢
  dsimp only at e ⊢
  generalize hl1 : (if (H.tail a).head = true then (H.tail b).line else (H.tail a).line) = l1 at *
  generalize hl2 : (if (H.tail a).head = true then (H.tail a).line else (H.tail b).line) = l2 at *
  have h1 : HR (if (!(H.tail (H.tail a).other).head) = true then (H'.copyHoles (H.tail a).other b).copyHoles (H.tail a).other a else (H'.copyHoles (H.tail b).other a).copyHoles (H.tail b).other b)
      (if (!(H.tail (H.tail a).other).head) = true then (H.copyHoles (H.tail a).other b).copyHoles (H.tail a).other a else (H.copyHoles (H.tail b).other a).copyHoles (H.tail b).other b) := by
    by_cases c : (!(H.tail (H.tail a).other).head) = true
    · rw [if_pos c, if_pos c]; exact (h.copyHoles _ _).copyHoles _ _
    · rw [if_neg c, if_neg c]; exact (h.copyHoles _ _).copyHoles _ _
  obtain ⟨ps, e1, rfl⟩ := Option.map_eq_some_iff.1 e
  exact (h1.setLine ((h1.l l1).join (h1.l l2) e1) _).link _ _ _

theorem HR.poly {H' H : Heap} (h : HR H' H) (t : Nat) : PR (H'.poly t) (H.poly t) := by
  unfold Heap.poly
  rw [h.t]
  refine ⟨h.l _, ?_⟩
  dsimp only
  rw [List.forall₂_map_left_iff, List.forall₂_map_right_iff]
  exact List.forall₂_same.2 (fun n _ => h.l _)

theorem HR.joinChains {H' H : Heap} (h : HR H' H) {p : Pt} {a b : Nat} {solid : Bool} {r : Heap × List Poly × Option Nat} (e : H.joinChains p a b solid = some r) :
    HR (Form45.joinChains H' p a b solid).1 r.1 ∧ List.Forall₂ PR (Form45.joinChains H' p a b solid).2.1 r.2.1 ∧ (Form45.joinChains H' p a b solid).2.2 = r.2.2 := by
  unfold Heap.joinChains at e
  unfold Form45.joinChains
  rw [h.t]
  by_cases c : (H.tail a).other = b
  · rw [if_pos c] at e ⊢
    dsimp only at e ⊢
    have h1 := (h.push a p).push b p
    cases solid with
    | true =>
      rw [if_pos rfl] at e ⊢
      cases e
      dsimp only
      rw [h1.t]
      have h2 := h1.copyHoles a (((H.push a p).push b p).tail a).other
      exact ⟨h2, List.Forall₂.cons (h2.poly a) List.Forall₂.nil, rfl⟩
    | false =>
      rw [if_neg (by simp)] at e ⊢
      cases e
      exact ⟨h1, List.Forall₂.nil, rfl⟩
  · rw [if_neg c] at e ⊢
    obtain ⟨H2, e1, rfl⟩ := Option.map_eq_some_iff.1 e
    exact ⟨(h.push a p).join e1, List.Forall₂.nil, rfl⟩

theorem HR.createPair {H' H : Heap} (h : HR H' H) (p : Pt) (solid : Bool) (o : Option Nat) :
    HR (Form45.createPair H' p solid o).1 (H.createPair p solid o).1 ∧ (Form45.createPair H' p solid o).2 = (H.createPair p solid o).2 := by
  unfold Form45.createPair Heap.createPair
  dsimp only
  cases o with
  | none => exact ⟨h.newPair p solid, by rw [h.ft]⟩
  | some k =>
    dsimp only
    rw [h.ft]
    exact ⟨(h.newPair p solid).addHole _ _, rfl⟩

end Verif.F45
