import Verif.Proofs.FormLay
import Verif.Proofs.FormPoint
/-!
# The open ends in their order along the scanline

`Fit` ties the counts of `Lay` to the heap: a chain counts the sides of its line and the two edges that its ends follow.
-/
namespace Verif.ArbForm
open Verif.Arb Verif.Contains Verif.Spec.Arb Verif.Proofs.FormLay

/-- What the sides of a line weigh. -/
def lw (ω : Edge → Int) (l : List Pt) : Int := ((sides l).map ω).sum
/-- The other end. -/
def oth (H : Heap) (t : Nat) : Nat := (H.tail t).other
/-- The counts of the holes at an end. -/
def hwt (ω : Edge → Int) (H : Heap) (t : Nat) : List Int := (H.tail t).holes.map (fun h => - lw ω (H.ring h))
/-- The counts of the holes without place. -/
def flt (ω : Edge → Int) (H : Heap) (Fl : Option Nat) : List Int := (float H Fl).map (fun h => - lw ω (H.ring h))
/-- What the edge weighs that an end follows. -/
def we (ω : Edge → Int) (a : V × Nat) : Int := ω (dir a.1.1.1 a.1.1.2 a.1.2)

/-- The ends `S` from bottom to top; the holes without place are in the gap above the first `g` of them. -/
def Fit (ω : Edge → Int) (H : Heap) (S : List (V × Nat)) (Fl : Option Nat) (g : Nat) : Prop :=
  ∃ F, Lay (S.map Prod.snd) (oth H) F (hwt ω H) (flt ω H Fl) ((g : Int) - 1) ∧
    ∀ a ∈ S, a.1.2 = -1 → ∀ b ∈ S, b.2 = oth H a.2 → F a.2 = lw ω (H.line (H.tail a.2).line) + we ω a + we ω b

/-- A polygon that covers a point once or not, with holes that lie inside it and apart from each other. -/
def GoodP (ω : Edge → Int) (P : Poly) : Prop :=
  (lw ω P.outer = 0 ∨ lw ω P.outer = 1) ∧ (∀ h ∈ P.holes, lw ω h = 0 ∨ lw ω h = -1) ∧ 0 ≤ lw ω P.outer + (P.holes.map (lw ω)).sum

/-- A closed hole is apart from the open lines. -/
def HoleOk (H : Heap) (S : List (V × Nat)) (h : Nat) : Prop := h < H.ft ∧ (H.tail h).line < H.fl ∧ ∀ a ∈ S, (H.tail h).line ≠ (H.tail a.2).line

/-- What the heap knows about the ends. -/
structure EF (H : Heap) (S : List (V × Nat)) (Fl : Option Nat) : Prop where
  nd : (S.map Prod.snd).Nodup
  sg : ∀ a ∈ S, a.1.2 = 1 ∨ a.1.2 = -1
  fr : ∀ a ∈ S, a.1.2 = -1 → (H.tail a.2).head = true ∧ (H.line (H.tail a.2).line).head? = some a.1.1.1
  bk : ∀ a ∈ S, a.1.2 = 1 → (H.tail a.2).head = false ∧ (H.line (H.tail a.2).line).getLast? = some a.1.1.1
  ot : ∀ a ∈ S, ∃ b ∈ S, b.2 = oth H a.2 ∧ b.1.2 = - a.1.2 ∧ oth H b.2 = a.2 ∧ (H.tail b.2).line = (H.tail a.2).line
  ln : ∀ a ∈ S, ∀ b ∈ S, (H.tail b.2).line = (H.tail a.2).line → b = a ∨ b.2 = oth H a.2
  lt : ∀ a ∈ S, a.2 < H.ft ∧ (H.tail a.2).line < H.fl
  kh : ∀ a ∈ S, ∀ h ∈ (H.tail a.2).holes, HoleOk H S h
  fh : ∀ h ∈ float H Fl, HoleOk H S h
  fo : ∀ h, Fl = some h → h ≠ oth H h ∧ h < H.ft ∧ oth H h < H.ft ∧ ∀ a ∈ S, a.2 ≠ h ∧ a.2 ≠ oth H h

theorem EF.inj {H : Heap} {S : List (V × Nat)} {Fl : Option Nat} (h : EF H S Fl) {a b : V × Nat} (ha : a ∈ S) (hb : b ∈ S) (e : a.2 = b.2) : a = b :=
  List.inj_on_of_nodup_map h.nd ha hb e

theorem Web.ef {H : Heap} {S : List (V × Nat)} {Fl : Option Nat} {out : List Poly} {X : List Edge} (w : Web H (S.map en) Fl out X) : EF H S Fl := by
  obtain ⟨C, w, hp⟩ := w
  have find : ∀ a ∈ S, ∃ c ∈ C, IsEnd H c a.2 a.1.2 a.1.1.1 := by
    intro a ha
    obtain ⟨c, hc, hm⟩ := List.mem_flatMap.1 (hp.mem_iff.1 (List.mem_map.2 ⟨a, ha, rfl⟩))
    exact ⟨c, hc, (mem_ends (w.ne c hc)).1 hm⟩
  have tails : ∀ {a : V × Nat} {c : Chain}, IsEnd H c a.2 a.1.2 a.1.1.1 → a.2 ∈ c.tails := by
    rintro a c (⟨_, e, _⟩ | ⟨_, e, _⟩) <;> rw [e] <;> simp [Chain.tails]
  have line : ∀ {a : V × Nat} {c : Chain}, c ∈ C → IsEnd H c a.2 a.1.2 a.1.1.1 → (H.tail a.2).line = c.l := by
    rintro a c hc (⟨_, e, _⟩ | ⟨_, e, _⟩) <;> rw [e]
    · exact (w.fr c hc).1
    · exact (w.bk c hc).1
  have gf : ∀ c ∈ C, ∃ a ∈ S, a.2 = c.f ∧ a.1.2 = -1 := by
    intro c hc
    have : (c.f, (-1 : Int), ((H.line c.l).head?).getD (0, 0)) ∈ S.map en := hp.mem_iff.2 (List.mem_flatMap.2 ⟨c, hc, by simp [Chain.ends]⟩)
    obtain ⟨a, ha, e⟩ := List.mem_map.1 this
    simp only [Prod.mk.injEq] at e
    exact ⟨a, ha, e.1, e.2.1⟩
  have gb : ∀ c ∈ C, ∃ a ∈ S, a.2 = c.b ∧ a.1.2 = 1 := by
    intro c hc
    have : (c.b, (1 : Int), ((H.line c.l).getLast?).getD (0, 0)) ∈ S.map en := hp.mem_iff.2 (List.mem_flatMap.2 ⟨c, hc, by simp [Chain.ends]⟩)
    obtain ⟨a, ha, e⟩ := List.mem_map.1 this
    simp only [Prod.mk.injEq] at e
    exact ⟨a, ha, e.1, e.2.1⟩
  have uni : ∀ c ∈ C, ∀ d ∈ C, c.l = d.l → c = d := fun c hc d hd e => List.inj_on_of_nodup_map w.ndl hc hd e
  have ok : ∀ h ∈ closedHoles H C Fl, HoleOk H S h := by
    intro h hh
    obtain ⟨a1, a2, a3, _⟩ := w.kh h hh
    refine ⟨a1, a2, fun a ha => ?_⟩
    obtain ⟨c, hc, he⟩ := find a ha
    rw [line hc he]; exact a3 c hc
  have nd : (S.map Prod.snd).Nodup := by
    have e1 : S.map Prod.snd = (S.map en).map Prod.fst := by rw [List.map_map]; rfl
    have e2 : (C.flatMap (Chain.ends H)).map Prod.fst = C.flatMap Chain.tails := by rw [List.map_flatMap]; rfl
    rw [e1, (hp.map Prod.fst).nodup_iff, e2]; exact w.nd
  refine ⟨nd, ?_, ?_, ?_, ?_, ?_, ?_, ?_, fun h hh => ok h (List.mem_append_right _ hh), ?_⟩
  · intro a ha
    obtain ⟨c, hc, ⟨e, _⟩ | ⟨e, _⟩⟩ := find a ha
    exacts [Or.inr e, Or.inl e]
  · intro a ha hs
    obtain ⟨c, hc, ⟨e, e1, e2⟩ | ⟨e, _⟩⟩ := find a ha
    · rw [e1, (w.fr c hc).1]; exact ⟨(w.fr c hc).2.2, e2⟩
    · omega
  · intro a ha hs
    obtain ⟨c, hc, ⟨e, _⟩ | ⟨e, e1, e2⟩⟩ := find a ha
    · omega
    · rw [e1, (w.bk c hc).1]; exact ⟨(w.bk c hc).2.2, e2⟩
  · intro a ha
    obtain ⟨c, hc, ⟨e, e1, e2⟩ | ⟨e, e1, e2⟩⟩ := find a ha
    · obtain ⟨b, hb, b1, b2⟩ := gb c hc
      refine ⟨b, hb, ?_, by omega, ?_, ?_⟩
      · rw [b1, e1]; exact (w.fr c hc).2.1.symm
      · rw [b1, e1]; exact (w.bk c hc).2.1
      · rw [b1, e1, (w.bk c hc).1, (w.fr c hc).1]
    · obtain ⟨b, hb, b1, b2⟩ := gf c hc
      refine ⟨b, hb, ?_, by omega, ?_, ?_⟩
      · rw [b1, e1]; exact (w.bk c hc).2.1.symm
      · rw [b1, e1]; exact (w.fr c hc).2.1
      · rw [b1, e1, (w.bk c hc).1, (w.fr c hc).1]
  · intro a ha b hb hl
    obtain ⟨c, hc, hca⟩ := find a ha
    obtain ⟨d, hd, hdb⟩ := find b hb
    rw [line hc hca, line hd hdb] at hl
    have := uni d hd c hc hl
    subst this
    rcases hca with ⟨_, e1, _⟩ | ⟨_, e1, _⟩ <;> rcases hdb with ⟨_, e2, _⟩ | ⟨_, e2, _⟩
    · exact Or.inl (List.inj_on_of_nodup_map nd hb ha (e2.trans e1.symm))
    · right; rw [e2, e1]; exact (w.fr d hd).2.1.symm
    · right; rw [e2, e1]; exact (w.bk d hd).2.1.symm
    · exact Or.inl (List.inj_on_of_nodup_map nd hb ha (e2.trans e1.symm))
  · intro a ha
    obtain ⟨c, hc, hca⟩ := find a ha
    have f := w.fresh c hc
    rw [line hc hca]
    rcases hca with ⟨_, e1, _⟩ | ⟨_, e1, _⟩ <;> rw [e1]
    exacts [⟨f.1, f.2.2⟩, ⟨f.2.1, f.2.2⟩]
  · intro a ha h hh
    obtain ⟨c, hc, hca⟩ := find a ha
    refine ok h (List.mem_append_left _ (List.mem_flatMap.2 ⟨c, hc, ?_⟩))
    unfold Chain.holes
    rcases hca with ⟨_, e1, _⟩ | ⟨_, e1, _⟩ <;> rw [e1] at hh
    · exact List.mem_append_left _ hh
    · exact List.mem_append_right _ hh
  · intro h hh
    obtain ⟨f1, f2, f3, f4⟩ := w.fh h hh
    refine ⟨f1, f2, f3, fun a ha => ?_⟩
    obtain ⟨c, hc, hca⟩ := find a ha
    have := tails hca
    exact ⟨fun e => (f4 c hc).1 (e ▸ this), fun e => (f4 c hc).2 (by unfold oth at e; exact e ▸ this)⟩

variable {ω : Edge → Int} {H : Heap} {S A B : List (V × Nat)} {Fl : Option Nat} {g : Nat} {out : List Poly} {X : List Edge} {p : Pt}

theorem push_ft (H : Heap) (t : Nat) (p : Pt) : (H.push t p).ft = H.ft ∧ (H.push t p).fl = H.fl := by
  unfold Heap.push Heap.setLine; dsimp only; split_ifs <;> exact ⟨rfl, rfl⟩

theorem push_line (e : EF H S Fl) {a : V × Nat} (ha : a ∈ S) (hne : a.1.1.1 ≠ p) :
    (∀ n, n ≠ (H.tail a.2).line → (H.push a.2 p).line n = H.line n) ∧
    (∀ ω, lw ω ((H.push a.2 p).line (H.tail a.2).line) = lw ω (H.line (H.tail a.2).line) + ω (dir a.1.1.1 p a.1.2)) := by
  rcases e.sg a ha with hs | hs
  · obtain ⟨h1, h2⟩ := e.bk a ha hs
    have : H.push a.2 p = H.setLine (H.tail a.2).line (H.line (H.tail a.2).line ++ [p]) := by
      unfold Heap.push; simp only [h1, Bool.false_eq_true, if_false, pushBack_ne h2 hne]
    rw [this]
    refine ⟨fun n hn => by unfold Heap.setLine; simp [hn], fun ω => ?_⟩
    have : (H.setLine (H.tail a.2).line (H.line (H.tail a.2).line ++ [p])).line (H.tail a.2).line = H.line (H.tail a.2).line ++ [p] := by unfold Heap.setLine; simp
    rw [this]
    unfold lw dir
    rw [sides_back h2 hne, if_pos hs]
    simp
  · obtain ⟨h1, h2⟩ := e.fr a ha hs
    have : H.push a.2 p = H.setLine (H.tail a.2).line (p :: H.line (H.tail a.2).line) := by
      unfold Heap.push; simp only [h1, if_true, pushFront_ne h2 hne]
    rw [this]
    refine ⟨fun n hn => by unfold Heap.setLine; simp [hn], fun ω => ?_⟩
    have : (H.setLine (H.tail a.2).line (p :: H.line (H.tail a.2).line)).line (H.tail a.2).line = p :: H.line (H.tail a.2).line := by unfold Heap.setLine; simp
    rw [this]
    unfold lw dir
    rw [sides_front h2 hne, if_neg (by omega)]
    simp [add_comm]

/-- Holes are counted the same if their rings are. -/
theorem hwt_same {H H' : Heap} {t : Nat} (h1 : (H'.tail t).holes = (H.tail t).holes) (h2 : ∀ h ∈ (H.tail t).holes, H'.ring h = H.ring h) : hwt ω H' t = hwt ω H t := by
  unfold hwt; rw [h1]; exact List.map_congr_left (fun h hh => by rw [h2 h hh])

theorem flt_same {H H' : Heap} (h1 : float H' Fl = float H Fl) (h2 : ∀ h ∈ float H Fl, H'.ring h = H.ring h) : flt ω H' Fl = flt ω H Fl := by
  unfold flt; rw [h1]; exact List.map_congr_left (fun h hh => by rw [h2 h hh])

theorem float_tail {H H' : Heap} (h : H'.tail = H.tail) : float H' Fl = float H Fl := by
  cases Fl <;> simp [float, h]

/-- An end goes on to a point. -/
theorem Fit.push {a a' : V × Nat} (e : EF H (A ++ a :: B) Fl) (f : Fit ω H (A ++ a :: B) Fl g) (h2 : a'.2 = a.2) (hs : a'.1.2 = a.1.2)
    (hp : a.1.1.2 = p) (hne : a.1.1.1 ≠ p) (h0 : we ω a' = 0) : Fit ω (H.push a.2 p) (A ++ a' :: B) Fl g := by
  obtain ⟨F, L, v⟩ := f
  have ha : a ∈ A ++ a :: B := by simp
  obtain ⟨pl, pw⟩ := push_line e ha hne
  have er : ∀ h, HoleOk H (A ++ a :: B) h → (H.push a.2 p).ring h = H.ring h := by
    intro h hh
    unfold Heap.ring; rw [push_tail]; exact pl _ (hh.2.2 a ha)
  have eT : (A ++ a' :: B).map Prod.snd = (A ++ a :: B).map Prod.snd := by simp [h2]
  have eo : oth (H.push a.2 p) = oth H := by funext t; unfold oth; rw [push_tail]
  have ef : flt ω (H.push a.2 p) Fl = flt ω H Fl := flt_same (float_tail (push_tail _ _ _)) (fun h hh => er h (e.fh h hh))
  refine ⟨F, ?_, ?_⟩
  · rw [eT, eo, ef]
    refine L.congr (fun _ _ => rfl) (fun _ _ => rfl) (fun t ht => ?_)
    obtain ⟨x, hx, rfl⟩ := List.mem_map.1 ht
    rw [hwt_same (by rw [push_tail]) (fun h hh => er h (e.kh x hx h hh))]
  · have old : ∀ x ∈ A ++ a' :: B, x = a' ∨ (x ∈ A ++ a :: B ∧ x.2 ≠ a.2) := by
      intro x hx
      by_cases c : x = a'
      · exact Or.inl c
      right
      have hx' : x ∈ A ++ B := by
        rcases List.mem_append.1 hx with hx | hx
        · exact List.mem_append_left _ hx
        · rcases List.mem_cons.1 hx with hx | hx
          · exact absurd hx c
          · exact List.mem_append_right _ hx
      refine ⟨by rcases List.mem_append.1 hx' with hx' | hx' <;> simp [hx'], fun c' => ?_⟩
      have hn := e.nd
      rw [List.map_append, List.map_cons, List.nodup_middle, ← List.map_append, List.nodup_cons] at hn
      exact hn.1 (List.mem_map.2 ⟨x, hx', c'⟩)
    have hwa : ω (dir a.1.1.1 p a.1.2) = we ω a := by unfold we; rw [hp]
    intro x hx hsx y hy hxy
    rw [eo] at hxy
    rw [push_tail]
    obtain ⟨b, hb, b1, b2, b3, b4⟩ := e.ot a ha
    rcases old x hx with rfl | ⟨hx', hxa⟩
    · rw [h2] at hxy ⊢
      rcases old y hy with rfl | ⟨hy', hya⟩
      · exfalso
        rw [h2] at hxy
        rw [← hxy] at b1
        have := e.inj hb ha b1
        rw [this] at b2
        rcases e.sg a ha with k | k <;> omega
      · have := v a ha (by omega) y hy' hxy
        rw [this, pw ω, hwa, h0]; ring
    · rcases old y hy with rfl | ⟨hy', hya⟩
      · rw [h2] at hxy
        have := v x hx' hsx a ha hxy
        have el : (H.tail x.2).line = (H.tail a.2).line := by
          obtain ⟨z, hz, z1, z2, z3, z4⟩ := e.ot x hx'
          rw [← hxy] at z1
          rw [e.inj hz ha z1] at z4
          exact z4.symm
        rw [this, el, pw ω, hwa, h0]; ring
      · have := v x hx' hsx y hy' hxy
        rw [this, pl]
        intro el
        rcases e.ln a ha x hx' el with k | k
        · exact hxa (by rw [k])
        · have : y.2 = a.2 := by
            rw [hxy, k, ← b1]; exact b3
          exact hya this

/-- The web of chains with its order. -/
structure WebS (ω : Edge → Int) (H : Heap) (S : List (V × Nat)) (Fl : Option Nat) (g : Nat) (out : List Poly) (X : List Edge) : Prop where
  web : Web H (S.map en) Fl out X
  fit : Fit ω H S Fl g
  good : ∀ P ∈ out, GoodP ω P

theorem WebS.permX {X' : List Edge} (w : WebS ω H S Fl g out X) (h : X.Perm X') : WebS ω H S Fl g out X' := ⟨w.web.permX h, w.fit, w.good⟩

theorem Fit.gap {g' : Nat} (f : Fit ω H S none g) : Fit ω H S none g' := by
  obtain ⟨F, L, v⟩ := f
  exact ⟨F, L.gap _, v⟩

theorem WebS.gap {g' : Nat} (w : WebS ω H S none g out X) : WebS ω H S none g' out X := ⟨w.web, w.fit.gap, w.good⟩

theorem map_en_mid {a : V × Nat} : ((A ++ a :: B).map en).Perm (en a :: (A ++ B).map en) := by
  rw [List.map_append, List.map_cons, List.map_append]; exact List.perm_middle

theorem WebS.push {a a' : V × Nat} (w : WebS ω H (A ++ a :: B) Fl g out X) (h2 : a'.2 = a.2) (hs : a'.1.2 = a.1.2)
    (hp : a.1.1.2 = p) (hp' : a'.1.1.1 = p) (hne : a.1.1.1 ≠ p) (h0 : we ω a' = 0) : WebS ω (H.push a.2 p) (A ++ a' :: B) Fl g out (cl p a :: X) := by
  refine ⟨?_, w.fit.push w.web.ef h2 hs hp hne h0, w.good⟩
  have := (w.web.permA map_en_mid).push (p := p) hne
  refine this.permA (List.Perm.trans ?_ map_en_mid.symm)
  unfold en
  rw [h2, hs, hp']

theorem shf_nat {n g g' : Nat} (h : (g ≤ n ∧ g' = g) ∨ (n + 2 ≤ g' ∧ g = g' - 2)) : Verif.Proofs.PolyInv.Shf n ((g' : Int) - 1) ((g : Int) - 1) := by
  unfold Verif.Proofs.PolyInv.Shf
  omega

theorem newPair_tail (H : Heap) (p : Pt) (solid : Bool) : (∀ n, n < H.ft → (H.newPair p solid).tail n = H.tail n) ∧
    (H.newPair p solid).tail H.ft = ⟨H.fl, H.ft + 1, [], solid⟩ ∧ (H.newPair p solid).tail (H.ft + 1) = ⟨H.fl, H.ft, [], !solid⟩ ∧
    (∀ n, n < H.fl → (H.newPair p solid).line n = H.line n) ∧ (H.newPair p solid).line H.fl = [p] := by
  refine ⟨fun n hn => ?_, ?_, ?_, fun n hn => ?_, ?_⟩
  · unfold Heap.newPair; dsimp only; rw [if_neg (by omega), if_neg (by omega)]
  · unfold Heap.newPair; simp
  · unfold Heap.newPair; simp
  · unfold Heap.newPair; dsimp only; rw [if_neg (by omega)]
  · unfold Heap.newPair; simp

/-- A new pair. -/
theorem Fit.create {x y : V × Nat} {g' : Nat} (e : EF H (A ++ B) Fl) (f : Fit ω H (A ++ B) Fl g) (solid : Bool)
    (hxy : (x.2 = H.ft ∧ y.2 = H.ft + 1) ∨ (x.2 = H.ft + 1 ∧ y.2 = H.ft)) (hx : we ω x = 0) (hy : we ω y = 0)
    (hg : Fl = none ∨ (g ≤ A.length ∧ g' = g) ∨ (A.length + 2 ≤ g' ∧ g = g' - 2)) : Fit ω (H.newPair p solid) (A ++ x :: y :: B) Fl g' := by
  obtain ⟨F, L, v⟩ := f
  obtain ⟨et, t1, t2, el, l1⟩ := newPair_tail H p solid
  have lt : ∀ t ∈ (A ++ B).map Prod.snd, t < H.ft := by
    intro t ht
    obtain ⟨a, ha, rfl⟩ := List.mem_map.1 ht
    exact (e.lt a ha).1
  have o1 : oth (H.newPair p solid) H.ft = H.ft + 1 := by unfold oth; rw [t1]
  have o2 : oth (H.newPair p solid) (H.ft + 1) = H.ft := by unfold oth; rw [t2]
  have oold : ∀ t, t < H.ft → oth (H.newPair p solid) t = oth H t := fun t ht => by unfold oth; rw [et t ht]
  have er : ∀ h, HoleOk H (A ++ B) h → (H.newPair p solid).ring h = H.ring h := by
    intro h hh
    unfold Heap.ring; rw [et h hh.1, el _ hh.2.1]
  have eh : ∀ t ∈ (A ++ B).map Prod.snd, hwt ω (H.newPair p solid) t = hwt ω H t := by
    intro t ht
    obtain ⟨a, ha, rfl⟩ := List.mem_map.1 ht
    exact hwt_same (by rw [et _ (e.lt a ha).1]) (fun h hh => er h (e.kh a ha h hh))
  have h1 : hwt ω (H.newPair p solid) H.ft = [] := by unfold hwt; rw [t1]; rfl
  have h2 : hwt ω (H.newPair p solid) (H.ft + 1) = [] := by unfold hwt; rw [t2]; rfl
  have ef : float (H.newPair p solid) Fl = float H Fl := by
    cases Fl with
    | none => rfl
    | some h =>
      obtain ⟨_, f2, f3, _⟩ := e.fo h rfl
      unfold float
      dsimp only
      unfold oth at f3
      rw [et h f2, et _ f3]
  have ef' : flt ω (H.newPair p solid) Fl = flt ω H Fl := flt_same ef (fun h hh => er h (e.fh h hh))
  have split : ∀ z, z ∈ A ++ x :: y :: B ↔ z ∈ A ++ B ∨ z = x ∨ z = y := by
    intro n; simp only [List.mem_append, List.mem_cons]; tauto
  refine ⟨fun t => if t < H.ft then F t else 0, ?_, ?_⟩
  · rw [List.map_append, List.map_cons, List.map_cons, ef']
    rw [List.map_append] at L lt eh
    have fF : ∀ a ∈ A.map Prod.snd ++ B.map Prod.snd, (if a < H.ft then F a else 0) = F a := fun a ha => if_pos (lt a ha)
    have oO : ∀ a ∈ A.map Prod.snd ++ B.map Prod.snd, oth (H.newPair p solid) a = oth H a := fun a ha => oold a (lt a ha)
    have hq : flt ω H Fl = [] ∨ Verif.Proofs.PolyInv.Shf (A.map Prod.snd).length ((g' : Int) - 1) ((g : Int) - 1) := by
      rcases hg with rfl | hg
      · exact Or.inl rfl
      · right; rw [List.length_map]; exact shf_nat hg
    rcases hxy with ⟨e1, e2⟩ | ⟨e1, e2⟩
    · rw [e1, e2]
      exact L.new (fun h => by have := lt _ h; omega) (fun h => by have := lt _ h; omega) (by omega) o1 o2 oO (if_neg (by omega)) (if_neg (by omega)) fF h1 h2 eh hq
    · rw [e1, e2]
      exact L.new (fun h => by have := lt _ h; omega) (fun h => by have := lt _ h; omega) (by omega) o2 o1 oO (if_neg (by omega)) (if_neg (by omega)) fF h2 h1 eh hq
  · intro a ha hs b hb hab
    have hz : ∀ z, z = x ∨ z = y → we ω z = 0 ∧ ¬ z.2 < H.ft ∧ ((H.newPair p solid).tail z.2).line = H.fl ∧ ¬ oth (H.newPair p solid) z.2 < H.ft := by
      rintro z (rfl | rfl)
      · refine ⟨hx, ?_⟩
        rcases hxy with ⟨e1, _⟩ | ⟨e1, _⟩ <;> rw [e1]
        · rw [t1, o1]; exact ⟨by omega, rfl, by omega⟩
        · rw [t2, o2]; exact ⟨by omega, rfl, by omega⟩
      · refine ⟨hy, ?_⟩
        rcases hxy with ⟨_, e1⟩ | ⟨_, e1⟩ <;> rw [e1]
        · rw [t2, o2]; exact ⟨by omega, rfl, by omega⟩
        · rw [t1, o1]; exact ⟨by omega, rfl, by omega⟩
    rcases (split a).1 ha with k | k
    · have la := (e.lt a k)
      rcases (split b).1 hb with m | m
      · rw [oold _ la.1] at hab
        dsimp only
        rw [if_pos la.1, et _ la.1, el _ la.2]
        exact v a k hs b m hab
      · exfalso
        obtain ⟨c, hc, c1, _⟩ := e.ot a k
        have := (e.lt c hc).1
        rw [c1, ← oold _ la.1, ← hab] at this
        exact (hz b m).2.1 this
    · have ka := hz a k
      rcases (split b).1 hb with m | m
      · exact absurd (hab ▸ (e.lt b m).1) ka.2.2.2
      · dsimp only
        rw [if_neg ka.2.1, ka.2.2.1, l1, ka.1, (hz b m).1]; rfl

/-- What `addHole` does. -/
theorem addHole_facts {t h : Nat} (f1 : h ≠ oth H h) (hth : t ≠ h) (htb : t ≠ oth H h) :
    SameH H (H.addHole t h) ∧ ∀ n, n ≠ h → n ≠ oth H h → ((H.addHole t h).tail n).holes =
      if n = t then (H.tail t).holes ++ (h :: ((H.tail h).holes ++ (H.tail (oth H h)).holes)) else (H.tail n).holes := by
  generalize hb : oth H h = b at *
  have e0 : H.addHole t h = ((H.setHoles t ((H.tail t).holes ++ [h])).copyHoles t h).copyHoles t b := by
    unfold Heap.addHole
    dsimp only
    unfold oth at hb
    rw [((SameH.setHoles H t ((H.tail t).holes ++ [h])).t h).2.1, hb]
  refine ⟨by rw [e0]; exact ((SameH.setHoles _ _ _).trans (SameH.copy _ _ _)).trans (SameH.copy _ _ _), ?_⟩
  intro n h1 h2
  rw [e0, copy_holes, if_neg h2]
  by_cases hn : n = t
  · rw [if_pos hn, if_pos hn, copy_holes, if_neg hth, if_pos rfl, setHoles_holes, if_pos rfl, setHoles_holes, if_neg (Ne.symm hth), copy_holes,
      if_neg (Ne.symm f1), if_neg (Ne.symm htb), setHoles_holes, if_neg (Ne.symm htb)]
    simp
  · rw [if_neg hn, if_neg hn, copy_holes, if_neg h1, if_neg hn, setHoles_holes, if_neg hn]

theorem Fit.addHole {a : V × Nat} {h g' : Nat} (e : EF H S (some h)) (f : Fit ω H S (some h) g) (ha : a ∈ S)
    (hg : (g : Int) - 1 = Verif.Proofs.PolyLam.gp (Verif.Proofs.PolyWeb.ps (S.map Prod.snd) a.2)) : Fit ω (H.addHole a.2 h) S none g' := by
  obtain ⟨F, L, v⟩ := f
  obtain ⟨f1, f2, f3, f4⟩ := e.fo h rfl
  obtain ⟨s, eh⟩ := addHole_facts f1 (f4 a ha).1 (f4 a ha).2
  have eo : oth (H.addHole a.2 h) = oth H := by funext t; exact (s.t t).2.1
  have hw : ∀ x ∈ S, hwt ω (H.addHole a.2 h) x.2 = if x = a then hwt ω H a.2 ++ flt ω H (some h) else hwt ω H x.2 := by
    intro x hx
    unfold hwt flt
    rw [eh x.2 (f4 x hx).1 (f4 x hx).2]
    by_cases c : x = a
    · rw [if_pos (by rw [c]), if_pos c, ← List.map_append]
      simp only [ring_same s]
      rfl
    · rw [if_neg (fun c' => c (e.inj hx ha c')), if_neg c]
      simp only [ring_same s]
  refine ⟨F, ?_, ?_⟩
  · rw [eo]
    refine (L.attach (List.mem_map.2 ⟨a, ha, rfl⟩) (Or.inr hg) (hs' := hwt ω (H.addHole a.2 h)) ?_ ?_ _)
    · rw [hw a ha, if_pos rfl]
    · intro t ht hne
      obtain ⟨x, hx, rfl⟩ := List.mem_map.1 ht
      rw [hw x hx, if_neg (fun c => hne (by rw [c]))]
  · intro x hx hsx y hy hxy
    rw [eo] at hxy
    rw [(s.t _).1, s.line]
    exact v x hx hsx y hy hxy

end Verif.ArbForm
