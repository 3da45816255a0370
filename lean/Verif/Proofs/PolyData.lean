import Verif.Proofs.PolyFinish
import Verif.Proofs.PolyLoop
import Verif.Proofs.PolyCyc
import Verif.Proofs.RectForm
/-!
# From the sorted boundary changes to the polygons
-/
namespace Verif.Proofs.PolyData
open Verif.PolyForm Verif.Proofs.PolyGross Verif.Proofs.PolyCyc Verif.Proofs.PolyPath Verif.Proofs.PolyWeb Verif.Proofs.PolyInv Verif.Proofs.PolyCol Verif.Proofs.PolyRound Verif.Proofs.PolyFinish Verif.Proofs.PolyLoop
open Verif.Interval Verif.BooleanOp Verif.Set90 Verif.RectForm Verif.Spec Verif.Isotropy

/-- The value of a loop at a place given in the order of the scan. -/
def val (orient : Nat) (c : List Int) (i j : Int) : Int := if orient = HORIZONTAL then W j i c else W i j c

def sg (fr : Bool) : Int := if fr then -1 else 1

/-- What a polygon counts. -/
def pvl (fr : Bool) (orient : Nat) (p : Poly) (i j : Int) : Int :=
  sg fr * (val orient p.outer i j + (p.holes.map (fun h => val orient h i j)).sum)

structure POk (fr : Bool) (orient : Nat) (p : Poly) : Prop where
  lo : LoopP p.outer
  lh : ∀ h ∈ p.holes, LoopP h
  nh : fr = true → p.holes = []
  vo : ∀ i j, val orient p.outer i j = 0 ∨ val orient p.outer i j = sg fr
  nn : ∀ i j, 0 ≤ pvl fr orient p i j
  vh : ∀ h ∈ p.holes, ∀ i j, val orient h i j = 0 ∨ val orient h i j = -1

theorem fig {X : Int} {H : Heap} {S Z : List Nat} (hz : ZOk X H S Z) {n : Nat} (hn : n ∈ Z) (isHole : Bool) (orient : Nat) :
    LoopP (figure H n isHole orient) ∧ ∀ i j, val orient (figure H n isHole orient) i j = (if isHole then 1 else -1) * W i j (pth H n) := by
  have hl := hz.loop n hn
  have hr := hz.rev n hn
  obtain ⟨v1, v2⟩ := hz.vt n hn
  unfold pth at hr hl
  unfold vrt oth at v2
  unfold vrt at v1
  unfold oth at hr
  unfold figure val
  by_cases ho : orient = HORIZONTAL
  · subst ho
    cases isHole
    · simp only [Bool.not_false, beq_self_eq_true, Bool.xor_self, Bool.false_eq_true, if_false, v1, Bool.not_true, Bool.false_xor, if_true]
      exact ⟨loop_rot hl, fun i j => by rw [show (H.tail n).path.tail ++ (H.tail n).path.take 1 = rot (H.tail n).path from rfl, W_swap hl]; unfold pth; ring⟩
    · simp only [Bool.not_true, beq_self_eq_true, Bool.false_xor, if_true, v2, Bool.not_false, Bool.xor_self, Bool.false_eq_true, if_false, hr]
      exact ⟨loop_reverse hl, fun i j => by rw [W_reverse_swap hl]; unfold pth; ring⟩
  · have ho' : (orient == HORIZONTAL) = false := by simpa using ho
    simp only [ho', if_neg ho]
    cases isHole
    · simp only [Bool.not_false, Bool.xor_false, if_true, v2, hr, Bool.false_eq_true, if_false]
      exact ⟨loop_rot (loop_reverse hl), fun i j => by
        rw [show (H.tail n).path.reverse.tail ++ (H.tail n).path.reverse.take 1 = rot (H.tail n).path.reverse from rfl, W_rot_reverse hl]; unfold pth; ring⟩
    · simp only [Bool.not_true, Bool.xor_false, Bool.false_eq_true, if_false, v1, if_true]
      exact ⟨hl, fun i j => by unfold pth; ring⟩

theorem poly_ok {fr : Bool} {X : Int} {H : Heap} {S Z : List Nat} (g : G fr X H S Z) {n : Nat} (hn : n ∈ Z) (hnn : ∀ i j, 0 ≤ ov H i j n) (orient : Nat) :
    POk fr orient (polyOf H fr orient n) ∧ ∀ i j, pvl fr orient (polyOf H fr orient n) i j = ov H i j n := by
  have hh : ∀ h ∈ (H.tail n).holes, fr = false ∧ h ∈ Z := g.hol n
  have key : ∀ i j, pvl fr orient (polyOf H fr orient n) i j = ov H i j n := by
    unfold polyOf
    intro i j
    cases fr
    · simp only [Bool.false_eq_true, if_false]
      unfold pvl ov hs
      dsimp only
      rw [(fig g.z hn _ _).2, List.map_map]
      have : List.map ((fun h => val orient h i j) ∘ fun h => figure H h true orient) (H.tail n).holes =
          (H.tail n).holes.map (fun h => W i j (pth H h)) := by
        refine List.map_congr_left (fun h hm => ?_)
        simp only [Function.comp]
        rw [(fig g.z (hh h hm).2 _ _).2]; simp
      rw [this]
      simp [sg]
    · simp only [if_true]
      have h0 : (H.tail n).holes = [] := by
        cases hc : (H.tail n).holes with
        | nil => rfl
        | cons a l => have := (hh a (by rw [hc]; simp)).1; simp at this
      unfold pvl ov hs
      dsimp only
      rw [(fig g.z hn _ _).2, h0]
      simp [sg]
  refine ⟨?_, key⟩
  have hn0 : ∀ i j, 0 ≤ pvl fr orient (polyOf H fr orient n) i j := fun i j => by rw [key]; exact hnn i j
  unfold polyOf at hn0 ⊢
  cases fr
  · simp only [Bool.false_eq_true, if_false] at hn0 ⊢
    refine ⟨(fig g.z hn _ _).1, ?_, by simp, ?_, hn0, ?_⟩
    · intro h hm
      obtain ⟨m, hm', rfl⟩ := List.mem_map.1 hm
      exact (fig g.z (hh m hm').2 _ _).1
    · intro i j
      rw [(fig g.z hn _ _).2]
      have := g.z.rng n hn i j
      simp [sg]; omega
    · intro h hm i j
      obtain ⟨m, hm', rfl⟩ := List.mem_map.1 hm
      rw [(fig g.z (hh m hm').2 _ _).2]
      have := g.z.rng m (hh m hm').2 i j
      simpa using this
  · simp only [if_true] at hn0 ⊢
    refine ⟨(fig g.z hn _ _).1, by simp, by simp, ?_, hn0, by simp⟩
    intro i j
    rw [(fig g.z hn _ _).2]
    have := g.z.rng n hn i j
    simpa [sg] using this

/-- The pieces of a polygon and its holes, in the frame of the scan. -/
def pph (orient : Nat) (p : Poly) (i y : Int) : Int := ph orient p.outer i y + (p.holes.map (fun h => ph orient h i y)).sum
def ppv (orient : Nat) (p : Poly) (i j : Int) : Int := pv orient p.outer i j + (p.holes.map (fun h => pv orient h i j)).sum

theorem poly_pieces {X : Int} {H : Heap} {S Z : List Nat} (g : G false X H S Z) {n : Nat} (hn : n ∈ Z) (orient : Nat) (i y : Int) :
    pph orient (polyOf H false orient n) i y = go (hW i y) H n ∧ ppv orient (polyOf H false orient n) i y = go (vW i y) H n := by
  have hh : ∀ h ∈ (H.tail n).holes, h ∈ Z := fun h hm => (g.hol n h hm).2
  unfold polyOf pph ppv go hg
  simp only [Bool.false_eq_true, if_false, List.map_map]
  rw [(fig_pieces g.z hn _ _ i y).1, (fig_pieces g.z hn _ _ i y).2]
  constructor
  · congr 2
    exact List.map_congr_left (fun h hm => (fig_pieces g.z (hh h hm) _ _ i y).1)
  · congr 2
    exact List.map_congr_left (fun h hm => (fig_pieces g.z (hh h hm) _ _ i y).2)

def jump (a b : Int) : Int := if a = b then 0 else 1

/-- The pieces of the polygons and the open chains up to a place in the scan: one where the depth changes. -/
structure Pieces (orient : Nat) (P : List V) (H : Heap) (S : List Nat) (out : List Poly) (A : Int → Prop) : Prop where
  h : ∀ i y, A i → gs (hW i y) H S + 2 * (out.map (fun p => pph orient p i y)).sum = 2 * jump (coverZ P i y) (coverZ P i (y - 1))
  v : ∀ i j, A i → gs (vW i j) H S + 2 * (out.map (fun p => ppv orient p i j)).sum = 2 * jump (coverZ P (i - 1) j) (coverZ P i j)

theorem pieces_nil (orient : Nat) (H : Heap) (A : Int → Prop) : Pieces orient [] H [] [] A :=
  ⟨fun i y _ => by simp [gs, jump, coverZ], fun i y _ => by simp [gs, jump, coverZ]⟩

/-! ### edges of one column -/

structure Rows (umax a : Int) (P : List V) (e : Int) (l : List Ivl) : Prop where
  row : ∀ d ∈ l, d.lo < d.hi ∧ d.hi ≤ umax ∧ (∃ u ∈ P, u.x = a ∧ u.y = d.hi ∧ u.c = -e) ∧ ∀ j, d.lo ≤ j → j < d.hi → colc a j P = e
  gap : l.Pairwise (fun a b => a.hi < b.lo)

def H0 : Heap := ⟨fun _ => default, 0⟩

def osum (fr : Bool) (orient : Nat) (out : List Poly) (i j : Int) : Int := (out.map (fun p => pvl fr orient p i j)).sum

structure RI (fr : Bool) (orient : Nat) (umax : Int) (P : List V) (g : GP) : Prop where
  lt : ∀ u ∈ P, u.x ≤ g.prevPos
  hl : Rows umax g.prevPos P 1 g.l
  hr : Rows umax g.prevPos P (-1) g.r
  off : ∀ j, (∀ d ∈ g.l ++ g.r, ¬ (d.lo ≤ j ∧ j < d.hi)) → colc g.prevPos j P = 0
  btw : ∃ Z, Btw fr g.prevPos (coverZ P (g.prevPos - 1)) g.H g.map Z
  acc : ∀ i j, i < g.prevPos → osum fr orient g.out i j + cs g.H (g.map.map (·.2)) i j = coverZ P i j
  ok : ∀ p ∈ g.out, POk fr orient p ∧ ∀ i j, g.prevPos ≤ i → pvl fr orient p i j = 0
  top : ∃ J, ∀ i j, J ≤ j → coverZ P i j = 0
  bot : ∃ J, ∀ i j, j < J → coverZ P i j = 0
  gr : fr = false → Pieces orient P g.H (g.map.map (·.2)) g.out (fun i => i < g.prevPos) ∧
    ∀ p ∈ g.out, ∀ i y, g.prevPos ≤ i → pph orient p i y = 0 ∧ ppv orient p i y = 0
  nil : P = [] → g.l = [] ∧ g.r = [] ∧ g.map = [] ∧ g.out = [] ∧ g.H = H0

theorem osum_zero {fr : Bool} {orient : Nat} {out : List Poly} {i j : Int} (h : ∀ p ∈ out, pvl fr orient p i j = 0) : osum fr orient out i j = 0 := by
  unfold osum
  apply List.sum_eq_zero
  intro x hx
  obtain ⟨p, hp, rfl⟩ := List.mem_map.1 hx
  exact h p hp

theorem btw_init (fr : Bool) (Y : Int) : Btw fr Y (fun _ => 0) H0 [] [] := by
  refine ⟨List.Pairwise.nil, ⟨?_, by simp, ?_, ?_, fun i j _ => ⟨by simp, by simp⟩⟩, by simp, by simp, fun j => by simp [cnt], fun _ i j _ => by simp [gs]⟩
  · refine ⟨by simp, by simp, by simp, by simp, by simp, by simp, by simp, by simp, by simp, by simp, ?_⟩
    intro i j _
    exact ⟨fun _ hm => by simp at hm, fun _ _ hm => by simp at hm⟩
  · exact ⟨by simp, by simp, by simp, by simp, by simp, by simp, by simp⟩
  · intro t h hh
    exact absurd hh (by simp [H0, show (default : Tail).holes = [] from rfl])

/-- Closing a column. -/
theorem flush_spec {fr : Bool} {orient : Nat} {umax : Int} {P : List V} {g : GP} (h : RI fr orient umax P g)
    (hc : ∀ i j, coverZ P i j = 0 ∨ coverZ P i j = 1) {Y : Int} (hY : P = [] ∨ g.prevPos < Y) :
    ∃ H m out, g.flush fr orient umax = some { g with H := H, map := m, out := out } ∧
      (∃ Z, Btw fr Y (coverZ P g.prevPos) H m Z) ∧ (∀ i j, osum fr orient out i j + cs H (m.map (·.2)) i j = coverZ P i j) ∧
      (∀ p ∈ out, POk fr orient p ∧ ∀ i j, g.prevPos ≤ i → pvl fr orient p i j = 0) ∧ (P = [] → m = [] ∧ out = [] ∧ H = H0) ∧
      (fr = false → Pieces orient P H (m.map (·.2)) out (fun _ => True) ∧
        ∀ p ∈ out, ∀ i y, g.prevPos < i → pph orient p i y = 0 ∧ ppv orient p i y = 0) := by
  by_cases hP : P = []
  · obtain ⟨e1, e2, e3, e4, e5⟩ := h.nil hP
    refine ⟨H0, [], [], ?_, ⟨[], ?_⟩, ?_, by simp, by simp, fun _ => ⟨by rw [hP]; exact pieces_nil _ _ _, by simp⟩⟩
    · unfold GP.flush processEdges
      rw [e1, e2, e3, e5, procGo.eq_def]
      simp [e4]
    · have := btw_init fr Y
      rw [hP]; exact this
    · intro i j; rw [hP]; simp [osum, cs, coverZ, wsum]
  · have hY : g.prevPos < Y := by simpa [hP] using hY
    obtain ⟨Z, hb⟩ := h.btw
    have hst := fun j => cover_step P g.prevPos j
    have hcol : ∀ y, Col umax (coverZ P (g.prevPos - 1)) (coverZ P g.prevPos) y g.l g.r := by
      intro y
      refine ⟨⟨fun d hd => ?_, h.hl.gap⟩, ⟨fun d hd => ?_, h.hr.gap⟩, fun j _ hj => ?_⟩
      · obtain ⟨a1, a2, _, a4⟩ := h.hl.row d hd
        refine ⟨a1, by omega, fun j h1 h2 => ?_⟩
        have := a4 j h1 h2; have := hst j; have := hc g.prevPos j; have := hc (g.prevPos - 1) j
        omega
      · obtain ⟨a1, a2, _, a4⟩ := h.hr.row d hd
        refine ⟨a1, by omega, fun j h1 h2 => ?_⟩
        have := a4 j h1 h2; have := hst j; have := hc g.prevPos j; have := hc (g.prevPos - 1) j
        omega
      · have := h.off j hj; have := hst j; omega
    obtain ⟨J, hJ⟩ := h.top
    obtain ⟨K, hK⟩ := h.bot
    obtain ⟨H', M', out, Z', p1, p2, p3, p4, p5, p6, p7⟩ := column hb hY hcol ⟨J, fun j hj => hJ _ j hj⟩ ⟨J, fun j hj => hJ _ j hj⟩ ⟨K, fun j hj => hK _ j hj⟩
    refine ⟨H', M', g.out ++ out.map (polyOf H' fr orient), ?_, ⟨Z', p2⟩, ?_, ?_, fun hn => absurd hn hP, ?_⟩
    · unfold GP.flush; rw [p1]; rfl
    · intro i j
      have e1 : osum fr orient (g.out ++ out.map (polyOf H' fr orient)) i j = osum fr orient g.out i j + (out.map (ov H' i j)).sum := by
        unfold osum
        rw [List.map_append, List.sum_append, List.map_map]
        congr 2
        refine List.map_congr_left (fun n hn => ?_)
        exact (poly_ok p2.g (p3 n hn) (p6 n hn) orient).2 i j
      rw [e1]
      rcases Int.lt_or_le i g.prevPos with hi | hi
      · have := p4 i j hi; have := h.acc i j hi; omega
      · obtain ⟨q1, q2⟩ := p5 i j hi
        rw [osum_zero (fun p hp => (h.ok p hp).2 i j hi), q1, coverZ_const h.lt hi]
        have : (out.map (ov H' i j)).sum = 0 := by
          apply List.sum_eq_zero
          intro x hx
          obtain ⟨n, hn, rfl⟩ := List.mem_map.1 hx
          exact q2 n hn
        omega
    · intro p hp
      rcases List.mem_append.1 hp with hp | hp
      · exact h.ok p hp
      · obtain ⟨n, hn, rfl⟩ := List.mem_map.1 hp
        obtain ⟨k1, k2⟩ := poly_ok p2.g (p3 n hn) (p6 n hn) orient
        exact ⟨k1, fun i j hi => by rw [k2, (p5 i j hi).2 n hn]⟩
    · intro hf
      subst hf
      obtain ⟨⟨g1, g2⟩, g3⟩ := h.gr rfl
      obtain ⟨c1, c2, c3, c4⟩ := p7 rfl
      have z0 : ∀ {f : Poly → Int}, (∀ p ∈ g.out, f p = 0) → (g.out.map f).sum = 0 := fun hz => List.sum_eq_zero (fun x hx => by
        obtain ⟨p, hp, rfl⟩ := List.mem_map.1 hx
        exact hz p hp)
      have o0 : ∀ {f : Nat → Int}, (∀ p ∈ out, f p = 0) → (out.map f).sum = 0 := fun hz => List.sum_eq_zero (fun x hx => by
        obtain ⟨p, hp, rfl⟩ := List.mem_map.1 hx
        exact hz p hp)
      have e1 : ∀ i y, ((g.out ++ out.map (polyOf H' false orient)).map (fun p => pph orient p i y)).sum =
          (g.out.map (fun p => pph orient p i y)).sum + (out.map (go (hW i y) H')).sum := by
        intro i y
        rw [List.map_append, List.sum_append, List.map_map]
        congr 2
        exact List.map_congr_left (fun n hn => (poly_pieces p2.g (p3 n hn) orient i y).1)
      have e2 : ∀ i y, ((g.out ++ out.map (polyOf H' false orient)).map (fun p => ppv orient p i y)).sum =
          (g.out.map (fun p => ppv orient p i y)).sum + (out.map (go (vW i y) H')).sum := by
        intro i y
        rw [List.map_append, List.sum_append, List.map_map]
        congr 2
        exact List.map_congr_left (fun n hn => (poly_pieces p2.g (p3 n hn) orient i y).2)
      refine ⟨⟨fun i y _ => ?_, fun i j _ => ?_⟩, fun p hp i y hi => ?_⟩
      · rw [e1]
        rcases Int.lt_or_le i g.prevPos with hi | hi
        · have := c1 i y hi; have := g1 i y hi; omega
        · obtain ⟨d1, d2⟩ := c2 i y hi
          rw [d1, z0 (fun p hp => (g3 p hp i y hi).1), o0 d2, coverZ_const h.lt hi, coverZ_const h.lt hi, jump]; omega
      · rw [e2]
        have := c3 i j
        rcases Int.lt_trichotomy i g.prevPos with hi | hi | hi
        · have := g2 i j hi
          rw [if_neg (by omega)] at *; omega
        · rw [if_pos hi] at this
          rw [z0 (fun p hp => (g3 p hp i j (by omega)).2), hi] 
          rw [hi] at this
          unfold jump; omega
        · rw [if_neg (by omega), hb.gv rfl i j (by omega)] at this
          rw [z0 (fun p hp => (g3 p hp i j (by omega)).2), coverZ_const h.lt (show g.prevPos ≤ i by omega), coverZ_const h.lt (show g.prevPos ≤ i - 1 by omega)]
          unfold jump; rw [if_pos rfl]; omega
      · rcases List.mem_append.1 hp with hp | hp
        · exact g3 p hp i y (by omega)
        · obtain ⟨n, hn, rfl⟩ := List.mem_map.1 hp
          obtain ⟨k1, k2⟩ := poly_pieces p2.g (p3 n hn) orient i y
          rw [k1, k2]
          exact ⟨(c2 i y (by omega)).2 n hn, c4 i y hi n hn⟩

/-! ### adding an edge -/

theorem coverZ_append (L M : List V) (i j : Int) : coverZ (L ++ M) i j = coverZ L i j + coverZ M i j := by simp [coverZ]

theorem pair_cover {v w : V} (hx : w.x = v.x) (hc : w.c = - v.c) (hy : v.y < w.y) (i j : Int) :
    coverZ [v, w] i j = if v.x ≤ i ∧ v.y ≤ j ∧ j < w.y then v.c else 0 := by
  simp only [coverZ, List.map_cons, List.map_nil, List.sum_cons, List.sum_nil]
  split_ifs <;> omega

theorem pair_colc {v w : V} (hx : w.x = v.x) (hc : w.c = - v.c) (hy : v.y < w.y) (a j : Int) :
    colc a j [v, w] = if v.x = a ∧ v.y ≤ j ∧ j < w.y then v.c else 0 := by
  simp only [colc, List.map_cons, List.map_nil, List.sum_cons, List.sum_nil]
  split_ifs <;> omega

theorem addEdge_eq {L : List Ivl} {e : Ivl} (h : ∀ d ∈ L, d.hi ≠ e.lo) : addEdge L e = L ++ [e] := by
  unfold addEdge
  cases hc : L.getLast? with
  | none => rw [List.getLast?_eq_none_iff] at hc; rw [hc]; rfl
  | some b => dsimp only; rw [if_neg (h b (List.mem_of_getLast? hc))]

theorem rows_keep {umax a : Int} {P : List V} {e : Int} {l : List Ivl} (h : Rows umax a P e l) {v w : V} (hx : w.x = v.x) (hc : w.c = - v.c) (hy : v.y < w.y)
    (hv : v.x = a) (hs : ∀ u ∈ P, u.x = v.x → u.y ≤ v.y) : Rows umax a (P ++ [v, w]) e l := by
  refine ⟨fun d hd => ?_, h.gap⟩
  obtain ⟨a1, a2, ⟨u, u1, u2, u3, u4⟩, a4⟩ := h.row d hd
  refine ⟨a1, a2, ⟨u, List.mem_append_left _ u1, u2, u3, u4⟩, fun j h1 h2 => ?_⟩
  have := hs u u1 (by omega)
  rw [colc_append, pair_colc hx hc hy, a4 j h1 h2, if_neg (by omega)]; omega

theorem rows_add {umax a : Int} {P : List V} {e : Int} {l : List Ivl} (h : Rows umax a P e l) {v w : V} (hx : w.x = v.x) (hc : w.c = - v.c) (hy : v.y < w.y)
    (hv : v.x = a) (hs : ∀ u ∈ P, u.x = v.x → u.y ≤ v.y) (hf : ∀ u ∈ P, u.x = v.x → u.y = v.y → u.c = v.c) (he : v.c = e) (he' : e ≠ 0) (hu : w.y ≤ umax)
    (h0 : ∀ j, v.y ≤ j → colc a j P = 0) :
    addEdge l ⟨v.y, w.y⟩ = l ++ [⟨v.y, w.y⟩] ∧ Rows umax a (P ++ [v, w]) e (l ++ [⟨v.y, w.y⟩]) := by
  have hk := rows_keep h hx hc hy hv hs
  have hne : ∀ d ∈ l, d.hi < v.y := by
    intro d hd
    obtain ⟨_, _, ⟨u, u1, u2, u3, u4⟩, _⟩ := h.row d hd
    have := hs u u1 (by omega)
    have := hf u u1 (by omega)
    omega
  refine ⟨addEdge_eq (fun d hd => by have := hne d hd; dsimp only; omega), ⟨fun d hd => ?_, ?_⟩⟩
  · rcases List.mem_append.1 hd with hd | hd
    · exact hk.row d hd
    · rw [List.mem_singleton] at hd
      subst hd
      refine ⟨hy, hu, ⟨w, by simp, by omega, rfl, by omega⟩, fun j h1 h2 => ?_⟩
      dsimp only at h1 h2
      rw [colc_append, pair_colc hx hc hy, h0 j h1, if_pos ⟨hv, h1, h2⟩]; omega
  · rw [List.pairwise_append]
    refine ⟨h.gap, List.pairwise_singleton _ _, fun d hd b hb => ?_⟩
    rw [List.mem_singleton] at hb
    subst hb
    exact hne d hd

/-- The second end of an edge. -/
theorem pair_add {fr : Bool} {orient : Nat} {umax : Int} {P : List V} {g : GP} {v w : V} (h : RI fr orient umax P g) (hv : v.x = g.prevPos)
    (hct : g.count = v.c) (hpy : g.prevY = v.y) (hx : w.x = v.x) (hc : w.c = - v.c) (hy : v.y < w.y) (h1 : v.c = 1 ∨ v.c = -1)
    (hs : ∀ u ∈ P, u.x = v.x → u.y ≤ v.y) (hf : ∀ u ∈ P, u.x = v.x → u.y = v.y → u.c = v.c) (hu : w.y ≤ umax) :
    ∃ g', g.step fr orient umax w = some g' ∧ RI fr orient umax (P ++ [v, w]) g' ∧ g'.count = 0 := by
  have h0 : ∀ j, v.y ≤ j → colc g.prevPos j P = 0 := by
    intro j hj
    refine h.off j (fun d hd => ?_)
    rcases List.mem_append.1 hd with hd | hd
    · obtain ⟨_, _, ⟨u, u1, u2, u3, _⟩, _⟩ := h.hl.row d hd
      have := hs u u1 (by omega); omega
    · obtain ⟨_, _, ⟨u, u1, u2, u3, _⟩, _⟩ := h.hr.row d hd
      have := hs u u1 (by omega); omega
  have hcv : ∀ i j, i < g.prevPos → coverZ (P ++ [v, w]) i j = coverZ P i j := by
    intro i j hi
    rw [coverZ_append, pair_cover hx hc hy, if_neg (by omega)]; omega
  have hlt : ∀ u ∈ P ++ [v, w], u.x ≤ g.prevPos := by
    intro u hu
    rcases List.mem_append.1 hu with hu | hu
    · exact h.lt u hu
    · simp only [List.mem_cons, List.not_mem_nil, or_false] at hu
      rcases hu with rfl | rfl <;> omega
  have hbt : ∃ Z, Btw fr g.prevPos (coverZ (P ++ [v, w]) (g.prevPos - 1)) g.H g.map Z := by
    have : coverZ (P ++ [v, w]) (g.prevPos - 1) = coverZ P (g.prevPos - 1) := by
      funext j; exact hcv _ j (by omega)
    rw [this]; exact h.btw
  have hac : ∀ i j, i < g.prevPos → osum fr orient g.out i j + cs g.H (g.map.map (·.2)) i j = coverZ (P ++ [v, w]) i j := by
    intro i j hi; rw [hcv i j hi]; exact h.acc i j hi
  have hgr : fr = false → Pieces orient (P ++ [v, w]) g.H (g.map.map (·.2)) g.out (fun i => i < g.prevPos) ∧
      ∀ p ∈ g.out, ∀ i y, g.prevPos ≤ i → pph orient p i y = 0 ∧ ppv orient p i y = 0 := fun hf =>
    ⟨⟨fun i y hi => by rw [hcv _ _ hi, hcv _ _ hi]; exact (h.gr hf).1.h i y hi,
      fun i y hi => by rw [hcv _ _ hi, hcv _ _ (by omega)]; exact (h.gr hf).1.v i y hi⟩, (h.gr hf).2⟩
  have htop : ∃ J, ∀ i j, J ≤ j → coverZ (P ++ [v, w]) i j = 0 := by
    obtain ⟨J, hJ⟩ := h.top
    refine ⟨max J w.y, fun i j hj => ?_⟩
    rw [coverZ_append, pair_cover hx hc hy, hJ i j (by omega), if_neg (by omega)]; rfl
  have hbot : ∃ J, ∀ i j, j < J → coverZ (P ++ [v, w]) i j = 0 := by
    obtain ⟨J, hJ⟩ := h.bot
    refine ⟨min J v.y, fun i j hj => ?_⟩
    rw [coverZ_append, pair_cover hx hc hy, hJ i j (by omega), if_neg (by omega)]; rfl
  have hoff : ∀ l r : List Ivl, (∀ d, d ∈ g.l ++ g.r → d ∈ l ++ r) → ⟨v.y, w.y⟩ ∈ l ++ r →
      ∀ j, (∀ d ∈ l ++ r, ¬ (d.lo ≤ j ∧ j < d.hi)) → colc g.prevPos j (P ++ [v, w]) = 0 := by
    intro l r k1 k2 j hj
    have b1 := h.off j (fun d hd => hj d (k1 d hd))
    have b2 := hj _ k2
    dsimp only at b2
    rw [colc_append, b1, pair_colc hx hc hy, if_neg (by omega)]; rfl
  have hx' : ¬ w.x ≠ g.prevPos := by omega
  unfold GP.step
  rw [if_neg hx']
  rcases h1 with h1 | h1
  · obtain ⟨q1, q2⟩ := rows_add h.hl hx hc hy hv hs hf h1 (by omega) hu h0
    refine ⟨_, rfl, ?_, ?_⟩
    · rw [if_pos ⟨by omega, by omega⟩, if_pos (by omega)]
      dsimp only
      rw [hpy, q1]
      exact ⟨hlt, q2, rows_keep h.hr hx hc hy hv hs, hoff _ _ (by simp; tauto) (by simp), hbt, hac, h.ok, htop, hbot, hgr, by simp⟩
    · rw [if_pos ⟨by omega, by omega⟩, if_pos (by omega)]
      dsimp only; omega
  · obtain ⟨q1, q2⟩ := rows_add h.hr hx hc hy hv hs hf h1 (by omega) hu h0
    refine ⟨_, rfl, ?_, ?_⟩
    · rw [if_pos ⟨by omega, by omega⟩, if_neg (by omega)]
      dsimp only
      rw [hpy, q1]
      exact ⟨hlt, rows_keep h.hl hx hc hy hv hs, q2, hoff _ _ (by simp; tauto) (by simp), hbt, hac, h.ok, htop, hbot, hgr, by simp⟩
    · rw [if_pos ⟨by omega, by omega⟩, if_neg (by omega)]
      dsimp only; omega

/-- The first end of an edge. -/
theorem first_add {fr : Bool} {orient : Nat} {umax : Int} {P : List V} {g : GP} {v : V} (h : RI fr orient umax P g) (hct : g.count = 0)
    (hs : ∀ u ∈ P, u.x ≤ v.x) (hn : P = [] ∨ ∃ u ∈ P, u.x = g.prevPos) (hc : v.x ≠ g.prevPos → ∀ i j, coverZ P i j = 0 ∨ coverZ P i j = 1) :
    ∃ g', g.step fr orient umax v = some g' ∧ RI fr orient umax P g' ∧ g'.count = v.c ∧ g'.prevY = v.y ∧ g'.prevPos = v.x := by
  unfold GP.step
  by_cases hx : v.x = g.prevPos
  · rw [if_neg (by simpa using hx)]
    refine ⟨_, rfl, ?_, ?_, rfl, ?_⟩
    · rw [if_neg (by omega)]
      exact ⟨h.lt, h.hl, h.hr, h.off, h.btw, h.acc, h.ok, h.top, h.bot, h.gr, h.nil⟩
    · rw [if_neg (by omega)]; dsimp only; omega
    · rw [if_neg (by omega)]; exact hx.symm
  · rw [if_pos hx]
    have hY : P = [] ∨ g.prevPos < v.x := by
      rcases hn with hn | ⟨u, u1, u2⟩
      · exact Or.inl hn
      · have := hs u u1; right; omega
    obtain ⟨H, m, out, f1, f2, f3, f4, f5, f6⟩ := flush_spec h (hc hx) hY
    rw [f1]
    refine ⟨_, rfl, ?_, rfl, rfl, rfl⟩
    refine ⟨hs, ⟨by simp, by simp⟩, ⟨by simp, by simp⟩, ?_, ?_, fun i j _ => f3 i j, ?_, h.top, h.bot, ?_, fun hp => ⟨rfl, rfl, f5 hp⟩⟩
    · intro j _
      dsimp only
      rcases hY with hP | hY
      · rw [hP]; rfl
      · unfold colc
        apply List.sum_eq_zero
        intro x hx
        obtain ⟨u, hu, rfl⟩ := List.mem_map.1 hx
        have := h.lt u hu
        rw [if_neg (by omega)]
    · dsimp only
      obtain ⟨Z, hb⟩ := f2
      refine ⟨Z, ?_⟩
      rcases hY with hP | hY
      · rw [hP] at hb ⊢; exact hb
      · have : coverZ P (v.x - 1) = coverZ P g.prevPos := by funext j; exact coverZ_const h.lt (by omega)
        rw [this]; exact hb
    · intro p hp
      obtain ⟨k1, k2⟩ := f4 p hp
      refine ⟨k1, fun i j hi => ?_⟩
      rcases hY with hP | hY
      · obtain ⟨_, e, _⟩ := f5 hP
        rw [e] at hp; simp at hp
      · exact k2 i j (by dsimp only at hi; omega)
    · intro hf
      obtain ⟨a, b⟩ := f6 hf
      refine ⟨⟨fun i y _ => a.h i y trivial, fun i y _ => a.v i y trivial⟩, fun p hp i y hi => ?_⟩
      rcases hY with hP | hY
      · obtain ⟨_, e, _⟩ := f5 hP
        dsimp only at hp
        rw [e] at hp; simp at hp
      · exact b p hp i y (by dsimp only at hi; omega)

theorem cnt_even {M : List (Int × Nat)} (hs : Srt M) (h : ∀ j, cnt M j % 2 = 0) : M = [] := by
  cases M with
  | nil => rfl
  | cons e M =>
    have h1 := h e.1
    have h2 := List.pairwise_cons.1 hs
    rw [cnt_cons, if_pos (le_refl _)] at h1
    have : cnt M e.1 = 0 := by
      unfold cnt
      rw [List.filter_eq_nil_iff.2]
      · rfl
      · intro a ha
        have := h2.1 a ha
        simp; omega
    omega

theorem run_spec {fr : Bool} {orient : Nat} {umax : Int} {D : List V} (hs : D.Pairwise VLex) (hf : Flat D) (hcl : Closed D)
    (hr : ∀ v ∈ D, v.y ≤ umax) : ∀ (n : Nat) (R P : List V) (g : GP), R.length ≤ n → D = P ++ R → (∀ a, col a P = 0) → RI fr orient umax P g → g.count = 0 →
      (P = [] ∨ ∃ u ∈ P, u.x = g.prevPos) →
      ∃ g', GP.run fr orient umax R g = some g' ∧ (∀ i j, osum fr orient g'.out i j = coverZ D i j) ∧ (∀ p ∈ g'.out, POk fr orient p) ∧ (fr = false → Pieces orient D H0 [] g'.out (fun _ => True)) := by
  have hcov : ∀ i j, coverZ D i j = 0 ∨ coverZ D i j = 1 := by
    intro i j
    have := hf.2.2 (i : ℚ) (j : ℚ)
    rwa [cover_int] at this
  have hpre : ∀ P R : List V, D = P ++ R → ∀ i j, (∀ v ∈ R, i < v.x) → coverZ P i j = coverZ D i j := by
    intro P R e i j h
    rw [e, coverZ_append, coverZ_zero (L := R) (fun v hv => Or.inl (h v hv))]; omega
  have hend : ∀ (P : List V) (g : GP), D = P → RI fr orient umax P g → 
      ∃ g', GP.run fr orient umax [] g = some g' ∧ (∀ i j, osum fr orient g'.out i j = coverZ D i j) ∧ (∀ p ∈ g'.out, POk fr orient p) ∧ (fr = false → Pieces orient D H0 [] g'.out (fun _ => True)) := by
    intro P g e h
    subst e
    obtain ⟨H, m, out, f1, ⟨Z, f2⟩, f3, f4, f5, f6⟩ := flush_spec (Y := g.prevPos + 1) h hcov (Or.inr (by omega))
    have hm : m = [] := by
      refine cnt_even f2.srt (fun j => ?_)
      rw [← f2.hf j]
      obtain ⟨x0, hx⟩ := cover_right hcl
      rw [← coverZ_const (b := max g.prevPos x0) h.lt (by omega)]
      exact hx _ j (by omega)
    refine ⟨_, f1, ?_, fun p hp => (f4 p hp).1, fun hf => ?_⟩
    rotate_left
    · have := (f6 hf).1
      rw [hm] at this
      exact ⟨this.h, this.v⟩
    intro i j
    have := f3 i j
    rw [hm] at this
    simpa [cs, wsum] using this
  intro n
  induction n with
  | zero =>
    intro R P g hn e hP h hct hne
    have : R = [] := List.length_eq_zero_iff.1 (by omega)
    subst this
    exact hend P g (by simpa using e) h
  | succ n ih =>
    intro R P g hn e hP h hct hne
    cases R with
    | nil => exact hend P g (by simpa using e) h
    | cons v R1 =>
      obtain ⟨w, R', rfl, w1, w2, w3, w4⟩ := pair_next (e ▸ hs) (e ▸ hf) (e ▸ hcl.1) hP
      have hso := hs
      rw [e] at hso
      obtain ⟨s1, s2, s3⟩ := List.pairwise_append.1 hso
      obtain ⟨s4, s5⟩ := List.pairwise_cons.1 s2
      have hx : ∀ u ∈ P, u.x ≤ v.x := by
        intro u hu
        have := s3 u hu v (by simp)
        unfold VLex at this; omega
      have hx' : ∀ u ∈ v :: w :: R', v.x ≤ u.x := by
        intro u hu
        rcases List.mem_cons.1 hu with rfl | hu
        · exact le_refl _
        · have := s4 u hu
          unfold VLex at this; omega
      obtain ⟨g1, p1, p2, p3, p4, p5⟩ := first_add h hct hx hne (v := v) (by
        intro hne' i j
        rcases hne with hP' | ⟨u, u1, u2⟩
        · rw [hP']; left; rfl
        · have hlt : g.prevPos < v.x := by have := hx u u1; omega
          rcases Int.lt_or_le i v.x with hi | hi
          · rw [hpre P _ e i j (fun a ha => by have := hx' a ha; omega)]; exact hcov i j
          · rw [coverZ_const (a := v.x - 1) (fun a ha => by have := h.lt a ha; omega) (by omega),
              hpre P _ e (v.x - 1) j (fun a ha => by have := hx' a ha; omega)]
            exact hcov _ j)
      obtain ⟨g2, q1, q2, q3⟩ := pair_add (w := w) p2 p5.symm p3 p4 w1 w2 w3 w4
        (fun u hu hux => by have := s3 u hu v (by simp); unfold VLex at this; omega)
        (fun u hu h1 h2 => hf.2.1 u (by rw [e]; simp [hu]) v (by rw [e]; simp) h1 h2)
        (hr w (by rw [e]; simp))
      have q4 : g2.prevPos = v.x := by
        have := q1
        unfold GP.step at this
        rw [if_neg (by omega)] at this
        rw [← Option.some_inj.1 this]
        dsimp only
        split_ifs <;> exact p5
      obtain ⟨g3, r1, r2, r3, r4⟩ := ih R' (P ++ [v, w]) g2 (by simp at hn; omega) (by rw [e]; simp) (by
        intro a
        have := hP a
        rw [col_append, this]
        simp only [col, List.map_cons, List.map_nil, List.sum_cons, List.sum_nil, w1, w2]
        split_ifs <;> omega) q2 q3 (Or.inr ⟨v, by simp, q4.symm⟩)
      refine ⟨g3, ?_, r2, r3, r4⟩
      rw [GP.run, p1]
      simp only [Option.bind_eq_bind, Option.bind_some]
      rw [GP.run, q1]
      exact r1

theorem form_spec (fr : Bool) (orient : Nat) {umax : Int} {D : List V} (hs : D.Pairwise VLex) (hf : Flat D) (hcl : Closed D) (hr : ∀ v ∈ D, v.y ≤ umax) :
    ∃ ps, formPolys fr orient umax D = some ps ∧ (∀ i j, osum fr orient ps i j = coverZ D i j) ∧ (∀ p ∈ ps, POk fr orient p) ∧
      (fr = false → (∀ i y, (ps.map (fun p => pph orient p i y)).sum = jump (coverZ D i y) (coverZ D i (y - 1))) ∧
        ∀ i j, (ps.map (fun p => ppv orient p i j)).sum = jump (coverZ D (i - 1) j) (coverZ D i j)) := by
  have hi : RI fr orient umax [] ⟨umax, umax, 0, [], [], H0, [], []⟩ := by
    refine ⟨by simp, ⟨by simp, by simp⟩, ⟨by simp, by simp⟩, fun j _ => rfl, ⟨[], btw_init fr umax⟩, ?_, by simp, ⟨0, fun _ _ _ => rfl⟩, ⟨0, fun _ _ _ => rfl⟩, fun _ => ⟨pieces_nil _ _ _, by simp⟩, by simp⟩
    intro i j _
    simp [osum, cs, wsum, coverZ]
  obtain ⟨g, h1, h2, h3, h4⟩ := run_spec hs hf hcl hr D.length D [] _ (le_refl _) (by simp) (fun a => rfl) hi rfl (Or.inl rfl)
  refine ⟨g.out, ?_, h2, h3, fun hf => ⟨fun i y => ?_, fun i y => ?_⟩⟩
  rotate_left
  · have := (h4 hf).h i y trivial
    simp only [gs, List.map_nil, List.sum_nil] at this
    omega
  · have := (h4 hf).v i y trivial
    simp only [gs, List.map_nil, List.sum_nil] at this
    omega
  unfold formPolys
  unfold H0 at h1
  rw [h1]; rfl

end Verif.Proofs.PolyData
