import Verif.Proofs.FrSlit
import Verif.Proofs.F45Arb
/-!
# Polygons without holes: one point
-/
namespace Verif.Fr
open Verif.ArbForm Verif.F45 Verif.Spec
open Verif.Arb (Pt)
open Verif.Deg45 (V45)

open Form45 in
/-- The operations of the formation that links holes to the outlines. -/
def opsF (p : Deg45.P) (h : Option Nat) : Ops Form45.PS Int :=
  { ops45 p h with
    hbeg a b s :=
      { ({ s with H := (Frac45.createPair s.H p false h).1 }.put p b.2 b.1 (-1) (Frac45.createPair s.H p false h).2.1) with
        els := ({ s with H := (Frac45.createPair s.H p false h).1 }.put p b.2 b.1 (-1) (Frac45.createPair s.H p false h).2.1).els ++
          [(⟨p, a.2, a.1⟩, (Frac45.createPair s.H p false h).2.2)] } }

theorem begF (p : Deg45.P) (cs : List CSlot) (is : List (Int × Int)) (s : Form45.PS) :
    Frac45.holeBegin p cs is s = begS (fun _ => (opsF p (pend cs)).hbeg) is s := by
  unfold Frac45.holeBegin begS
  rcases nz is with _ | ⟨l1, a, l2⟩
  · rfl
  dsimp only
  rcases nz l2 with _ | ⟨m1, b, m2⟩
  · rfl
  rfl

theorem pointF (p : Deg45.P) {cs : List CSlot} {is : List (Int × Int)} (hc : cs.length = 4) (hi : is.length = 4) (H : ArbForm.Heap) (out : List ArbForm.Poly)
    (els : List (Deg45.V45 × Nat)) :
    Frac45.processPoint p cs is H out els = pointG (opsF p (pend cs)) (nzs cs) (nzs is) ⟨H, out, els, none, 0⟩ := by
  unfold Frac45.processPoint pointG
  dsimp only
  rw [close45 p (pend cs)]
  have j1 : (opsF p (pend cs)).join = (ops45 p (pend cs)).join := rfl
  have j2 : (opsF p (pend cs)).pair = (ops45 p (pend cs)).pair := rfl
  have j3 : (opsF p (pend cs)).pass = (ops45 p (pend cs)).pass := rfl
  have j4 : (opsF p (pend cs)).hend = (ops45 p (pend cs)).hend := rfl
  rw [j1, j2, j3, j4]
  obtain ⟨e1, z1⟩ := closeS_spec (ops45 p (pend cs)).join 3 cs ⟨H, out, els, none, 0⟩ (by omega)
  rw [← e1]
  rcases hz1 : closeS (ops45 p (pend cs)).join 3 cs ⟨H, out, els, none, 0⟩ with _ | ⟨c1, s1⟩
  · rfl
  have z1 := z1 _ hz1
  simp only [Option.map_some, Option.bind_some, Option.bind_eq_bind]
  rw [open45 p (pend cs)]
  obtain ⟨e2, -⟩ := openS_spec (V := fun _ => False) (fun _ => (ops45 p (pend cs)).pair) (ops45 p (pend cs)).pair (fun _ _ _ _ _ => rfl) 3 is s1 (by omega) (olg_false _)
  rw [← e2]
  dsimp only
  generalize openS (fun _ => (ops45 p (pend cs)).pair) 3 is s1 = o2
  rw [top45 p (pend cs)]
  obtain ⟨e3, z3⟩ := topS_spec (V := fun _ => False) (fun _ => (ops45 p (pend cs)).pass) (ops45 p (pend cs)).pass (fun _ _ _ _ _ _ _ => rfl) c1 o2.1 o2.2 (olg_false _)
  rw [← e3]
  rcases hz3 : topS (fun _ => (ops45 p (pend cs)).pass) c1 o2.1 o2.2 with _ | ⟨c3, i3, s3⟩
  · rfl
  have z3 := (z3 _ hz3).1
  simp only [Option.map_some, Option.bind_some]
  rw [bot45 p (pend cs)]
  obtain ⟨e4, z4⟩ := botS_spec (V := fun _ => False) (fun _ => (ops45 p (pend cs)).pass) (ops45 p (pend cs)).pass (fun _ _ _ _ _ _ _ => rfl) c3 i3 s3 (olg_false _)
  rw [← e4]
  rcases hz4 : botS (fun _ => (ops45 p (pend cs)).pass) c3 i3 s3 with _ | ⟨c4, i4, s4⟩
  · rfl
  have z4 := (z4 _ hz4).1
  simp only [Option.map_some, Option.bind_some]
  rw [end45 p (pend cs)]
  obtain ⟨e5, z5⟩ := endS_spec (ops45 p (pend cs)).hend c4 s4
  rw [← e5]
  rcases hz5 : endS (ops45 p (pend cs)).hend c4 s4 with _ | ⟨c5, s5⟩
  · rfl
  have z5 := z5 _ hz5
  simp only [Option.map_some, Option.bind_some, Option.some_inj]
  rw [begF]
  have : pend c5 = pend cs := (((z1.trans z3).trans z4).trans z5).pend
  rw [this]
  exact begS_spec (V := fun _ => False) (fun _ => (opsF p (pend cs)).hbeg) (opsF p (pend cs)).hbeg (fun _ _ _ _ _ => rfl) i4 s5 (olg_false _)

/-! ### The slots by their shape -/

section
variable {σ ι : Type}

/-- The ends that meet in pairs. -/
def run (J : Nat → Nat → σ → Option σ) : List (Nat × Nat) → σ → Option σ
  | [], s => some s
  | x :: r, s => (J x.1 x.2 s).bind (run J r)

/-- The slot of an end. -/
def sl (f : Nat → Nat) (a : V45 × Nat) : CSlot := (a.1.count, some (f a.2))

theorem closeG_run {J : Nat → Nat → σ → Option σ} {f : Nat → Nat} : ∀ (P : List ((V45 × Nat) × (V45 × Nat))) (d : Option (V45 × Nat)),
    (∀ x ∈ P, x.1.1.count = -1 ∧ x.2.1.count = 1) → ∀ s : σ,
    closeG J ((flat P ++ d.toList).map (sl f)) s = (run J (P.map (fun x => (f x.1.2, f x.2.2))) s).map (fun s => (d.toList.map (sl f), s))
  | [], none, _, s => rfl
  | [], some d, _, s => rfl
  | x :: P, d, hP, s => by
    rw [flat_cons, List.cons_append, List.cons_append, List.map_cons, List.map_cons]
    unfold closeG
    rw [if_pos (show (sl f x.1).1 = -1 ∧ (sl f x.2).1 = 1 from hP x List.mem_cons_self)]
    simp only [sl, List.map_cons, run]
    rcases J (f x.1.2) (f x.2.2) s with _ | s1
    · rfl
    · exact closeG_run P d (fun y hy => hP y (List.mem_cons_of_mem _ hy)) s1

theorem closeG_runU {J : Nat → Nat → σ → Option σ} {f : Nat → Nat} {u d : Option (V45 × Nat)} {P : List ((V45 × Nat) × (V45 × Nat))}
    (hP : ∀ x ∈ P, x.1.1.count = -1 ∧ x.2.1.count = 1) (hu : ∀ a, u = some a → a.1.count = 1) (s : σ) :
    closeG J ((u.toList ++ (flat P ++ d.toList)).map (sl f)) s =
      (run J (P.map (fun x => (f x.1.2, f x.2.2))) s).map (fun s => ((u.toList ++ d.toList).map (sl f), s)) := by
  cases u with
  | none => exact closeG_run P d hP s
  | some a =>
    have ha := hu a rfl
    have h := closeG_run (J := J) (f := f) P d hP s
    rw [Option.toList_some, List.singleton_append, List.map_cons]
    rcases e : (flat P ++ d.toList).map (sl f) with _ | ⟨b, r⟩
    · obtain ⟨e1, e2⟩ := List.append_eq_nil_iff.1 (List.map_eq_nil_iff.1 e)
      have : P = [] := by
        cases P with
        | nil => rfl
        | cons x P => rw [flat_cons] at e1; cases e1
      subst this
      rw [e2]
      rfl
    · rw [e] at h
      unfold closeG
      rw [if_neg (by rintro ⟨g, -⟩; have : (sl f a).1 = 1 := ha; omega), h, Option.map_map]
      rfl

theorem openG_run {K : ι → ι → σ → σ} : ∀ (Q : List ((Int × ι) × (Int × ι))) (u : Option (Int × ι)), (∀ x ∈ Q, x.1.1 = 1 ∧ x.2.1 = -1) →
    ∀ s : σ, openG K (flat Q ++ u.toList) s = (u.toList, Q.foldl (fun s x => K x.1.2 x.2.2 s) s)
  | [], none, _, s => rfl
  | [], some d, _, s => rfl
  | x :: Q, u, hQ, s => by
    rw [flat_cons, List.cons_append, List.cons_append]
    unfold openG
    rw [if_pos (hQ x List.mem_cons_self)]
    exact openG_run Q u (fun y hy => hQ y (List.mem_cons_of_mem _ hy)) _

theorem openG_runD {K : ι → ι → σ → σ} {u d : Option (Int × ι)} {Q : List ((Int × ι) × (Int × ι))} (hQ : ∀ x ∈ Q, x.1.1 = 1 ∧ x.2.1 = -1)
    (hd : ∀ a, d = some a → a.1 = -1) (s : σ) : openG K (d.toList ++ (flat Q ++ u.toList)) s = (d.toList ++ u.toList, Q.foldl (fun s x => K x.1.2 x.2.2 s) s) := by
  cases d with
  | none => exact openG_run Q u hQ s
  | some a =>
    have ha := hd a rfl
    have h := openG_run (K := K) Q u hQ s
    rw [Option.toList_some, List.singleton_append]
    rcases e : flat Q ++ u.toList with _ | ⟨b, r⟩
    · obtain ⟨e1, e2⟩ := List.append_eq_nil_iff.1 e
      have : Q = [] := by
        cases Q with
        | nil => rfl
        | cons x Q => rw [flat_cons] at e1; cases e1
      subst this
      rw [e2]
      rfl
    · rw [e] at h
      unfold openG
      rw [if_neg (by rintro ⟨g, -⟩; omega), h]
      rfl

theorem inc_shapeI {inc : List (Int × ι)} {t b : Int} (h : Colors (fun a : Int × ι => a.1) t inc.reverse b) :
    (t = 1 ∧ b = 1 ∧ inc = []) ∨ ∃ (u d : Option (Int × ι)) (Q : List ((Int × ι) × (Int × ι))), inc = d.toList ++ (flat Q ++ u.toList) ∧
      (∀ x ∈ Q, x.1.1 = 1 ∧ x.2.1 = -1) ∧ (∀ a, u = some a → a.1 = 1) ∧ (∀ a, d = some a → a.1 = -1) ∧
      (t = if u.isSome then 1 else 0) ∧ (b = if d.isSome then 1 else 0) := by
  rcases colors_shape h with ⟨h1, h2, h3⟩ | ⟨u, d, P, h1, h2, h3, h4, h5, h6⟩
  · exact Or.inl ⟨h1, h2, List.reverse_eq_nil_iff.1 h3⟩
  · refine Or.inr ⟨u, d, P.reverse.map Prod.swap, ?_, ?_, h3, h4, h5, h6⟩
    · rw [← flat_reverse, ← List.reverse_reverse inc, h1, List.reverse_append, List.reverse_append]
      have : ∀ o : Option (Int × ι), o.toList.reverse = o.toList := by intro o; cases o <;> rfl
      rw [this, this, List.append_assoc]
    · intro x hx
      obtain ⟨y, hy, rfl⟩ := List.mem_map.1 hx
      have := h2 y (List.mem_reverse.1 hy)
      exact ⟨this.2, this.1⟩
end

/-! ### The states -/

/-- The end of a vertical edge that goes up from the point. -/
def vert (p : Pt) (s : Form45.PS) : List (V45 × Nat) := match s.ret with | some t => if s.rc = 0 then [] else [(⟨p, 2, -s.rc⟩, t)] | none => []

/-- An element of the other formation. -/
def mt (φ : Nat → Nat) (a : V45 × Nat) : V45 × Nat := (a.1, φ a.2)

theorem mt_map {φ ψ : Nat → Nat} {L : List (V45 × Nat)} (h : ∀ a ∈ L, ψ a.2 = φ a.2) : L.map (mt ψ) = L.map (mt φ) := by
  apply List.map_congr_left
  intro a ha
  unfold mt
  rw [h a ha]

/-- The states of the two formations at a point: `L` are the open ends that are not yet taken up and those elsewhere, `o` a closed hole below. -/
structure J (p : Pt) (o : Option Nat) (φ : Nat → Nat) (K : List (Chain × Chain)) (s' s : Form45.PS) (L : List (V45 × Nat)) : Prop where
  sim : Sim s'.H s.H φ K
  ends : Ends s'.H s.H φ K (L ++ (vert p s ++ s.els))
  els : s'.els = s.els.map (mt φ)
  ret : s'.ret = s.ret.map φ
  rc : s'.rc = s.rc
  out : List.Forall₂ FP s'.out s.out
  rlt : ∀ t, s.ret = some t → t < s.H.ft
  r0 : s.rc = 0 → s.ret = none
  fl : ∀ h, o = some h → Flt p.1 s'.H s.H K (L ++ (vert p s ++ s.els)) h

/-- The states after a point. -/
structure Done (p : Pt) (φ : Nat → Nat) (K : List (Chain × Chain)) (s' s : Form45.PS) (L : List (V45 × Nat)) : Prop where
  sim : Sim s'.H s.H φ K
  ends : Ends s'.H s.H φ K (L ++ (vert p s ++ s.els))
  els : s'.els = s.els.map (mt φ)
  ret : s'.ret = s.ret.map φ
  rc : s'.rc = s.rc
  out : List.Forall₂ FP s'.out s.out
  rlt : ∀ t, s.ret = some t → t < s.H.ft
  fl : ∀ h, s.ret = some h → s.rc = 0 → Flt p.1 s'.H s.H K (L ++ (vert p s ++ s.els)) h

variable {p : Pt} {o : Option Nat} {φ : Nat → Nat} {K : List (Chain × Chain)} {s' s : Form45.PS} {L : List (V45 × Nat)}

theorem J.fin (j : J p none φ K s' s L) : Done p φ K s' s L :=
  ⟨j.sim, j.ends, j.els, j.ret, j.rc, j.out, j.rlt, fun h h1 h2 => by rw [j.r0 h2] at h1; cases h1⟩

/-- An end goes to the elements. -/
theorem J.app {a : V45 × Nat} (j : J p o φ K s' s (a :: L)) : J p o φ K { s' with els := s'.els ++ [mt φ a] } { s with els := s.els ++ [a] } L where
  sim := j.sim
  ends := j.ends.perm (by
    show (a :: (L ++ (vert p s ++ s.els))).Perm (L ++ (vert p s ++ (s.els ++ [a])))
    simp only [← List.append_assoc]
    exact (List.perm_append_singleton a _).symm)
  els := by dsimp only; rw [j.els, List.map_append]; rfl
  ret := j.ret
  rc := j.rc
  out := j.out
  rlt := j.rlt
  r0 := j.r0
  fl h ho := (j.fl h ho).sub (by
    intro b hb
    show b ∈ a :: (L ++ (vert p s ++ s.els))
    have hb : b ∈ L ++ (vert p s ++ (s.els ++ [a])) := hb
    simp only [List.mem_append, List.mem_cons, List.not_mem_nil, or_false] at hb ⊢
    tauto)

/-- An end becomes that of a new edge. -/
theorem J.put {r c : Int} {t : Nat} (j : J p o φ K s' s ((⟨p, r, c⟩, t) :: L)) (hc : c ≠ 0) : J p o φ K (s'.put p r c (-c) (φ t)) (s.put p r c (-c) t) L := by
  unfold Form45.PS.put
  by_cases h2 : r = 2
  · rw [if_pos h2, if_pos h2]
    subst h2
    have hv : vert p { s with ret := some t, rc := -c } = [(⟨p, 2, c⟩, t)] := by
      unfold vert
      dsimp only
      rw [if_neg (by omega), neg_neg]
    have hsub : ∀ b ∈ L ++ ([((⟨p, 2, c⟩ : V45), t)] ++ s.els), b ∈ (((⟨p, 2, c⟩ : V45), t) :: L) ++ (vert p s ++ s.els) := by
      intro b hb
      simp only [List.mem_append, List.mem_cons, List.not_mem_nil, or_false] at hb ⊢
      tauto
    refine ⟨j.sim, ?_, j.els, rfl, rfl, j.out, ?_, fun h => absurd h (by dsimp only; omega), ?_⟩
    · rw [hv]
      refine (j.ends.sub (M1 := ((⟨p, 2, c⟩ : V45), t) :: L ++ s.els) ?_).perm ?_
      · exact List.Sublist.append_left (List.sublist_append_right _ _) _
      · show (((⟨p, 2, c⟩ : V45), t) :: (L ++ s.els)).Perm (L ++ (((⟨p, 2, c⟩ : V45), t) :: s.els))
        exact List.perm_middle.symm
    · rintro _ ⟨⟩
      exact j.ends.lt j.sim (a := ((⟨p, 2, c⟩ : V45), t)) (by simp)
    · intro h ho
      rw [hv]
      exact (j.fl h ho).sub hsub
  · rw [if_neg h2, if_neg h2]
    exact j.app

theorem J.lt (j : J p o φ K s' s L) {a : V45 × Nat} (ha : a ∈ s.els) : a.2 < s.H.ft := j.ends.lt j.sim (by simp [ha])

/-- New heaps. -/
theorem J.heap (j : J p o φ K s' s L) {H1' H1 : Heap} {ψ : Nat → Nat} {K1 : List (Chain × Chain)} {L1 : List (V45 × Nat)} {o1 : Option Nat} (hψ : ∀ n, n < s.H.ft → ψ n = φ n)
    (hft : s.H.ft ≤ H1.ft) (h1 : Sim H1' H1 ψ K1) (h2 : Ends H1' H1 ψ K1 (L1 ++ (vert p s ++ s.els)))
    (h3 : ∀ h, o1 = some h → Flt p.1 H1' H1 K1 (L1 ++ (vert p s ++ s.els)) h) : J p o1 ψ K1 { s' with H := H1' } { s with H := H1 } L1 where
  sim := h1
  ends := h2
  els := by
    dsimp only
    rw [j.els]
    exact (mt_map (fun a ha => hψ _ (j.lt ha))).symm
  ret := by
    dsimp only
    rw [j.ret]
    rcases hr : s.ret with _ | t
    · rfl
    · simp only [Option.map_some, hψ t (j.rlt t hr)]
  rc := j.rc
  out := j.out
  rlt t ht := lt_of_lt_of_le (j.rlt t ht) hft
  r0 := j.r0
  fl := h3

theorem newPair_ft (H : Heap) (p : Pt) (solid : Bool) : (H.newPair p solid).ft = H.ft + 2 := by unfold Heap.newPair; rfl

theorem J.newPair (j : J p o φ K s' s L) (solid : Bool) {v w : V45} (hv : Rise v.rise) (hw : Rise w.rise) (ov : On v p) (ow : On w p)
    (cv : v.count = if solid then -1 else 1) (cw : w.count = if solid then 1 else -1) :
    J p o (ext φ s.H.ft s'.H.ft (s'.H.ft + 1)) ((newC s.H solid, newC s'.H solid) :: K) { s' with H := s'.H.newPair p solid } { s with H := s.H.newPair p solid }
      ((v, s.H.ft) :: (w, s.H.ft + 1) :: L) := by
  obtain ⟨h1, h2, h3⟩ := j.ends.newPair j.sim p solid hv hw ov ow cv cw
  exact j.heap (fun n hn => ext_lt hn) (by rw [newPair_ft]; omega) h1 h2 (fun h ho => h3 _ _ (j.fl h ho))

theorem on_self {p : Pt} {r c : Int} : On ⟨p, r, c⟩ p := by
  unfold On Form45.eval
  by_cases h : r = 2
  · simp [h]
  · simp [h]

/-- Two ends meet. -/
theorem J.join {a b : V45 × Nat} (j : J p none φ K s' s (a :: b :: L)) (ha : On a.1 p) (hb : On b.1 p) (ca : a.1.count = -1) (cb : b.1.count = 1) (h h' : Option Nat) :
    ∃ s1' s1 K1, (opsF p h').join (φ a.2) (φ b.2) s' = some s1' ∧ (ops45 p h).join a.2 b.2 s = some s1 ∧ J p none φ K1 s1' s1 L ∧ s1.H.ft = s.H.ft := by
  obtain ⟨K1, g1, g2, g3, g4, -, -⟩ := j.ends.joinC j.sim ha hb (Or.inl ⟨ca, cb⟩) true (by simp)
  refine ⟨_, _, K1, rfl, rfl, ?_, g3⟩
  have := j.heap (o1 := none) (L1 := L) (fun _ _ => rfl) g3.ge g1 g2 (by simp)
  exact ⟨this.sim, this.ends, this.els, this.ret, this.rc, List.rel_append j.out g4, this.rlt, this.r0, this.fl⟩

/-- A line goes on. -/
theorem J.pass {a : V45 × Nat} (j : J p none φ K s' s (a :: L)) (ha : On a.1 p) {r : Int} (hr : Rise r) (c0 : a.1.count ≠ 0) (h h' : Option Nat) :
    J p none φ K ((opsF p h').pass (φ a.2) r a.1.count (-a.1.count) s') ((ops45 p h).pass a.2 r a.1.count (-a.1.count) s) L := by
  obtain ⟨g1, g2⟩ := j.ends.pass j.sim ha (v := ⟨p, r, a.1.count⟩) rfl hr on_self
  have := j.heap (o1 := none) (L1 := (⟨p, r, a.1.count⟩, a.2) :: L) (fun _ _ => rfl) (by rw [push_ft]) g1 g2 (by simp)
  exact this.put c0

/-- Two new ends. -/
theorem J.pair (j : J p o φ K s' s L) {a b : Int} (ha : Rise a) (hb : Rise b) (h h' : Option Nat) :
    ∃ ψ K1, (∀ n, n < s.H.ft → ψ n = φ n) ∧ s.H.ft ≤ ((ops45 p h).pair a b s).H.ft ∧ J p o ψ K1 ((opsF p h').pair a b s') ((ops45 p h).pair a b s) L := by
  have j1 := j.newPair true (v := ⟨p, b, -1⟩) (w := ⟨p, a, 1⟩) hb ha on_self on_self rfl rfl
  have j2 := j1.put (by decide)
  have j3 := j2.app
  rw [ext_0] at j3
  unfold mt at j3
  dsimp only at j3
  rw [ext_1] at j3
  refine ⟨_, _, fun n hn => ext_lt hn, ?_, j3⟩
  unfold ops45 Form45.PS.put Form45.createPair
  dsimp only
  split_ifs <;> (dsimp only; rw [newPair_ft]; omega)

/-- A hole begins. -/
theorem J.hbeg (j : J p o φ K s' s L) {a b : Int × Int} (ha : Rise a.2) (hb : Rise b.2) (ca : a.1 = -1) (cb : b.1 = 1) :
    ∃ ψ K1, (∀ n, n < s.H.ft → ψ n = φ n) ∧ J p none ψ K1 ((opsF p (o.map φ)).hbeg a b s') ((ops45 p o).hbeg a b s) L := by
  obtain ⟨a1, a2⟩ := a
  obtain ⟨b1, b2⟩ := b
  dsimp only at ca cb ha hb
  subst ca cb
  rcases o with _ | h
  · have j1 := j.newPair false (v := ⟨p, b2, 1⟩) (w := ⟨p, a2, -1⟩) hb ha on_self on_self rfl rfl
    have j2 := j1.put (by decide)
    have j3 := j2.app
    rw [ext_0] at j3
    unfold mt at j3
    dsimp only at j3
    rw [ext_1] at j3
    exact ⟨_, _, fun n hn => ext_lt hn, j3⟩
  · obtain ⟨ψ, K1, h1, h2, h3, h4⟩ := j.ends.slitBegin j.sim (j.fl h rfl) (v := ⟨p, b2, 1⟩) (w := ⟨p, a2, -1⟩) hb ha on_self on_self rfl rfl
    have hft : s.H.ft ≤ (Form45.createPair s.H p false (some h)).1.ft := by
      show s.H.ft ≤ ((s.H.newPair p false).addHole (s.H.ft + 1) h).ft
      rw [(sameAdd _ _ _).ft, newPair_ft]; omega
    have j1 := j.heap (o1 := none) (L1 := (⟨p, b2, 1⟩, s.H.ft) :: (⟨p, a2, -1⟩, s.H.ft + 1) :: L) h1 hft h2 h3 (by simp)
    have j2 := j1.put (by decide)
    have j3 := j2.app
    have e1 : ψ s.H.ft = (Frac45.createPair s'.H p false (some (φ h))).2.1 := by rw [h4]
    have e2 : ψ (s.H.ft + 1) = (Frac45.createPair s'.H p false (some (φ h))).2.2 := by rw [h4]
    unfold mt at j3
    dsimp only at j3
    rw [e1, e2] at j3
    exact ⟨_, _, h1, j3⟩

/-- A hole ends. -/
theorem J.hend {a b : V45 × Nat} (j : J p none φ K s' s (a :: b :: L)) (ha : On a.1 p) (hb : On b.1 p) (ca : a.1.count = 1) (cb : b.1.count = -1) (hr : s.rc = 0) (h h' : Option Nat) :
    ∃ s1' s1 K1, (opsF p h').hend (φ a.2) (φ b.2) s' = some s1' ∧ (ops45 p h).hend a.2 b.2 s = some s1 ∧ Done p φ K1 s1' s1 L := by
  obtain ⟨K1, g1, g2, g3, g4, g5, g6⟩ := j.ends.joinC j.sim ha hb (Or.inr ⟨ca, cb⟩) false (fun _ => ca)
  refine ⟨_, _, K1, rfl, rfl, ?_⟩
  have j1 := j.heap (o1 := none) (L1 := L) (fun _ _ => rfl) g3.ge g1 g2 (by simp)
  have hv : vert p s = [] := by unfold vert; rw [j.r0 hr]
  have hv' : ∀ t, vert p { s with H := (Form45.joinChains s.H p a.2 b.2 false).1, out := s.out ++ (Form45.joinChains s.H p a.2 b.2 false).2.1, ret := t } = [] := by
    intro t
    unfold vert
    cases t with
    | none => rfl
    | some t => exact if_pos hr
  rw [hv] at g2 g6
  exact {
    sim := g1
    ends := by rw [hv']; exact g2
    els := j1.els
    ret := g5
    rc := j.rc
    out := List.rel_append j.out g4
    rlt := fun t ht => Flt.lt g1 (g6 t ht)
    fl := fun t ht _ => by rw [hv']; exact g6 t ht }

/-! ### The point -/

theorem J.run {h h' : Option Nat} : ∀ (P : List ((V45 × Nat) × (V45 × Nat))) {K : List (Chain × Chain)} {s' s : Form45.PS}, (∀ x ∈ P, x.1.1.count = -1 ∧ x.2.1.count = 1) →
    (∀ a ∈ flat P, On a.1 p) → J p none φ K s' s (flat P ++ L) →
    ∃ s1' s1 K1, Fr.run (opsF p h').join (P.map (fun x => (φ x.1.2, φ x.2.2))) s' = some s1' ∧ Fr.run (ops45 p h).join (P.map (fun x => (x.1.2, x.2.2))) s = some s1 ∧
      J p none φ K1 s1' s1 L ∧ s1.H.ft = s.H.ft ∧ s1.rc = s.rc
  | [], K, s', s, _, _, j => ⟨s', s, K, rfl, rfl, j, rfl, rfl⟩
  | x :: P, K, s', s, hc, ho, j => by
    rw [flat_cons] at ho j
    obtain ⟨s1', s1, K1, e1, e2, j1, f1⟩ := J.join (L := flat P ++ L) j (ho _ (by simp)) (ho _ (by simp)) (hc x List.mem_cons_self).1 (hc x List.mem_cons_self).2 h h'
    obtain ⟨s2', s2, K2, g1, g2, j2, f2, r2⟩ := J.run (h := h) (h' := h') P (fun y hy => hc y (List.mem_cons_of_mem _ hy)) (fun a ha => ho a (by simp [ha])) j1
    refine ⟨s2', s2, K2, ?_, ?_, j2, f2.trans f1, ?_⟩
    · rw [List.map_cons, Fr.run, e1]; exact g1
    · rw [List.map_cons, Fr.run, e2]; exact g2
    · rw [r2]
      have : (ops45 p h).join x.1.2 x.2.2 s = some s1 := e2
      cases this
      rfl

theorem J.opens {h h' : Option Nat} : ∀ (Q : List ((Int × Int) × (Int × Int))) {K : List (Chain × Chain)} {φ : Nat → Nat} {s' s : Form45.PS}, (∀ a ∈ flat Q, Rise a.2) → J p o φ K s' s L →
    ∃ ψ K1, (∀ n, n < s.H.ft → ψ n = φ n) ∧ s.H.ft ≤ (Q.foldl (fun s x => (ops45 p h).pair x.1.2 x.2.2 s) s).H.ft ∧
      J p o ψ K1 (Q.foldl (fun s x => (opsF p h').pair x.1.2 x.2.2 s) s') (Q.foldl (fun s x => (ops45 p h).pair x.1.2 x.2.2 s) s) L
  | [], K, φ, s', s, _, j => ⟨φ, K, fun _ _ => rfl, le_rfl, j⟩
  | x :: Q, K, φ, s', s, hr, j => by
    rw [flat_cons] at hr
    obtain ⟨ψ, K1, h1, h2, j1⟩ := j.pair (hr _ List.mem_cons_self) (hr _ (List.mem_cons_of_mem _ List.mem_cons_self)) h h'
    obtain ⟨ψ2, K2, g1, g2, j2⟩ := J.opens (h := h) (h' := h') Q (fun a ha => hr a (by simp [ha])) j1
    exact ⟨ψ2, K2, fun n hn => (g1 n (lt_of_lt_of_le hn h2)).trans (h1 n hn), h2.trans g2, j2⟩

theorem J.congrL (j : J p o φ K s' s L) {L1 : List (V45 × Nat)} (h : L = L1) : J p o φ K s' s L1 := h ▸ j

theorem J.permL (j : J p o φ K s' s L) {L1 : List (V45 × Nat)} (h : L.Perm L1) : J p o φ K s' s L1 where
  sim := j.sim
  ends := j.ends.perm (h.append_right _)
  els := j.els
  ret := j.ret
  rc := j.rc
  out := j.out
  rlt := j.rlt
  r0 := j.r0
  fl t ht := (j.fl t ht).sub (fun a ha => by
    rcases List.mem_append.1 ha with g | g
    · exact List.mem_append_left _ (h.mem_iff.2 g)
    · exact List.mem_append_right _ g)

theorem point_fr {G R : List (V45 × Nat)} {inc : List (Int × Int)} {t b : Int} (hc : Colors (fun a : V45 × Nat => a.1.count) t G b)
    (hi : Colors (fun a : Int × Int => a.1) t inc.reverse b) (hr : ∀ a ∈ inc, Rise a.2) (hG : ∀ a ∈ G, On a.1 p) (hrc : s.rc = 0) (j : J p o φ K s' s (G ++ R))
    (ho : ∀ h, o = some h → G = [] ∧ t = 1 ∧ inc ≠ []) :
    ∃ s1' s1 ψ K1, pointG (opsF p (o.map φ)) (G.map (sl φ)) inc s' = some s1' ∧ pointG (ops45 p o) (G.map (sl id)) inc s = some s1 ∧
      (∀ n, n < s.H.ft → ψ n = φ n) ∧ Done p ψ K1 s1' s1 R := by
  rcases inc_shapeI hi with ⟨t1, b1, rfl⟩ | ⟨u', d', Q, rfl, hQ, hu', hd', ht', hb'⟩
  · -- nothing begins
    have hon : o = none := by
      rcases o with _ | h
      · rfl
      · exact absurd rfl (ho h rfl).2.2
    subst hon
    rcases colors_shape hc with ⟨_, _, rfl⟩ | ⟨u, d, P, rfl, hP, hu, hd, ht, hb⟩
    · exact ⟨s', s, φ, K, rfl, rfl, fun _ _ => rfl, j.fin⟩
    · rw [t1] at ht
      rw [b1] at hb
      obtain ⟨a, rfl⟩ : ∃ a, u = some a := by cases u with
        | none => simp at ht
        | some a => exact ⟨a, rfl⟩
      obtain ⟨e, rfl⟩ : ∃ a, d = some a := by cases d with
        | none => simp at hb
        | some a => exact ⟨a, rfl⟩
      have j0 : J p none φ K s' s (flat P ++ (a :: e :: R)) := j.permL (by
        show (a :: (flat P ++ [e]) ++ R).Perm _
        rw [List.cons_append, List.append_assoc]
        exact List.perm_middle.symm)
      obtain ⟨s1', s1, K1, e1, e2, j1, f1, r1⟩ := J.run (h := none) (h' := none) P hP (fun c hc => hG c (by simp [hc])) j0
      obtain ⟨s2', s2, K2, g1, g2, j2⟩ := j1.hend (hG a (by simp)) (hG e (by simp)) (hu a rfl) (hd e rfl) (by rw [r1, hrc]) none none
      refine ⟨s2', s2, φ, K2, ?_, ?_, fun _ _ => rfl, j2⟩
      · unfold pointG
        rw [closeG_runU hP hu]
        show ((Fr.run _ _ s').map _).bind _ = _
        rw [Option.map_none, e1]
        simp only [Option.map_some, Option.bind_some]
        show (topG _ _ [] _).bind _ = _
        rw [topG_nil]
        simp only [Option.bind_some]
        rw [botG_nil]
        simp only [Option.bind_some, Option.toList_some, List.singleton_append, List.map_cons, List.map_nil]
        unfold endG sl
        dsimp only
        rw [show openG (opsF p none).pair [] s1' = ([], s1') from rfl, g1]
        rfl
      · unfold pointG
        rw [closeG_runU hP hu]
        show ((Fr.run _ (P.map (fun x => (x.1.2, x.2.2))) s).map _).bind _ = _
        rw [e2]
        simp only [Option.map_some, Option.bind_some]
        show (topG _ _ [] _).bind _ = _
        rw [topG_nil]
        simp only [Option.bind_some]
        rw [botG_nil]
        simp only [Option.bind_some, Option.toList_some, List.singleton_append, List.map_cons, List.map_nil]
        unfold endG sl
        dsimp only [id]
        rw [show openG (ops45 p none).pair [] s1 = ([], s1) from rfl, g2]
        rfl
  · have hrQ : ∀ a ∈ flat Q, Rise a.2 := fun a ha => hr a (by simp [ha])
    rcases colors_shape hc with ⟨t1, b1, rfl⟩ | ⟨u, d, P, rfl, hP, hu, hd, ht, hb⟩
    · -- nothing ends
      rw [t1] at ht'
      rw [b1] at hb'
      obtain ⟨a, rfl⟩ : ∃ a, u' = some a := by cases u' with
        | none => simp at ht'
        | some a => exact ⟨a, rfl⟩
      obtain ⟨e, rfl⟩ : ∃ a, d' = some a := by cases d' with
        | none => simp at hb'
        | some a => exact ⟨a, rfl⟩
      obtain ⟨ψ, K1, h1, h2, j1⟩ := J.opens (h := o) (h' := o.map φ) Q hrQ j
      obtain ⟨ψ2, K2, g1, j2⟩ := j1.hbeg (a := e) (b := a) (hr e (by simp)) (hr a (by simp)) (hd' e rfl) (hu' a rfl)
      have hoo : o.map ψ = o.map φ := by
        rcases o with _ | h
        · rfl
        · simp only [Option.map_some]
          rw [h1 h ((j.fl h rfl).lt j.sim)]
      rw [hoo] at j2
      refine ⟨_, _, ψ2, K2, ?_, ?_, fun n hn => (g1 n (lt_of_lt_of_le hn h2)).trans (h1 n hn), j2.fin⟩
      · unfold pointG
        show (some ([], s')).bind _ = _
        simp only [Option.bind_some]
        rw [openG_runD hQ hd']
        rfl
      · unfold pointG
        show (some ([], s)).bind _ = _
        simp only [Option.bind_some]
        rw [openG_runD hQ hd']
        rfl
    · have hon : o = none := by
        rcases o with _ | h
        · rfl
        · exfalso
          obtain ⟨g, g1, -⟩ := ho h rfl
          have gu : u = none := by cases u with
            | none => rfl
            | some a => simp at g
          rw [gu, g1] at ht
          simp at ht
      subst hon
      have hus : u.isSome = u'.isSome := by
        rw [ht] at ht'
        cases u <;> cases u' <;> simp at ht' ⊢
      have hds : d.isSome = d'.isSome := by
        rw [hb] at hb'
        cases d <;> cases d' <;> simp at hb' ⊢
      have j0 : J p none φ K s' s (flat P ++ (u.toList ++ d.toList ++ R)) := j.permL (by
        simp only [← List.append_assoc]
        exact ((List.perm_append_comm (l₁ := u.toList) (l₂ := flat P)).append_right _).append_right _)
      obtain ⟨s1', s1, K1, e1, e2, j1, f1, r1⟩ := J.run (h := none) (h' := none) P hP (fun c hc => hG c (by simp [hc])) j0
      obtain ⟨ψ, K2, h1, h2, j2⟩ := J.opens (h := none) (h' := none) Q hrQ j1
      rw [f1] at h1
      have lt : ∀ a ∈ u.toList ++ (flat P ++ d.toList), a.2 < s.H.ft := fun a ha => j.ends.lt j.sim (by simp only [List.mem_append] at ha ⊢; tauto)
      have p1 : closeG (opsF p none).join ((u.toList ++ (flat P ++ d.toList)).map (sl φ)) s' = some ((u.toList ++ d.toList).map (sl φ), s1') := by
        rw [closeG_runU hP hu, e1]; rfl
      have p2 : closeG (ops45 p none).join ((u.toList ++ (flat P ++ d.toList)).map (sl id)) s = some ((u.toList ++ d.toList).map (sl id), s1) := by
        rw [closeG_runU hP hu]
        show (Fr.run _ (P.map (fun x => (x.1.2, x.2.2))) s).map _ = _
        rw [e2]; rfl
      have q1 := openG_runD (K := (opsF p none).pair) (u := u') hQ hd' s1'
      have q2 := openG_runD (K := (ops45 p none).pair) (u := u') hQ hd' s1
      generalize hS' : Q.foldl (fun s x => (opsF p none).pair x.1.2 x.2.2 s) s1' = S' at q1 j2
      generalize hS : Q.foldl (fun s x => (ops45 p none).pair x.1.2 x.2.2 s) s1 = S at q2 j2
      -- the top
      obtain ⟨T', T, t1, t2, j3⟩ : ∃ T' T, topG (opsF p none).pass ((u.toList ++ d.toList).map (sl φ)) (d'.toList ++ u'.toList) S' = some (d.toList.map (sl φ), d'.toList, T') ∧
          topG (ops45 p none).pass ((u.toList ++ d.toList).map (sl id)) (d'.toList ++ u'.toList) S = some (d.toList.map (sl id), d'.toList, T) ∧ J p none ψ K2 T' T (d.toList ++ R) := by
        cases u with
        | none =>
          have : u' = none := by cases u' with
            | none => rfl
            | some a => simp at hus
          subst this
          refine ⟨S', S, ?_, ?_, j2⟩
          all_goals
            simp only [Option.toList_none, List.nil_append, List.append_nil]
            unfold topG
            cases d with
            | none => cases d' <;> rfl
            | some d =>
              cases d' with
              | none => rfl
              | some d' =>
                simp only [Option.toList_some, List.map_cons, List.map_nil, List.reverse_cons, List.reverse_nil, List.nil_append]
                rw [if_neg (by rintro ⟨g, -⟩; have g1 := hd d rfl; unfold sl at g; dsimp only at g; omega)]
        | some a =>
          obtain ⟨a', rfl⟩ : ∃ a', u' = some a' := by cases u' with
            | none => simp at hus
            | some a' => exact ⟨a', rfl⟩
          have ca := hu a rfl
          have ca' := hu' a' rfl
          have j3 := J.pass (a := a) (L := d.toList ++ R) j2 (hG a (by simp)) (hr a' (by simp)) (by omega) none none
          rw [h1 _ (lt a (by simp)), ca] at j3
          refine ⟨_, _, ?_, ?_, j3⟩
          all_goals
            unfold topG
            simp only [Option.toList_some, List.map_cons, List.map_nil, List.reverse_append, List.reverse_cons, List.reverse_nil, List.nil_append, List.singleton_append,
              List.cons_append]
            rw [if_pos ⟨ca, ca'⟩, ca']
            simp [sl]
      obtain ⟨B', B, b1, b2, j4⟩ : ∃ B' B, botG (opsF p none).pass (d.toList.map (sl φ)) d'.toList T' = some ([], [], B') ∧
          botG (ops45 p none).pass (d.toList.map (sl id)) d'.toList T = some ([], [], B) ∧ J p none ψ K2 B' B R := by
        cases d with
        | none =>
          have : d' = none := by cases d' with
            | none => rfl
            | some a => simp at hds
          subst this
          exact ⟨T', T, rfl, rfl, j3⟩
        | some a =>
          obtain ⟨a', rfl⟩ : ∃ a', d' = some a' := by cases d' with
            | none => simp at hds
            | some a' => exact ⟨a', rfl⟩
          have ca := hd a rfl
          have ca' := hd' a' rfl
          have j4 := J.pass (a := a) (L := R) j3 (hG a (by simp)) (hr a' (by simp)) (by omega) none none
          rw [h1 _ (lt a (by simp)), ca, neg_neg] at j4
          refine ⟨_, _, ?_, ?_, j4⟩
          all_goals
            unfold botG
            simp only [Option.toList_some, List.map_cons, List.map_nil, List.reverse_cons, List.reverse_nil, List.nil_append]
            rw [if_pos ⟨ca, ca'⟩, ca']
            simp [sl]
      refine ⟨B', B, ψ, K2, ?_, ?_, h1, j4.fin⟩
      · unfold pointG
        rw [Option.map_none, p1]
        simp only [Option.bind_some]
        rw [q1, t1]
        simp only [Option.bind_some]
        rw [b1]
        rfl
      · unfold pointG
        rw [p2]
        simp only [Option.bind_some]
        rw [q2, t2]
        simp only [Option.bind_some]
        rw [b2]
        rfl

end Verif.Fr
