import Verif.Proofs.Set45Set
import Verif.Proofs.PolySet
/-! # Inserting objects into 45-degree sets -/
namespace Verif.Set45
open Verif.Deg45 Verif.Spec.Deg45 Verif.Spec

/-- The half lines of an edge. -/
def out1 (m : Int) (e : P × P) : VC := (e.1, single (charEdge e.1 e.2).1 ((charEdge e.1 e.2).2 * m))
def in1 (m : Int) (e : P × P) : VC := (e.2, single (charEdge e.1 e.2).1 ((charEdge e.1 e.2).2 * -m))
def full (m : Int) (e : P × P) : List VC := [out1 m e, in1 m e]

/-- One of the four weights, or a sum of them. -/
def Additive (w : Quad Int → Int) : Prop := ∀ a b : Quad Int, w (a.add b) = w a + w b

theorem add_n : Additive Quad.n := fun _ _ => rfl
theorem add_z : Additive Quad.z := fun _ _ => rfl
theorem add_p : Additive Quad.p := fun _ _ => rfl
theorem add_v : Additive Quad.v := fun _ _ => rfl

theorem charEdge_dir (a b : P) : (charEdge a b).1 = -1 ∨ (charEdge a b).1 = 0 ∨ (charEdge a b).1 = 1 ∨ (charEdge a b).1 = 2 := by
  unfold charEdge; split_ifs <;> simp

theorem single_neg (r c : Int) : (single r c).add (single r (-c)) = ⟨0, 0, 0, 0⟩ := by
  unfold single Quad.add; split_ifs <;> simp

theorem add_zero_quad {w : Quad Int → Int} (hw : Additive w) : w ⟨0, 0, 0, 0⟩ = 0 := by
  have := hw ⟨0, 0, 0, 0⟩ ⟨0, 0, 0, 0⟩
  simp only [Quad.add, add_zero] at this
  omega

theorem half_tot {w : Quad Int → Int} (hw : Additive w) (m : Int) (a b c : P) (f : P → Bool) :
    tot [halfPair a b c m] f w = tot [in1 m (a, b)] f w + tot [out1 m (b, c)] f w := by
  simp only [tot_cons, tot_nil, halfPair, in1, out1]
  rw [hw]
  split_ifs <;> simp

theorem full_tot (w : Quad Int → Int) (m : Int) (e : P × P) (f : P → Bool) :
    tot (full m e) f w = tot [out1 m e] f w + tot [in1 m e] f w := by
  simp [full]

theorem full_self {w : Quad Int → Int} (hw : Additive w) (m : Int) (p : P) (f : P → Bool) : tot (full m (p, p)) f w = 0 := by
  have h : w (single (charEdge p p).1 ((charEdge p p).2 * m)) + w (single (charEdge p p).1 ((charEdge p p).2 * -m)) = 0 := by
    rw [← hw, mul_neg, single_neg, add_zero_quad hw]
  simp only [full, out1, in1, tot_cons, tot_nil]
  split_ifs
  · rw [add_zero]; exact h
  · rfl

/-- The edges of a path. -/
def chain : P → List P → List (P × P)
  | _, [] => []
  | p, q :: r => (p, q) :: chain q r

def sumE (T : P × P → Int) (L : List (P × P)) : Int := (L.map T).sum

@[simp] theorem sumE_nil (T : P × P → Int) : sumE T [] = 0 := rfl
@[simp] theorem sumE_cons (T : P × P → Int) (e : P × P) (L : List (P × P)) : sumE T (e :: L) = T e + sumE T L := by simp [sumE]
@[simp] theorem sumE_append (T : P × P → Int) (L M : List (P × P)) : sumE T (L ++ M) = sumE T L + sumE T M := by simp [sumE]

theorem zip_chain : ∀ (r : List P) (a x : P), (a :: r).zip (r ++ [x]) = chain a r ++ [((a :: r).getLast (by simp), x)] := by
  intro r
  induction r with
  | nil => intro a x; rfl
  | cons b r ih =>
    intro a x
    rw [List.cons_append, List.zip_cons_cons, ih b x]
    rfl

theorem edges_chain (a : P) (r : List P) : edges (a :: r) = chain a r ++ [((a :: r).getLast (by simp), a)] := by
  unfold edges
  rw [List.rotate_cons_succ, List.rotate_zero]
  exact zip_chain r a a

theorem seqLoop_tot {w : Quad Int → Int} (hw : Additive w) (m : Int) (f : P → Bool) : ∀ (r : List P) (pp p : P),
    tot (seqLoop m pp p r).1 f w + tot [in1 m ((seqLoop m pp p r).2.1, (seqLoop m pp p r).2.2)] f w =
      tot [in1 m (pp, p)] f w + sumE (fun e => tot (full m e) f w) (chain p r) ∧
    (seqLoop m pp p r).2.2 = (p :: r).getLast (by simp) := by
  intro r
  induction r with
  | nil => intro pp p; simp [seqLoop, chain]
  | cons q r ih =>
    intro pp p
    unfold seqLoop
    by_cases c : q = p
    · rw [if_pos c]
      obtain ⟨h1, h2⟩ := ih pp p
      constructor
      · rw [h1, c]; simp only [chain, sumE_cons, full_self hw, zero_add]
      · rw [h2, c]; simp [List.getLast_cons]
    · rw [if_neg c]
      obtain ⟨h1, h2⟩ := ih p q
      simp only
      constructor
      · have e : tot (halfPair pp p q m :: (seqLoop m p q r).1) f w = tot [halfPair pp p q m] f w + tot (seqLoop m p q r).1 f w := by simp
        rw [e, half_tot hw, chain, sumE_cons, full_tot]
        linarith
      · rw [h2]; simp [List.getLast_cons]

theorem chain_drop {w : Quad Int → Int} (hw : Additive w) (m : Int) (f : P → Bool) (a : P) : ∀ r : List P,
    sumE (fun e => tot (full m e) f w) (chain a r) = sumE (fun e => tot (full m e) f w) (chain a (r.dropWhile (fun q => decide (q = a)))) := by
  intro r
  induction r with
  | nil => rfl
  | cons b r ih =>
    by_cases c : b = a
    · rw [List.dropWhile_cons_of_pos (by simpa using c), chain, sumE_cons, c, full_self hw, zero_add, ih]
    · rw [List.dropWhile_cons_of_neg (by simpa using c)]

theorem drop_nil {a : P} {r : List P} (h : r.dropWhile (fun q => decide (q = a)) = []) : ∀ b ∈ r, b = a := by
  intro b hb
  have := List.dropWhile_eq_nil_iff.1 h b hb
  simpa using this

/-- The vertices of a sequence carry the half lines of the edges of the polygon. -/
theorem seq_tot {w : Quad Int → Int} (hw : Additive w) (m : Int) (f : P → Bool) (pts : List P) :
    tot ((seqVertices pts m).getD []) f w = sumE (fun e => tot (full m e) f w) (edges pts) := by
  unfold seqVertices
  cases pts with
  | nil => rfl
  | cons a r =>
    rw [edges_chain, sumE_append, chain_drop hw]
    simp only
    cases hd : r.dropWhile (fun q => decide (q = a)) with
    | nil =>
      have hall := drop_nil hd
      have hl : (a :: r).getLast (by simp) = a := by
        have := List.getLast_mem (l := a :: r) (by simp)
        rcases List.mem_cons.1 this with h | h
        · exact h
        · exact hall _ h
      simp only [Option.getD_none, tot_nil, chain, sumE_nil, sumE_cons, hl, full_self hw]
      rfl
    | cons b r2 =>
      have hlast : (a :: r).getLast (by simp) = (b :: r2).getLast (by simp) := by
        have hs : (b :: r2) <:+ r := by rw [← hd]; exact List.dropWhile_suffix _
        have hs' : (b :: r2) <:+ (a :: r) := hs.trans (List.suffix_cons a r)
        obtain ⟨t, ht⟩ := hs'
        simp only [← ht]
        rw [List.getLast_append_of_ne_nil]
      obtain ⟨h1, h2⟩ := seqLoop_tot hw m f r2 a b
      simp only [Option.getD_some, tot_append]
      rw [hlast, ← h2, chain, sumE_cons, sumE_cons, sumE_nil]
      by_cases c : (seqLoop m a b r2).2.2 ≠ a
      · rw [if_pos c]
        have e : tot [halfPair (seqLoop m a b r2).2.1 (seqLoop m a b r2).2.2 a m, halfPair (seqLoop m a b r2).2.2 a b m] f w =
            tot [halfPair (seqLoop m a b r2).2.1 (seqLoop m a b r2).2.2 a m] f w + tot [halfPair (seqLoop m a b r2).2.2 a b m] f w := by simp
        rw [e, half_tot hw, half_tot hw, full_tot, full_tot]
        linarith
      · rw [if_neg c]
        push Not at c
        rw [half_tot hw, c, full_self hw, full_tot]
        rw [c] at h1
        linarith

theorem seqLoop_mem (m : Int) (T : P → Prop) : ∀ (r : List P) (pp p : P), T p → (∀ q ∈ r, T q) →
    (∀ v ∈ (seqLoop m pp p r).1, T v.1) ∧ T (seqLoop m pp p r).2.2 := by
  intro r
  induction r with
  | nil => intro pp p hp _; simp [seqLoop, hp]
  | cons q r ih =>
    intro pp p hp hr
    unfold seqLoop
    by_cases c : q = p
    · rw [if_pos c]; exact ih pp p hp (fun x hx => hr x (by simp [hx]))
    · rw [if_neg c]
      obtain ⟨h1, h2⟩ := ih p q (hr q (by simp)) (fun x hx => hr x (by simp [hx]))
      refine ⟨?_, h2⟩
      intro v hv
      rcases List.mem_cons.1 hv with rfl | hv
      · exact hp
      · exact h1 v hv

theorem seq_mem (m : Int) (T : P → Prop) {pts : List P} (h : ∀ p ∈ pts, T p) : ∀ v ∈ (seqVertices pts m).getD [], T v.1 := by
  unfold seqVertices
  cases pts with
  | nil => simp
  | cons a r =>
    have ha := h a (by simp)
    simp only
    cases hd : r.dropWhile (fun q => decide (q = a)) with
    | nil => simp
    | cons b r2 =>
      have hsub : ∀ x ∈ b :: r2, T x := by
        intro x hx
        refine h x (List.mem_cons_of_mem _ ?_)
        rw [← hd] at hx
        exact (List.dropWhile_suffix _).subset hx
      obtain ⟨h1, h2⟩ := seqLoop_mem m T r2 a b (hsub b (by simp)) (fun x hx => hsub x (by simp [hx]))
      simp only [Option.getD_some]
      intro v hv
      rcases List.mem_append.1 hv with hv | hv
      · exact h1 v hv
      · by_cases c : (seqLoop m a b r2).2.2 ≠ a
        · rw [if_pos c] at hv
          simp at hv
          rcases hv with rfl | rfl
          · exact h2
          · exact ha
        · rw [if_neg c] at hv
          simp at hv
          rw [hv]; exact ha

/-! ### What one edge adds -/

theorem edge_lines {e : P × P} (h : Octant e) (m : Int) : (∀ k, tot (full m e) (fun a => decide (a.1 + a.2 = k)) Quad.n = 0) ∧
    (∀ k, tot (full m e) (fun a => decide (a.2 = k)) Quad.z = 0) ∧ (∀ k, tot (full m e) (fun a => decide (a.2 - a.1 = k)) Quad.p = 0) ∧
    (∀ k, tot (full m e) (fun a => decide (a.1 = k)) Quad.v = 0) := by
  obtain ⟨a, b⟩ := e
  unfold Octant at h
  simp only at h
  unfold full out1 in1 charEdge
  simp only [tot_cons, tot_nil, decide_eq_true_eq]
  by_cases c1 : a.1 = b.1
  · simp [c1, single]
    intro k; split_ifs <;> omega
  by_cases c2 : a.2 = b.2
  · simp [c1, c2, single]
    intro k; split_ifs <;> omega
  by_cases c3 : a.1 < b.1
  · by_cases c4 : a.2 < b.2
    · simp [c1, c2, c3, c4, single]
      intro k; split_ifs <;> omega
    · simp [c1, c2, c3, c4, single]
      intro k; split_ifs <;> omega
  · by_cases c4 : a.2 < b.2
    · simp [c1, c2, c3, c4, single]
      intro k; split_ifs <;> omega
    · simp [c1, c2, c3, c4, single]
      intro k; split_ifs <;> omega

theorem edge_point (e : P × P) (m : Int) (p : P) :
    tot (full m e) (fun a => decide (a = p)) Quad.n + tot (full m e) (fun a => decide (a = p)) Quad.z +
      tot (full m e) (fun a => decide (a = p)) Quad.p - tot (full m e) (fun a => decide (a = p)) Quad.v =
    m * ((if e.1 = p then 1 else 0) - (if e.2 = p then 1 else 0)) := by
  obtain ⟨a, b⟩ := e
  unfold full out1 in1 charEdge
  simp only [tot_cons, tot_nil, decide_eq_true_eq]
  by_cases e1 : a = p <;> by_cases e2 : b = p <;> simp only [e1, e2, if_true, if_false] <;> first | (unfold single; split_ifs <;> simp_all <;> ring) | ring

open Verif.Spec.Arb in
theorem edge_depth {e : P × P} (h : Octant e) (m : Int) (q : ℚ × ℚ) : depth (full m e) q = m * crossing q e := by
  obtain ⟨a, b⟩ := e
  unfold Octant at h
  simp only at h
  have hd : depth (full m (a, b)) q = depth [out1 m (a, b)] q + depth [in1 m (a, b)] q := by simp [Spec.Deg45.depth, full]
  rw [hd]
  -- a half line of slope r
  have key : ∀ r : Int, (r = -1 ∨ r = 0 ∨ r = 1) → ∀ (p : P) (c : Int), depth [(p, single r c)] q = if reach q r p = true then c else 0 := by
    intro r hr p c
    unfold Spec.Deg45.depth ray reach single
    simp only [List.map_cons, List.map_nil, List.sum_cons, List.sum_nil, decide_eq_true_eq]
    rcases hr with rfl | rfl | rfl <;> norm_num
  have fin : ∀ r : Int, (r = -1 ∨ r = 0 ∨ r = 1) → a.1 ≠ b.1 → b.2 - a.2 = r * (b.1 - a.1) → (charEdge a b) = (r, 1) →
      depth [out1 m (a, b)] q + depth [in1 m (a, b)] q = m * crossing q (a, b) := by
    intro r hr hne hl hc
    unfold out1 in1
    simp only [hc]
    rw [key r hr, key r hr]
    have hq : ((b.2 : ℚ) - a.2) = r * (b.1 - a.1) := by exact_mod_cast hl
    have hne' : ((b.1 : ℚ) - a.1) ≠ 0 := by
      intro h0; apply hne
      have : (b.1 : ℚ) = a.1 := by linarith
      exact_mod_cast this.symm
    have hline : lineY a b q.1 = a.2 + r * (q.1 - a.1) := by
      unfold lineY
      rw [hq]; field_simp
    unfold crossing reach
    simp only [hline, decide_eq_true_eq]
    have e2 : ((b.2 : ℚ) + r * (q.1 - b.1) ≤ q.2) ↔ ((a.2 : ℚ) + r * (q.1 - a.1) ≤ q.2) := by
      constructor <;> intro h <;> linarith
    simp only [e2]
    by_cases c1 : (a.1 : ℚ) ≤ q.1 <;> by_cases c2 : (b.1 : ℚ) ≤ q.1 <;> by_cases c3 : (a.2 : ℚ) + r * (q.1 - a.1) ≤ q.2 <;>
      simp [c1, c2, c3, not_lt.2, not_le.1]
  by_cases c1 : a.1 = b.1
  · have : crossing q (a, b) = 0 := by
      unfold crossing
      simp only [c1]
      rw [if_neg (fun h => by linarith [h.1, h.2.1]), if_neg (fun h => by linarith [h.1, h.2.1])]
    rw [this]
    unfold Spec.Deg45.depth ray out1 in1 charEdge single
    simp [c1]
  by_cases c2 : a.2 = b.2
  · exact fin 0 (by simp) c1 (by omega) (by unfold charEdge; rw [if_neg c1, if_pos c2])
  by_cases c3 : a.1 < b.1
  · by_cases c4 : a.2 < b.2
    · exact fin 1 (by simp) c1 (by omega) (by unfold charEdge; rw [if_neg c1, if_neg c2, if_pos c3, if_pos c4])
    · exact fin (-1) (by simp) c1 (by omega) (by unfold charEdge; rw [if_neg c1, if_neg c2, if_pos c3, if_neg c4])
  · by_cases c4 : a.2 < b.2
    · exact fin (-1) (by simp) c1 (by omega) (by unfold charEdge; rw [if_neg c1, if_neg c2, if_neg c3, if_pos c4])
    · exact fin 1 (by simp) c1 (by omega) (by unfold charEdge; rw [if_neg c1, if_neg c2, if_neg c3, if_neg c4])

theorem sumE_congr {T U : P × P → Int} {L : List (P × P)} (h : ∀ e ∈ L, T e = U e) : sumE T L = sumE U L := by
  unfold sumE; congr 1; exact List.map_congr_left h

theorem sumE_zero {T : P × P → Int} {L : List (P × P)} (h : ∀ e ∈ L, T e = 0) : sumE T L = 0 := by
  rw [sumE_congr h]; simp [sumE]

theorem sumE_mul (c : Int) (T : P × P → Int) (L : List (P × P)) : sumE (fun e => c * T e) L = c * sumE T L := by
  induction L with
  | nil => simp
  | cons e L ih => simp only [sumE_cons, ih]; ring

theorem sumE_add (T U : P × P → Int) (L : List (P × P)) : sumE (fun e => T e + U e) L = sumE T L + sumE U L := by
  induction L with
  | nil => simp
  | cons e L ih => simp only [sumE_cons, ih]; ring

theorem sumE_sub (T U : P × P → Int) (L : List (P × P)) : sumE (fun e => T e - U e) L = sumE T L - sumE U L := by
  induction L with
  | nil => simp
  | cons e L ih => simp only [sumE_cons, ih]; ring

open Verif.Spec.Arb in
theorem seq_depth {pts : List P} (h : Poly45 pts) (m : Int) (q : ℚ × ℚ) : depth ((seqVertices pts m).getD []) q = m * windAt pts q := by
  rw [depth_tot, seq_tot add_n, seq_tot add_z, seq_tot add_p, ← sumE_add, ← sumE_add]
  have : windAt pts q = sumE (crossing q) (edges pts) := rfl
  rw [this, ← sumE_mul]
  refine sumE_congr (fun e he => ?_)
  rw [← edge_depth (h e he), depth_tot]

theorem seq_closed {pts : List P} (h : Poly45 pts) (m : Int) : Closed ((seqVertices pts m).getD []) := by
  refine ⟨fun p => ?_, fun k => ?_, fun k => ?_, fun k => ?_, fun k => ?_⟩
  · rw [tot_add, tot_add]
    show tot _ _ Quad.n + tot _ _ Quad.z + tot _ _ Quad.p = _
    rw [← sub_eq_zero, seq_tot add_n, seq_tot add_z, seq_tot add_p, seq_tot add_v, ← sumE_add, ← sumE_add, ← sumE_sub]
    rw [sumE_congr (fun e _ => edge_point e m p)]
    have := PolySet.edges_flow (-m) pts p
    unfold PolySet.flow at this
    unfold sumE
    refine Eq.trans ?_ this
    congr 1
    refine List.map_congr_left (fun e _ => ?_)
    ring
  · rw [seq_tot add_v]; exact sumE_zero (fun e he => (edge_lines (h e he) m).2.2.2 k)
  · rw [seq_tot add_n]; exact sumE_zero (fun e he => (edge_lines (h e he) m).1 k)
  · rw [seq_tot add_z]; exact sumE_zero (fun e he => (edge_lines (h e he) m).2.1 k)
  · rw [seq_tot add_p]; exact sumE_zero (fun e he => (edge_lines (h e he) m).2.2.1 k)

/-! ### The members of the set -/

/-- The coordinates of the points fit. -/
def PtsIn (umin umax : Int) (pts : List P) : Prop := ∀ p ∈ pts, (umin ≤ p.1 ∧ p.1 ≤ umax) ∧ umin ≤ p.2 ∧ p.2 ≤ umax

/-- The sum of the coordinates is even. -/
def PtsEven (pts : List P) : Prop := ∀ p ∈ pts, (p.1 + p.2) % 2 = 0

theorem range_append {umin umax : Int} {D E : List VC} (h : InRange umin umax D) (h' : InRange umin umax E) : InRange umin umax (D ++ E) :=
  fun v hv => (List.mem_append.1 hv).elim (h v) (h' v)

theorem grid_append {C : Type} [AddCommGroup C] {D E : List (Vert C)} (h : OnGrid D) (h' : OnGrid E) : OnGrid (D ++ E) :=
  fun v hv => (List.mem_append.1 hv).elim (h v) (h' v)

/-- Data is added. -/
theorem add_valid {umin umax : Int} {s : S45} (hs : Valid umin umax s) {l : List VC} {b : Bool} {e : List VC} (hc : Closed l) (hr : InRange umin umax l)
    (hb : b = true → Manhattan s.data ∧ Manhattan l) : Valid umin umax ⟨e, s.data ++ l, true, true, b⟩ := by
  refine ⟨fun h => by simp at h, fun h => by simp at h, fun h v hv => ?_, closed_append hs.closed hc, range_append hs.range hr⟩
  rcases List.mem_append.1 hv with hv | hv
  · exact (hb h).1 v hv
  · exact (hb h).2 v hv

theorem seq_none {pts : List P} {m : Int} (h : seqVertices pts m = none) : (seqVertices pts m).getD [] = [] := by rw [h]; rfl

open Verif.Spec.Arb in
theorem insertSeq_spec {umin umax : Int} {s : S45} (hs : Valid umin umax s) {pts : List P} (hp : PtsIn umin umax pts) (h45 : Poly45 pts) (wind hole : Bool) :
    Valid umin umax (s.insertSeq pts wind hole) ∧ (s.insertSeq pts wind hole).err = s.err ∧
    (∀ q, Spec.Deg45.depth (s.insertSeq pts wind hole).data q = Spec.Deg45.depth s.data q + (if (wind != hole) then 1 else -1) * windAt pts q) ∧
    (OnGrid s.data → PtsEven pts → OnGrid (s.insertSeq pts wind hole).data) := by
  unfold S45.insertSeq
  set m : Int := if (wind != hole) then 1 else -1 with hm
  have hd := seq_depth h45 m
  have hc := seq_closed h45 m
  have hr := seq_mem m (fun p => (umin ≤ p.1 ∧ p.1 ≤ umax) ∧ umin ≤ p.2 ∧ p.2 ≤ umax) hp
  cases hseq : seqVertices pts m with
  | none =>
    rw [hseq] at hd
    refine ⟨hs, rfl, fun q => ?_, fun h _ => h⟩
    rw [← hd]; simp [Spec.Deg45.depth]
  | some l =>
    rw [hseq] at hd hc hr
    simp only [Option.getD_some] at hd hc hr
    refine ⟨?_, rfl, fun q => ?_, fun h h' => ?_⟩
    · refine add_valid hs hc (fun v hv => ⟨(hr v hv).1.1, fun _ => ⟨(hr v hv).1.2, (hr v hv).2⟩⟩) (fun h => ?_)
      have ⟨h1, h2⟩ := (Bool.and_eq_true _ _ ▸ h : s.manh = true ∧ l.all (fun v => !is45 v.2) = true)
      refine ⟨hs.manh h1, fun v hv => ?_⟩
      have := List.all_eq_true.1 h2 v hv
      simpa [is45] using this
    · simp only
      rw [depth_append, hd]
    · refine grid_append h (fun v hv _ => ?_)
      have he := seq_mem m (fun p => (p.1 + p.2) % 2 = 0) h'
      rw [hseq] at he
      exact he v hv

open Verif.Spec.Arb in
theorem insertPoly_spec {umin umax : Int} {s : S45} (hs : Valid umin umax s) {pts : List P} (hp : PtsIn umin umax pts) (h45 : Poly45 pts) (hole : Bool) :
    Valid umin umax (s.insertPoly pts hole) ∧ (s.insertPoly pts hole).err = s.err ∧
    (∀ q, Spec.Deg45.depth (s.insertPoly pts hole).data q = Spec.Deg45.depth s.data q + (if hole then -1 else 1) * (orient pts * windAt pts q)) ∧
    (OnGrid s.data → PtsEven pts → OnGrid (s.insertPoly pts hole).data) := by
  unfold S45.insertPoly
  obtain ⟨h1, h2, h3, h4⟩ := insertSeq_spec hs hp h45 (Polygon.windingQ pts == Isotropy.HIGH) hole
  refine ⟨h1, h2, fun q => ?_, h4⟩
  rw [h3, ← mul_assoc]
  congr 2
  unfold orient
  have hw := PolySet.winding_high pts
  by_cases c : 0 < shoelace pts
  · rw [if_pos c, hw.2 c]; cases hole <;> simp
  · rw [if_neg c]
    have : (Polygon.windingQ pts == Isotropy.HIGH) = false := by
      rw [beq_eq_false_iff_ne]; exact fun h => c (hw.1 h)
    rw [this]; cases hole <;> simp

open Verif.Spec.Arb in
theorem insertHoles_spec {umin umax : Int} {s : S45} (hs : Valid umin umax s) {pts : List P} {holes : List (List P)}
    (hp : ∀ r ∈ pts :: holes, PtsIn umin umax r ∧ Poly45 r) (hole : Bool) :
    Valid umin umax (s.insertHoles pts holes hole) ∧ (s.insertHoles pts holes hole).err = s.err ∧
    (∀ q, Spec.Deg45.depth (s.insertHoles pts holes hole).data q = Spec.Deg45.depth s.data q + (if hole then -1 else 1) * objDepth pts holes q) ∧
    (OnGrid s.data → (∀ r ∈ pts :: holes, PtsEven r) → OnGrid (s.insertHoles pts holes hole).data) := by
  unfold S45.insertHoles
  have fold : ∀ (hl : List (List P)) (t : S45), Valid umin umax t → (∀ r ∈ hl, PtsIn umin umax r ∧ Poly45 r) →
      Valid umin umax (hl.foldl (fun s h => s.insertPoly h (!hole)) t) ∧ (hl.foldl (fun s h => s.insertPoly h (!hole)) t).err = t.err ∧
      (∀ q, Spec.Deg45.depth (hl.foldl (fun s h => s.insertPoly h (!hole)) t).data q =
        Spec.Deg45.depth t.data q - (if hole then -1 else 1) * (hl.map (fun h => orient h * windAt h q)).sum) ∧
      (OnGrid t.data → (∀ r ∈ hl, PtsEven r) → OnGrid (hl.foldl (fun s h => s.insertPoly h (!hole)) t).data) := by
    intro hl
    induction hl with
    | nil => intro t ht _; exact ⟨ht, rfl, fun q => by simp, fun h _ => h⟩
    | cons r hl ih =>
      intro t ht hr
      obtain ⟨a1, a2, a3, a4⟩ := insertPoly_spec ht (hr r (by simp)).1 (hr r (by simp)).2 (!hole)
      obtain ⟨b1, b2, b3, b4⟩ := ih _ a1 (fun x hx => hr x (by simp [hx]))
      refine ⟨b1, by rw [List.foldl_cons, b2, a2], fun q => ?_, fun h h' => b4 (a4 h (h' r (by simp))) (fun x hx => h' x (by simp [hx]))⟩
      rw [List.foldl_cons, b3, a3, List.map_cons, List.sum_cons]
      cases hole <;> simp <;> ring
  obtain ⟨a1, a2, a3, a4⟩ := insertPoly_spec hs (hp pts (by simp)).1 (hp pts (by simp)).2 hole
  obtain ⟨b1, b2, b3, b4⟩ := fold holes _ a1 (fun x hx => hp x (by simp [hx]))
  refine ⟨b1, by rw [b2, a2], fun q => ?_, fun h h' => b4 (a4 h (h' pts (by simp))) (fun x hx => h' x (by simp [hx]))⟩
  rw [b3, a3]
  unfold objDepth
  ring

/-- The corners of a rectangle. -/
def corners4 (r : Rectangle.Rect) : List P := [(r.h.lo, r.v.lo), (r.h.hi, r.v.lo), (r.h.hi, r.v.hi), (r.h.lo, r.v.hi)]

theorem rect45 (r : Rectangle.Rect) : Poly45 (corners4 r) := by
  intro e he
  simp [corners4, edges] at he
  unfold Octant
  rcases he with rfl | rfl | rfl | rfl <;> simp

theorem rect_tot {w : Quad Int → Int} (hw : Additive w) (m : Int) (f : P → Bool) (r : Rectangle.Rect) :
    tot [halfPair (r.h.lo, r.v.lo) (r.h.hi, r.v.lo) (r.h.hi, r.v.hi) m, halfPair (r.h.hi, r.v.lo) (r.h.hi, r.v.hi) (r.h.lo, r.v.hi) m,
      halfPair (r.h.hi, r.v.hi) (r.h.lo, r.v.hi) (r.h.lo, r.v.lo) m, halfPair (r.h.lo, r.v.hi) (r.h.lo, r.v.lo) (r.h.hi, r.v.lo) m] f w =
    sumE (fun e => tot (full m e) f w) (edges (corners4 r)) := by
  have e : ∀ a b c d : VC, tot [a, b, c, d] f w = tot [a] f w + tot [b] f w + tot [c] f w + tot [d] f w := by
    intro a b c d; simp only [tot_cons, tot_nil]; ring
  rw [e, half_tot hw, half_tot hw, half_tot hw, half_tot hw]
  simp only [corners4, edges, List.rotate_cons_succ, List.rotate_zero, List.cons_append, List.nil_append, List.zip_cons_cons, List.zip_nil_right,
    sumE_cons, sumE_nil, full_tot]
  ring

/-- Data with the totals of the edges of a polygon. -/
theorem poly_data {pts : List P} (h : Poly45 pts) {m : Int} {l : List VC}
    (hl : ∀ (w : Quad Int → Int) (_ : Additive w) f, tot l f w = sumE (fun e => tot (full m e) f w) (edges pts)) :
    Closed l ∧ ∀ q, Spec.Deg45.depth l q = m * Spec.Arb.windAt pts q := by
  have hq : ∀ w, Additive w → ∀ f, tot l f w = tot ((seqVertices pts m).getD []) f w := fun w hw f => by rw [hl w hw, seq_tot hw]
  have hc := seq_closed h m
  refine ⟨⟨fun p => ?_, fun k => ?_, fun k => ?_, fun k => ?_, fun k => ?_⟩, fun q => ?_⟩
  · have hsum : Additive (fun q : Quad Int => q.n + q.z + q.p) := fun a b => by simp only [Quad.add]; ring
    rw [hq _ hsum, hq _ add_v]; exact hc.point p
  · rw [hq _ add_v]; exact hc.vert k
  · rw [hq _ add_n]; exact hc.down k
  · rw [hq _ add_z]; exact hc.flat k
  · rw [hq _ add_p]; exact hc.up k
  · rw [← seq_depth h, depth_tot, depth_tot, hq _ add_n, hq _ add_z, hq _ add_p]

open Verif.Spec.Arb in
theorem rect_wind {r : Rectangle.Rect} (h1 : r.h.lo ≤ r.h.hi) (h2 : r.v.lo ≤ r.v.hi) (q : ℚ × ℚ) :
    windAt (corners4 r) q = if (r.h.lo : ℚ) ≤ q.1 ∧ q.1 < r.h.hi ∧ (r.v.lo : ℚ) ≤ q.2 ∧ q.2 < r.v.hi then 1 else 0 := by
  have h1' : (r.h.lo : ℚ) ≤ r.h.hi := by exact_mod_cast h1
  have h2' : (r.v.lo : ℚ) ≤ r.v.hi := by exact_mod_cast h2
  have l1 : lineY (r.h.lo, r.v.lo) (r.h.hi, r.v.lo) q.1 = r.v.lo := by unfold lineY; simp
  have l2 : lineY (r.h.hi, r.v.hi) (r.h.lo, r.v.hi) q.1 = r.v.hi := by unfold lineY; simp
  simp only [windAt, corners4, edges, List.rotate_cons_succ, List.rotate_zero, List.cons_append, List.nil_append, List.zip_cons_cons,
    List.zip_nil_right, List.map_cons, List.map_nil, List.sum_cons, List.sum_nil, crossing, l1, l2]
  clear l1 l2 h1 h2
  generalize (r.h.lo : ℚ) = a at *
  generalize (r.h.hi : ℚ) = b at *
  generalize (r.v.lo : ℚ) = c at *
  generalize (r.v.hi : ℚ) = d at *
  have e1 : ¬ (b ≤ q.1 ∧ q.1 < b ∧ lineY (r.h.hi, r.v.lo) (r.h.hi, r.v.hi) q.1 ≤ q.2) := fun h => absurd h.2.1 (not_lt.2 h.1)
  have e2 : ¬ (a ≤ q.1 ∧ q.1 < a ∧ lineY (r.h.lo, r.v.hi) (r.h.lo, r.v.lo) q.1 ≤ q.2) := fun h => absurd h.2.1 (not_lt.2 h.1)
  have e3 : ¬ (b ≤ q.1 ∧ q.1 < a ∧ c ≤ q.2) := fun h => by linarith [h.1, h.2.1]
  have e4 : ¬ (b ≤ q.1 ∧ q.1 < a ∧ d ≤ q.2) := fun h => by linarith [h.1, h.2.1]
  simp only [if_neg e1, if_neg e2, if_neg e3, if_neg e4]
  by_cases c1 : a ≤ q.1 ∧ q.1 < b
  · by_cases c3 : c ≤ q.2
    · by_cases c4 : q.2 < d
      · simp [c1.1, c1.2, c3, c4]
      · simp [c1.1, c1.2, c3, c4, not_lt.1 c4]
    · have : ¬ d ≤ q.2 := fun h => c3 (le_trans h2' h)
      simp [c3, this]
  · have n1 : ¬ (a ≤ q.1 ∧ q.1 < b ∧ c ≤ q.2) := fun h => c1 ⟨h.1, h.2.1⟩
    have n2 : ¬ (a ≤ q.1 ∧ q.1 < b ∧ d ≤ q.2) := fun h => c1 ⟨h.1, h.2.1⟩
    have n3 : ¬ (a ≤ q.1 ∧ q.1 < b ∧ c ≤ q.2 ∧ q.2 < d) := fun h => c1 ⟨h.1, h.2.1⟩
    simp [n1, n2, n3]

theorem insertRect_spec {umin umax : Int} {s : S45} (hs : Valid umin umax s) {r : Rectangle.Rect}
    (hr : PtsIn umin umax (corners4 r)) (h1 : r.h.lo ≤ r.h.hi) (h2 : r.v.lo ≤ r.v.hi) (hole : Bool) :
    Valid umin umax (s.insertRect r hole) ∧ (s.insertRect r hole).err = s.err ∧
    (∀ q : ℚ × ℚ, depth (s.insertRect r hole).data q = depth s.data q + (if hole then -1 else 1) *
      (if (r.h.lo : ℚ) ≤ q.1 ∧ q.1 < r.h.hi ∧ (r.v.lo : ℚ) ≤ q.2 ∧ q.2 < r.v.hi then 1 else 0)) ∧
    (OnGrid s.data → OnGrid (s.insertRect r hole).data) := by
  obtain ⟨hc, hd⟩ := poly_data (rect45 r) (m := if hole then -1 else 1) (fun w hw f => rect_tot hw _ f r)
  have hm : Manhattan [halfPair (r.h.lo, r.v.lo) (r.h.hi, r.v.lo) (r.h.hi, r.v.hi) (if hole then -1 else 1), halfPair (r.h.hi, r.v.lo) (r.h.hi, r.v.hi) (r.h.lo, r.v.hi) (if hole then -1 else 1),
      halfPair (r.h.hi, r.v.hi) (r.h.lo, r.v.hi) (r.h.lo, r.v.lo) (if hole then -1 else 1), halfPair (r.h.lo, r.v.hi) (r.h.lo, r.v.lo) (r.h.hi, r.v.lo) (if hole then -1 else 1)] := by
    intro v hv
    simp at hv
    have hax : ∀ a b c : P, (a.1 = b.1 ∨ a.2 = b.2) → (b.1 = c.1 ∨ b.2 = c.2) → ∀ m, (halfPair a b c m).2.n = 0 ∧ (halfPair a b c m).2.p = 0 := by
      have hx : ∀ a b : P, (a.1 = b.1 ∨ a.2 = b.2) → (charEdge a b).1 = 2 ∨ (charEdge a b).1 = 0 := by
        intro a b h
        unfold charEdge
        by_cases c1 : a.1 = b.1
        · rw [if_pos c1]; exact Or.inl rfl
        · rw [if_neg c1, if_pos (h.resolve_left c1)]; exact Or.inr rfl
      intro a b c h h' m
      unfold halfPair Quad.add single
      rcases hx a b h with e | e <;> rcases hx b c h' with e' | e' <;> simp [e, e']
    rcases hv with rfl | rfl | rfl | rfl <;> exact hax _ _ _ (by simp) (by simp) _
  unfold S45.insertRect
  refine ⟨add_valid hs hc (fun v hv => ?_) (fun h => ⟨hs.manh h, hm⟩), rfl, fun q => ?_, fun h => grid_append h (grid_manh hm)⟩
  · have : v.1 ∈ corners4 r := by
      simp at hv
      rcases hv with rfl | rfl | rfl | rfl <;> simp [halfPair, corners4]
    have := hr _ this
    exact ⟨this.1.1, fun _ => ⟨this.1.2, this.2⟩⟩
  · simp only
    rw [depth_append, hd, rect_wind h1 h2]

theorem invert_tot (D : List VC) (f : P → Bool) {w : Quad Int → Int} (hw : ∀ q, w (invert q) = - w q) :
    tot (D.map (fun v => (v.1, invert v.2))) f w = - tot D f w := by
  induction D with
  | nil => rfl
  | cons v D ih =>
    rw [List.map_cons, tot_cons, tot_cons, ih]
    simp only
    rw [hw]
    split_ifs <;> ring

theorem invert_facts {D : List VC} (hc : Closed D) : Closed (D.map (fun v => (v.1, invert v.2))) ∧
    ∀ q, depth (D.map (fun v => (v.1, invert v.2))) q = - depth D q := by
  refine ⟨⟨fun p => ?_, fun k => ?_, fun k => ?_, fun k => ?_, fun k => ?_⟩, fun q => ?_⟩
  · rw [invert_tot D _ (fun q => by simp only [invert]; ring), invert_tot D _ (fun q => rfl), hc.point]
  · rw [invert_tot D _ (fun q => rfl), hc.vert]; rfl
  · rw [invert_tot D _ (fun q => rfl), hc.down]; rfl
  · rw [invert_tot D _ (fun q => rfl), hc.flat]; rfl
  · rw [invert_tot D _ (fun q => rfl), hc.up]; rfl
  · rw [depth_tot, depth_tot, invert_tot D _ (fun q => rfl), invert_tot D _ (fun q => rfl), invert_tot D _ (fun q => rfl)]; ring

theorem insertSet_spec {umin umax : Int} {s t : S45} (hs : Valid umin umax s) (ht : Valid umin umax t) (hole : Bool) :
    Valid umin umax (s.insertSet t hole) ∧ (s.insertSet t hole).err = s.err ++ t.err ∧
    (∀ q, depth (s.insertSet t hole).data q = depth s.data q + (if hole then -1 else 1) * depth t.data q) ∧
    (OnGrid s.data → OnGrid t.data → OnGrid (s.insertSet t hole).data) := by
  unfold S45.insertSet
  cases hole
  · refine ⟨add_valid hs ht.closed ht.range (fun h => ?_), rfl, fun q => ?_, fun h h' => grid_append h h'⟩
    · have ⟨h1, h2⟩ := (Bool.and_eq_true _ _ ▸ h : s.manh = true ∧ t.manh = true)
      exact ⟨hs.manh h1, ht.manh h2⟩
    · simp [depth_append]
  · obtain ⟨i1, i2⟩ := invert_facts ht.closed
    refine ⟨add_valid hs i1 (fun v hv => ?_) (fun h => ?_), rfl, fun q => ?_, fun h h' => grid_append h (fun v hv hn => ?_)⟩
    · obtain ⟨u, hu, rfl⟩ := List.mem_map.1 hv
      obtain ⟨r1, r2⟩ := ht.range u hu
      refine ⟨r1, fun hn => r2 (fun h0 => hn ?_)⟩
      simp only [h0]; rfl
    · have ⟨h1, h2⟩ := (Bool.and_eq_true _ _ ▸ h : s.manh = true ∧ t.manh = true)
      refine ⟨hs.manh h1, fun v hv => ?_⟩
      obtain ⟨u, hu, rfl⟩ := List.mem_map.1 hv
      have := ht.manh h2 u hu
      simp [invert, this.1, this.2]
    · simp only [if_true, depth_append, i2]; ring
    · obtain ⟨u, hu, rfl⟩ := List.mem_map.1 hv
      refine h' u hu ?_
      simpa [invert] using hn

theorem new_valid (umin umax : Int) : Valid umin umax S45.new :=
  ⟨fun _ => List.Pairwise.nil, fun _ _ => Or.inl rfl, fun _ v hv => by simp [S45.new] at hv,
    ⟨fun _ => rfl, fun _ => rfl, fun _ => rfl, fun _ => rfl, fun _ => rfl⟩, fun v hv => by simp [S45.new] at hv⟩

end Verif.Set45
