import Verif.Model.PolySet
import Verif.Spec.PolySet
import Verif.Proofs.Polygon
import Verif.Proofs.ArbOrder
/-!
# Inserting polygons into a set
-/
namespace Verif.PolySet
open Verif Verif.Arb Verif.Contains Verif.Isotropy Verif.Polygon Verif.Spec Verif.Spec.Arb

theorem depth_append (D E : Data) (q : ℚ × ℚ) : depth (D ++ E) q = depth D q + depth E q := by simp [Spec.Arb.depth]

theorem lineY_swap (a b : Pt) (x : ℚ) (h : a.1 ≠ b.1) : lineY b a x = lineY a b x := by
  have h1 : ((b.1 : ℚ) - a.1) ≠ 0 := by
    intro hc; apply h; have : (b.1 : ℚ) = a.1 := by linarith
    exact_mod_cast this.symm
  have h2 : ((a.1 : ℚ) - b.1) ≠ 0 := by intro hc; apply h1; linarith
  unfold lineY; field_simp; ring

theorem crossing_swap (q : ℚ × ℚ) (e : Edge) : crossing q e.swap = - crossing q e := by
  unfold crossing
  simp only [Prod.fst_swap, Prod.snd_swap]
  by_cases hx : e.1.1 = e.2.1
  · have hx' : (e.1.1 : ℚ) = e.2.1 := by exact_mod_cast hx
    rw [if_neg, if_neg, if_neg, if_neg] <;> first | rfl | (rintro ⟨h1, h2, -⟩; linarith)
  · simp only [lineY_swap _ _ _ hx]
    by_cases h1 : (e.1.1 : ℚ) ≤ q.1 ∧ q.1 < e.2.1 ∧ lineY e.1 e.2 q.1 ≤ q.2
    · rw [if_pos h1, if_neg, if_pos h1]; rintro ⟨g1, g2, -⟩; linarith [h1.1, h1.2.1]
    · rw [if_neg h1, if_neg h1]; split_ifs <;> rfl

/-- The edge as it is stored. -/
def store (e : Edge × Int) : Edge × Int := if lessPoint e.1.2 e.1.1 then ((e.1.2, e.1.1), e.2 * -1) else e

theorem lessPoint_iff (a b : Pt) : lessPoint a b = true ↔ a.1 < b.1 ∨ (a.1 = b.1 ∧ a.2 < b.2) := by
  simp [lessPoint]

theorem store_directed {e : Edge × Int} (h : e.1.1 ≠ e.1.2) : Directed (store e).1 := by
  unfold store
  by_cases c : lessPoint e.1.2 e.1.1 = true
  · rw [if_pos c]; rw [lessPoint_iff] at c; unfold Spec.Arb.Directed; dsimp only; omega
  · rw [if_neg c]; rw [lessPoint_iff] at c; unfold Spec.Arb.Directed
    have : ¬ (e.1.1.1 = e.1.2.1 ∧ e.1.1.2 = e.1.2.2) := fun hc => h (Prod.ext hc.1 hc.2)
    omega

theorem store_inflow (e : Edge × Int) (v : Pt) : inflow (store e) v = inflow e v := by
  unfold store
  by_cases c : lessPoint e.1.2 e.1.1 = true
  · rw [if_pos c]; unfold inflow; dsimp only
    by_cases h : e.1.1.1 = e.1.2.1
    · rw [if_pos h, if_pos h.symm]; ring
    · rw [if_neg h, if_neg (Ne.symm h)]; ring
  · rw [if_neg c]

theorem crossing_lt {a b : Pt} (h : a.1 < b.1) (q : ℚ × ℚ) : crossing q (a, b) = if PassesBelow (a, b) q then 1 else 0 := by
  have h' : (a.1 : ℚ) < b.1 := by exact_mod_cast h
  by_cases hh : PassesBelow (a, b) q
  · rw [if_pos hh]; exact if_pos hh
  · rw [if_neg hh]; refine (if_neg hh).trans (if_neg ?_)
    rintro ⟨h1, h2, -⟩; dsimp only at h1 h2; linarith

theorem crossing_vert {a b : Pt} (h : a.1 = b.1) (q : ℚ × ℚ) : crossing q (a, b) = 0 := by
  have h' : (a.1 : ℚ) = b.1 := by exact_mod_cast h
  refine (if_neg ?_).trans (if_neg ?_)
  all_goals (rintro ⟨h1, h2, -⟩; dsimp only at h1 h2; linarith)

theorem not_passes_vert {a b : Pt} (h : a.1 = b.1) (q : ℚ × ℚ) : ¬ PassesBelow (a, b) q := by
  have h' : (a.1 : ℚ) = b.1 := by exact_mod_cast h
  rintro ⟨h1, h2, -⟩; dsimp only at h1 h2; linarith

theorem store_depth (p0 p1 : Pt) (w : Int) (q : ℚ × ℚ) :
    depth [store ((p0, p1), (if p0.1 = p1.1 then -1 else 1) * w)] q = w * crossing q (p0, p1) := by
  unfold store
  simp only [Spec.Arb.depth, List.map_cons, List.map_nil, List.sum_cons, List.sum_nil, add_zero]
  by_cases c : lessPoint p1 p0 = true
  · rw [if_pos c]; rw [lessPoint_iff] at c
    dsimp only
    by_cases hx : p0.1 = p1.1
    · rw [crossing_vert hx, if_neg (not_passes_vert hx.symm q)]; simp
    · have hlt : p1.1 < p0.1 := by omega
      have := crossing_swap q (p1, p0)
      rw [Prod.swap_prod_mk] at this
      rw [this, crossing_lt hlt, if_neg hx]
      split_ifs <;> ring
  · rw [if_neg c]; rw [lessPoint_iff] at c
    dsimp only
    by_cases hx : p0.1 = p1.1
    · rw [crossing_vert hx, if_neg (not_passes_vert hx q)]; simp
    · have hlt : p0.1 < p1.1 := by omega
      rw [crossing_lt hlt, if_neg hx]
      split_ifs <;> ring

/-- The signed count carried along an edge of a polygon. -/
def flow (w : Int) (e : Edge) (v : Pt) : Int := w * ((if e.2 = v then 1 else 0) - (if e.1 = v then 1 else 0))

theorem insertClean_false (D : Data) (e : HE × Int) : insertClean D e false = D ++ [store e] := rfl

theorem crossing_self (q : ℚ × ℚ) (p : Pt) : crossing q (p, p) = 0 := by
  unfold crossing; dsimp only
  rw [if_neg, if_neg]
  all_goals (rintro ⟨h1, h2, -⟩; linarith)

structure Adds (D D' : Data) (E : List Edge) (w : Int) : Prop where
  depth : ∀ q, depth D' q = depth D q + w * (E.map (crossing q)).sum
  flow : ∀ v, (D'.map (fun e => inflow e v)).sum = (D.map (fun e => inflow e v)).sum + (E.map (fun e => flow w e v)).sum
  dir : (∀ e ∈ D, Directed e.1) → ∀ e ∈ D', Directed e.1
  mem : ∀ e ∈ D', e ∈ D ∨ e.1 ∈ E ∨ e.1.swap ∈ E

theorem insertEdge_adds (w : Int) (D : Data) (p0 p1 : Pt) : Adds D (insertEdge w D p0 p1) [(p0, p1)] w := by
  unfold insertEdge
  by_cases h : p0 = p1
  · subst h; rw [if_neg (by simp)]
    refine ⟨fun q => ?_, fun v => ?_, fun h => h, fun e he => Or.inl he⟩
    · simp [crossing_self]
    · simp [PolySet.flow]
  · rw [if_pos h, insertClean_false]
    refine ⟨fun q => ?_, fun v => ?_, fun hD e he => ?_, fun e he => ?_⟩
    · rw [depth_append, store_depth]; simp
    · rw [List.map_append, List.sum_append, List.map_singleton, List.sum_singleton, store_inflow]
      simp only [inflow, PolySet.flow, List.map_cons, List.map_nil, List.sum_cons, List.sum_nil, add_zero]
      congr 2
      split_ifs <;> ring
    · rcases List.mem_append.1 he with h1 | h1
      · exact hD e h1
      · rw [List.mem_singleton.1 h1]; exact store_directed h
    · rcases List.mem_append.1 he with h1 | h1
      · exact Or.inl h1
      · rw [List.mem_singleton.1 h1]; unfold store; right
        by_cases c : lessPoint p1 p0 = true
        · right; rw [if_pos c]; simp
        · left; rw [if_neg c]; simp

theorem Adds.trans {D D' D'' : Data} {E F : List Edge} {w : Int} (h : Adds D D' E w) (h' : Adds D' D'' F w) : Adds D D'' (E ++ F) w := by
  refine ⟨fun q => ?_, fun v => ?_, fun hD => h'.dir (h.dir hD), fun e he => ?_⟩
  · rw [h'.depth, h.depth, List.map_append, List.sum_append]; ring
  · rw [h'.flow, h.flow, List.map_append, List.sum_append]; ring
  · rcases h'.mem e he with g | g | g
    · rcases h.mem e g with g | g | g
      · exact Or.inl g
      · exact Or.inr (Or.inl (List.mem_append_left _ g))
      · exact Or.inr (Or.inr (List.mem_append_left _ g))
    · exact Or.inr (Or.inl (List.mem_append_right _ g))
    · exact Or.inr (Or.inr (List.mem_append_right _ g))

theorem seqGo_adds (w : Int) (first : Pt) : ∀ (r : List Pt) (D : Data) (p : Pt),
    Adds D (seqGo w first D p r) ((p :: r).zip (r ++ [first])) w
  | [], D, p => by
    show Adds D (insertEdge w D p first) [(p, first)] w
    exact insertEdge_adds w D p first
  | s :: r, D, p => by
    show Adds D (seqGo w first (insertEdge w D p s) s r) ((p, s) :: (s :: r).zip (r ++ [first])) w
    exact (insertEdge_adds w D p s).trans (seqGo_adds w first r _ s)

theorem flow_perm_sum {w : Int} {E : List Edge} (P Q : List Pt) (hE : E = P.zip Q) (hl : P.length = Q.length) (hp : P.Perm Q) (v : Pt) :
    (E.map (fun e => flow w e v)).sum = 0 := by
  have key : ∀ (P Q : List Pt), P.length = Q.length → ((P.zip Q).map (fun e => flow w e v)).sum =
      w * ((Q.map (fun a => if a = v then (1 : Int) else 0)).sum - (P.map (fun a => if a = v then (1 : Int) else 0)).sum) := by
    intro P
    induction P with
    | nil => intro Q h; have : Q = [] := by simpa using h.symm
             subst this; simp
    | cons a P ih =>
      intro Q h
      cases Q with
      | nil => simp at h
      | cons b Q =>
        simp only [List.zip_cons_cons, List.map_cons, List.sum_cons]
        rw [ih Q (by simpa using h)]
        unfold flow; dsimp only; ring
  rw [hE, key P Q hl, (hp.map _).sum_eq]; ring

theorem insertSeq_adds (D : Data) (P : List Pt) (wd : Nat) (hole : Bool) :
    Adds D (insertSeq D P wd hole) (edges P) ((if hole then -1 else 1) * (if wd = HIGH then 1 else -1)) := by
  match P with
  | [] =>
    refine ⟨fun q => ?_, fun v => ?_, fun h => h, fun e he => Or.inl he⟩ <;> simp [insertSeq, edges]
  | [p] =>
    refine ⟨fun q => ?_, fun v => ?_, fun h => h, fun e he => Or.inl he⟩
    · simp [insertSeq, edges, crossing_self]
    · simp [insertSeq, edges, flow]
  | p :: s :: r =>
    have h := seqGo_adds (if hole then -(if wd = HIGH then 1 else -1) else (if wd = HIGH then 1 else -1)) p (s :: r) D p
    have e1 : ((if hole then -1 else 1) * (if wd = HIGH then 1 else -1) : Int) =
        (if hole then -(if wd = HIGH then 1 else -1) else (if wd = HIGH then 1 else -1)) := by
      cases hole <;> split_ifs <;> simp_all
    rw [e1]
    have e2 : edges (p :: s :: r) = (p :: s :: r).zip (s :: r ++ [p]) := by
      unfold edges; congr 1
    rw [e2]; exact h

theorem edges_flow (w : Int) (P : List Pt) (v : Pt) : ((edges P).map (fun e => flow w e v)).sum = 0 :=
  flow_perm_sum P (P.rotate 1) rfl (by simp) (List.rotate_perm P 1).symm v

theorem winding_high (P : List Pt) : (windingQ P = HIGH ↔ 0 < shoelace P) := by
  have h1 := two_areaQ P
  have : areaQ P < 0 ↔ 0 < shoelace P := by
    rw [← Int.cast_pos (R := ℚ)]; constructor <;> intro <;> linarith
  rw [windingQ, ← this]; split_ifs with h <;> simp [h, HIGH, LOW]

structure PAdds (D D' : Data) (F : ℚ × ℚ → Int) : Prop where
  depth : ∀ q, Spec.Arb.depth D' q = Spec.Arb.depth D q + F q
  closed : Closed D → Closed D'
  dir : (∀ e ∈ D, Directed e.1) → ∀ e ∈ D', Directed e.1

theorem insertPoly_adds (D : Data) (P : List Pt) (hole : Bool) :
    PAdds D (insertPoly D P hole) (fun q => (if hole then -1 else 1) * (orient P * windAt P q)) := by
  have h := insertSeq_adds D P (windingQ P) hole
  refine ⟨fun q => ?_, fun hC v => ?_, h.dir⟩
  · show Spec.Arb.depth (insertSeq D P (windingQ P) hole) q = _
    rw [h.depth]
    have : (if windingQ P = HIGH then (1 : Int) else -1) = orient P := by
      unfold orient
      by_cases c : windingQ P = HIGH
      · rw [if_pos c, if_pos ((winding_high P).1 c)]
      · rw [if_neg c, if_neg (fun hh => c ((winding_high P).2 hh))]
    rw [this]; unfold windAt; ring
  · show (((insertSeq D P (windingQ P) hole)).map _).sum = 0
    rw [h.flow, hC v, edges_flow]; rfl

theorem PAdds.trans {D D' D'' : Data} {F G : ℚ × ℚ → Int} (h : PAdds D D' F) (h' : PAdds D' D'' G) : PAdds D D'' (fun q => F q + G q) :=
  ⟨fun q => by rw [h'.depth, h.depth]; ring, fun hc => h'.closed (h.closed hc), fun hd => h'.dir (h.dir hd)⟩

theorem foldPoly_adds (hole : Bool) : ∀ (H : List (List Pt)) (D : Data),
    PAdds D (H.foldl (fun D h => insertPoly D h hole) D) (fun q => (if hole then -1 else 1) * (H.map (fun h => orient h * windAt h q)).sum)
  | [], D => ⟨fun q => by simp, fun h => h, fun h => h⟩
  | P :: H, D => by
    have h := (insertPoly_adds D P hole).trans (foldPoly_adds hole H (insertPoly D P hole))
    refine ⟨fun q => ?_, h.closed, h.dir⟩
    show Spec.Arb.depth _ q = _
    rw [List.foldl_cons, h.depth, List.map_cons, List.sum_cons]; ring

theorem insertHoles_adds (D : Data) (P : List Pt) (H : List (List Pt)) (hole : Bool) :
    PAdds D (insertHoles D P H hole) (fun q => (if hole then -1 else 1) * objDepth P H q) := by
  have h := (insertPoly_adds D P hole).trans (foldPoly_adds (!hole) H (insertPoly D P hole))
  refine ⟨fun q => ?_, h.closed, h.dir⟩
  show Spec.Arb.depth (H.foldl (fun D h => insertPoly D h (!hole)) (insertPoly D P hole)) q = _
  rw [h.depth, objDepth]; cases hole <;> simp <;> ring

theorem insertSet_adds (hole : Bool) : ∀ (S D : Data), (∀ e ∈ S, Directed e.1) →
    insertSet D S hole = D ++ S.map (fun e => (e.1, (if hole then -1 else 1) * e.2))
  | [], D, _ => by simp [insertSet]
  | e :: S, D, h => by
    have h1 : insertClean D e hole = D ++ [(e.1, (if hole then -1 else 1) * e.2)] := by
      unfold insertClean
      have hd := h e (List.mem_cons_self ..)
      rw [if_neg]
      · cases hole <;> simp
      · rw [lessPoint_iff]; unfold Spec.Arb.Directed at hd; omega
    show insertSet (insertClean D e hole) S hole = _
    rw [h1, insertSet_adds hole S _ (fun a ha => h a (List.mem_cons_of_mem _ ha))]
    simp

theorem set_depth (c : Int) (S : Data) (q : ℚ × ℚ) : depth (S.map (fun e => (e.1, c * e.2))) q = c * depth S q := by
  induction S with
  | nil => simp [Spec.Arb.depth]
  | cons e S ih =>
    simp only [Spec.Arb.depth, List.map_cons, List.sum_cons] at ih ⊢
    rw [ih]; split_ifs <;> ring

theorem set_flow (c : Int) (S : Data) (v : Pt) : ((S.map (fun e => (e.1, c * e.2))).map (fun e => inflow e v)).sum = c * (S.map (fun e => inflow e v)).sum := by
  induction S with
  | nil => simp
  | cons e S ih =>
    simp only [List.map_cons, List.sum_cons] at ih ⊢
    rw [ih]; unfold inflow; dsimp only; split_ifs <;> ring

theorem windAt_rotate (P : List Pt) (k : Nat) (q : ℚ × ℚ) : windAt (P.rotate k) q = windAt P q :=
  ((edges_rotate P k).map _).sum_eq

theorem windAt_reverse (P : List Pt) (q : ℚ × ℚ) : windAt P.reverse q = - windAt P q := by
  unfold windAt
  rw [((edges_reverse P).map _).sum_eq, List.map_map]
  induction edges P with
  | nil => rfl
  | cons e E ih =>
    simp only [List.map_cons, List.sum_cons, Function.comp] at ih ⊢
    rw [ih, crossing_swap]; ring

theorem shoelace_rot (P : List Pt) (k : Nat) : shoelace (P.rotate k) = shoelace P := ((edges_rotate P k).map _).sum_eq

/-- What an edge carries. -/
def carry (e : Edge × Int) : Int := if e.1.1.1 = e.1.2.1 then -e.2 else e.2

theorem inflow_carry (e : Edge × Int) (v : Pt) : inflow e v = carry e * ((if e.1.2 = v then 1 else 0) - (if e.1.1 = v then 1 else 0)) := rfl

/-- Along closed curves every function of the points sums to nothing. -/
theorem closed_test {D : Data} (h : Closed D) (g : Pt → Int) : (D.map (fun e => carry e * (g e.1.2 - g e.1.1))).sum = 0 := by
  classical
  let S : Finset Pt := (D.map (fun e => e.1.1) ++ D.map (fun e => e.1.2)).toFinset
  have key : ∀ D' : Data, (∀ e ∈ D', e.1.1 ∈ S ∧ e.1.2 ∈ S) →
      (D'.map (fun e => carry e * (g e.1.2 - g e.1.1))).sum = ∑ u ∈ S, g u * (D'.map (fun e => inflow e u)).sum := by
    intro D'
    induction D' with
    | nil => intro _; simp
    | cons e r ih =>
      intro hm
      simp only [List.map_cons, List.sum_cons]
      rw [ih (fun a ha => hm a (List.mem_cons_of_mem _ ha))]
      simp only [mul_add, Finset.sum_add_distrib]
      congr 1
      have he := hm e (List.mem_cons_self ..)
      have : ∀ u ∈ S, g u * inflow e u = carry e * ((if e.1.2 = u then g u else 0) - (if e.1.1 = u then g u else 0)) := by
        intro u _; rw [inflow_carry]; split_ifs <;> ring
      rw [Finset.sum_congr rfl this, ← Finset.mul_sum, Finset.sum_sub_distrib, Finset.sum_ite_eq, Finset.sum_ite_eq, if_pos he.2, if_pos he.1]
  rw [key D]
  · exact Finset.sum_eq_zero (fun u _ => by rw [h u, mul_zero])
  · intro e he
    simp only [S, List.mem_toFinset, List.mem_append, List.mem_map]
    exact ⟨Or.inl ⟨e, he, rfl⟩, Or.inr ⟨e, he, rfl⟩⟩

theorem scaleDown_closed (f : Int → Int) {D : Data} (h : Closed D) : Closed (scaleDown f D) := by
  intro v
  have := closed_test h (fun p => if ((f p.1, f p.2) : Pt) = v then 1 else 0)
  rw [scaleDown, List.map_map]
  refine Eq.trans ?_ this
  congr 1
  apply List.map_congr_left
  intro e _
  simp only [Function.comp]
  rw [inflow_carry]
  unfold carry
  by_cases h1 : e.1.1.1 = e.1.2.1
  · simp [h1]
  · by_cases h2 : f e.1.1.1 = f e.1.2.1
    · simp [h1, h2]
    · simp [h1, h2]

theorem passes_scale {k : Int} (hk : 0 < k) (e : Edge) (q : ℚ × ℚ) :
    PassesBelow ((e.1.1 * k, e.1.2 * k), (e.2.1 * k, e.2.2 * k)) (q.1 * k, q.2 * k) ↔ PassesBelow e q := by
  have hk' : (0 : ℚ) < k := by exact_mod_cast hk
  unfold PassesBelow lineY
  push_cast
  rw [mul_le_mul_iff_left₀ hk', mul_lt_mul_iff_left₀ hk']
  refine and_congr Iff.rfl (and_congr_right fun h => ?_)
  have : ((e.1.2 : ℚ) * k + (e.2.2 * k - e.1.2 * k) * (q.1 * k - e.1.1 * k) / (e.2.1 * k - e.1.1 * k)) =
      (e.1.2 + (e.2.2 - e.1.2) * (q.1 - e.1.1) / (e.2.1 - e.1.1)) * k := by
    by_cases hz : (e.2.1 : ℚ) - e.1.1 = 0
    · rw [hz, show (e.2.1 : ℚ) * k - e.1.1 * k = (e.2.1 - e.1.1) * k by ring, hz]; simp
    · have : (e.2.1 : ℚ) * k - e.1.1 * k ≠ 0 := by
        rw [← sub_mul]; exact mul_ne_zero hz hk'.ne'
      field_simp
  rw [this, mul_le_mul_iff_left₀ hk']

theorem downcast_iff : ∀ (D : Data) (b : Bool), (∀ e ∈ D, e.1.1 ≠ e.1.2) →
    downcastGo b D = if D.all (fun e => decide (|e.1.2.1 - e.1.1.1| = |e.1.2.2 - e.1.1.2|)) then (if b ∨ D ≠ [] then 2 else 1) else 3
  | [], b, _ => by cases b <;> rfl
  | e :: r, b, h => by
    unfold downcastGo
    have he := h e (List.mem_cons_self ..)
    have hne : ¬ (e.1.1.1 = e.1.2.1 ∧ e.1.1.2 = e.1.2.2) := fun hc => he (Prod.ext hc.1 hc.2)
    have ih := downcast_iff r true (fun a ha => h a (List.mem_cons_of_mem _ ha))
    have a1 : absZ (e.1.1.1 - e.1.2.1) = |e.1.2.1 - e.1.1.1| := by rw [absZ_eq, abs_sub_comm]
    have a2 : absZ (e.1.1.2 - e.1.2.2) = |e.1.2.2 - e.1.1.2| := by rw [absZ_eq, abs_sub_comm]
    simp only [a1, a2]
    have c1 : |e.1.2.1 - e.1.1.1| ≠ 0 ∨ |e.1.2.2 - e.1.1.2| ≠ 0 := by
      rw [ne_eq, ne_eq, abs_eq_zero, abs_eq_zero]; omega
    rw [if_pos c1]
    have p1 := abs_nonneg (e.1.2.1 - e.1.1.1)
    have p2 := abs_nonneg (e.1.2.2 - e.1.1.2)
    by_cases c2 : |e.1.2.1 - e.1.1.1| = |e.1.2.2 - e.1.1.2|
    · rw [if_neg (fun hc => hc.1 c2.symm), ih, List.all_cons, decide_eq_true c2, Bool.true_and]; simp
    · rw [if_pos ⟨Ne.symm c2, by omega⟩, List.all_cons, decide_eq_false c2, Bool.false_and]; simp

end Verif.PolySet
