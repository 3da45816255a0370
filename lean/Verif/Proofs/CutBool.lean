import Verif.Proofs.CutManhattan
import Verif.Properties.Arb
import Verif.Properties.PolySet
/-! The Boolean operation on inputs whose cutting is exact. -/
namespace Verif.Cut
open Verif Verif.Arb Verif.Contains Verif.PolySet Verif.Spec Verif.Spec.Arb

theorem layer_tag (A B : Data) : layer (tag 0 A ++ tag 1 B) 0 = A ∧ layer (tag 0 A ++ tag 1 B) 1 = B := by
  have h : ∀ (k j : Int) (D : Data), layer (tag k D) j = if k = j then D else [] := by
    intro k j D
    unfold layer tag
    induction D with
    | nil => simp
    | cons a r ih =>
      by_cases c : k = j
      · subst c
        simp only [List.map_cons, List.filter_cons, beq_self_eq_true, if_true] at ih ⊢
        rw [ih]
      · simp only [List.map_cons, List.filter_cons, if_neg c, beq_iff_eq] at ih ⊢
        exact ih
  have happ : ∀ (A B : List Ev) k, layer (A ++ B) k = layer A k ++ layer B k := by
    intro A B k; unfold layer; rw [List.filter_append, List.map_append]
  constructor
  · rw [happ, h, h]; simp
  · rw [happ, h, h]; simp

theorem tag_edges (A B : Data) : (tag 0 A ++ tag 1 B).map Prod.fst = (A ++ B).map Prod.fst := by
  unfold tag; simp [List.map_append, List.map_map, Function.comp_def]

theorem node_junction {fp : FP} {umin : Int} {E : List HE} (h : Exact fp umin E) {p : Pt} (hp : Node fp E p) : Junction E p := by
  rcases hp with hp | ⟨a, ha, b, hb, hp⟩
  · exact Or.inl hp
  · obtain ⟨h1, h2, h3, _⟩ := h.int a ha b hb p hp
    exact Or.inr ⟨a, ha, b, hb, by rw [parallel_iff]; exact h3, h1, h2⟩

/-- The pieces of an exact cut. -/
theorem cut_part {fp : FP} {umin : Int} {E : List Ev} (h : Exact fp umin (E.map Prod.fst)) {e : Ev} (he : e ∈ cut fp umin E) :
    PartOf (E.map Prod.fst) e.1 ∧ ∃ ev ∈ E, e.2 = ev.2 := by
  obtain ⟨j, ev, h1, h2, h3⟩ := cut_piece h he
  obtain ⟨hd, hok, ho⟩ := exact_ok h h1
  obtain ⟨d, e1, e2⟩ := chain_dir hok.srt h2
  have n1 := (exact_cut h h1 _).1 e1
  have n2 := (exact_cut h h1 _).1 e2
  refine ⟨⟨d, node_junction h n1.1, node_junction h n2.1, ev.1, List.mem_map.2 ⟨ev, List.mem_of_getElem? h1, rfl⟩, n1.2, n2.2⟩,
    ev, List.mem_of_getElem? h1, h3⟩

/-- What `execute` does when cutting is exact. -/
theorem execute_exact {fp : FP} {umin : Int} (umax : Int) (op : Nat) {A B : Data} (h : Exact fp umin ((A ++ B).map Prod.fst)) (hA : Closed A) (hB : Closed B) :
    ∃ out, execute fp op umin umax A B = some out ∧
      (∀ q, depth out q = if inResult op (depth A q > 0) (depth B q > 0) then 1 else 0) ∧
      (∀ a ∈ out, PartOf ((A ++ B).map Prod.fst) a.1 ∧ (a.2 = 1 ∨ a.2 = -1)) ∧
      (out.map Prod.fst).Nodup ∧ Planar (out.map Prod.fst) ∧ Closed out ∧
      (out = [] ↔ ∀ q, ¬ inResult op (depth A q > 0) (depth B q > 0)) := by
  obtain ⟨l0, l1⟩ := layer_tag A B
  unfold execute
  dsimp only
  by_cases hem : (tag 0 A ++ tag 1 B).isEmpty = true
  · rw [if_pos hem]
    rw [List.isEmpty_iff, List.append_eq_nil_iff] at hem
    have a0 : A = [] := by cases A with | nil => rfl | cons => simp [tag] at hem
    have b0 : B = [] := by cases B with | nil => rfl | cons => simp [tag] at hem
    subst a0; subst b0
    have hn : ∀ q, ¬ inResult op (depth [] q > 0) (depth [] q > 0) := by
      intro q
      have : ¬ depth [] q > 0 := by unfold Spec.Arb.depth; simp
      unfold inResult; split <;> tauto
    refine ⟨[], rfl, fun q => ?_, by simp, by simp, by intro e he; simp at he, hA, by simpa using hn⟩
    rw [if_neg (hn q)]; rfl
  · rw [if_neg hem]
    generalize hE : tag 0 A ++ tag 1 B = E at *
    have hex : Exact fp umin (E.map Prod.fst) := by rw [← hE, tag_edges]; exact h
    have hd : ∀ e ∈ cut fp umin E, Directed e.1 := fun e he => (cut_part hex he).1.1
    have hk : ∀ e ∈ cut fp umin E, e.2.1 = 0 ∨ e.2.1 = 1 := by
      intro e he
      obtain ⟨ev, h1, h2⟩ := (cut_part hex he).2
      rw [h2]
      rw [← hE, List.mem_append] at h1
      unfold tag at h1
      rcases h1 with h1 | h1
      · obtain ⟨a, _, rfl⟩ := List.mem_map.1 h1; left; rfl
      · obtain ⟨a, _, rfl⟩ := List.mem_map.1 h1; right; rfl
    have hflow : ∀ k v, ((layer (cut fp umin E) k).map (fun e => inflow e v)).sum = ((layer E k).map (fun e => inflow e v)).sum :=
      cutGo_flow _ E 0 (fun j ev hj => (exact_ok hex hj).2.1)
    have hC : ∀ k, Closed (layer (cut fp umin E) k) := by
      intro k
      by_cases h0 : k = 0
      · subst h0; intro v; rw [hflow, l0]; exact hA v
      by_cases h1 : k = 1
      · subst h1; intro v; rw [hflow, l1]; exact hB v
      · rw [layer_none hk h0 h1]; intro v; rfl
    have hP := exact_planar hex
    have hs := Properties.Arb.C68_sort _ hd
    obtain ⟨out, o1, o2⟩ := Properties.Arb.C68_boolean_region op umin umax _ _ hd hP hC hk hs.2.2.2.1 hs.2.2.2.2
    obtain ⟨out', p1, p2, p3, p4, p5⟩ := Properties.Arb.C69_boolean_canonical op umin umax _ _ hd hP hC hk hs.2.2.2.1 hs.2.2.2.2
    have p6 := Properties.Arb.C70_empty_iff op umin umax _ _ hd hP hC hk hs.2.2.2.1 hs.2.2.2.2
    rw [o1] at p1 p6
    obtain rfl := Option.some_inj.1 p1
    have hdep : ∀ k q, depth (layer (cut fp umin E) k) q = depth (layer E k) q := fun k q => cutGo_depth _ q E 0 (fun j ev hj => exact_ok hex hj) k
    simp only [hdep, l0, l1] at o2 p6
    refine ⟨out, o1, o2, fun a ha => ⟨?_, (p2 a ha).2⟩, p3, p4, p5, by rw [← p6, Option.some_inj]⟩
    obtain ⟨e, he, h2⟩ := List.mem_map.1 (p2 a ha).1
    have := (cut_part hex he).1
    rw [h2, ← hE, tag_edges] at this
    exact this

/-! ### Parts of edges -/

theorem part_parallel {a e : HE} (ha : Directed a) (he : Directed e) (h1 : OnEdge a (cq e.1)) (h2 : OnEdge a (cq e.2)) : cr a e = 0 := by
  have d1 := ((on_iff ha _).1 h1).2
  have d2 := ((on_iff ha _).1 h2).2
  unfold det at d1 d2; unfold cr; linarith

theorem par_trans {a b c : HE} (hb : Directed b) (h1 : cr a b = 0) (h2 : cr b c = 0) : cr a c = 0 := by
  unfold cr at *; unfold Spec.Arb.Directed at hb
  have hne : b.2.1 - b.1.1 ≠ 0 ∨ b.2.2 - b.1.2 ≠ 0 := by omega
  generalize a.2.1 - a.1.1 = ax at *; generalize a.2.2 - a.1.2 = ay at *
  generalize b.2.1 - b.1.1 = bx at *; generalize b.2.2 - b.1.2 = b_y at *
  generalize c.2.1 - c.1.1 = cx at *; generalize c.2.2 - c.1.2 = cy at *
  rcases hne with h | h
  · have : bx * (ax * cy - cx * ay) = 0 := by linear_combination ax * h2 + cx * h1
    exact (mul_eq_zero.1 this).resolve_left h
  · have : b_y * (ax * cy - cx * ay) = 0 := by linear_combination ay * h2 + cy * h1
    exact (mul_eq_zero.1 this).resolve_left h

theorem part_cr {a b e f : HE} (ha : Directed a) (hb : Directed b) (he : Directed e) (hf : Directed f)
    (a1 : OnEdge a (cq e.1)) (a2 : OnEdge a (cq e.2)) (b1 : OnEdge b (cq f.1)) (b2 : OnEdge b (cq f.2)) (h : cr e f ≠ 0) : cr a b ≠ 0 := by
  intro hc
  apply h
  refine par_trans ha (c := f) (by rw [cr_symm, part_parallel ha he a1 a2]; rfl) ?_
  exact par_trans hb hc (part_parallel hb hf b1 b2)

theorem junction_part {E F : List HE} (hd : ∀ a ∈ E, Directed a) (hF : ∀ e ∈ F, PartOf E e) {p : Pt} (h : Junction F p) : Junction E p := by
  rcases h with ⟨e, he, h⟩ | ⟨e, he, f, hf, hc, q1, q2⟩
  · obtain ⟨_, k1, k2, _⟩ := hF e he
    rcases h with rfl | rfl
    · exact k1
    · exact k2
  · obtain ⟨de, _, _, a, ha, a1, a2⟩ := hF e he
    obtain ⟨df, _, _, b, hb, b1, b2⟩ := hF f hf
    rw [parallel_iff] at hc
    exact Or.inr ⟨a, ha, b, hb, by rw [parallel_iff]; exact part_cr (hd a ha) (hd b hb) de df a1 a2 b1 b2 hc,
      sub_onEdge (hd a ha) de a1 a2 q1, sub_onEdge (hd b hb) df b1 b2 q2⟩

theorem part_trans {E F : List HE} (hd : ∀ a ∈ E, Directed a) (hF : ∀ e ∈ F, PartOf E e) {g : HE} (h : PartOf F g) : PartOf E g := by
  obtain ⟨h1, h2, h3, e, he, h4, h5⟩ := h
  obtain ⟨de, _, _, a, ha, a1, a2⟩ := hF e he
  exact ⟨h1, junction_part hd hF h2, junction_part hd hF h3, a, ha, sub_onEdge (hd a ha) de a1 a2 h4, sub_onEdge (hd a ha) de a1 a2 h5⟩

theorem part_refl {E : List HE} (hd : ∀ a ∈ E, Directed a) {e : HE} (he : e ∈ E) : PartOf E e :=
  ⟨hd e he, Or.inl ⟨e, he, Or.inl rfl⟩, Or.inl ⟨e, he, Or.inr rfl⟩, e, he, onEdge_fst e, onEdge_snd e⟩

theorem part_low {E F : List HE} (hd : ∀ a ∈ E, Directed a) (hF : ∀ e ∈ F, PartOf E e) {umin : Int} (hl : ∀ a ∈ E, umin ≤ min a.1.2 a.2.2) :
    ∀ e ∈ F, umin ≤ min e.1.2 e.2.2 := by
  intro e he
  obtain ⟨_, _, _, a, ha, a1, a2⟩ := hF e he
  have k1 := ((on_iff (hd a ha) _).1 a1).1
  have k2 := ((on_iff (hd a ha) _).1 a2).1
  rw [inBox_iff] at k1 k2
  have := hl a ha
  omega

theorem part_manhattan {E F : List HE} (hd : ∀ a ∈ E, Directed a) (hF : ∀ e ∈ F, PartOf E e) (h : Manhattan E) : Manhattan F := by
  intro e he
  obtain ⟨_, _, _, a, ha, a1, a2⟩ := hF e he
  have k1 := ((on_iff (hd a ha) _).1 a1).1
  have k2 := ((on_iff (hd a ha) _).1 a2).1
  rw [inBox_iff] at k1 k2
  have := h a ha
  omega

/-- Between two points of a segment. -/
theorem lle_between {x y z : ℚ × ℚ} {e : HE} (he : Directed e) (hx : dq x e = 0) (hy : dq y e = 0) (hz : dq z e = 0) (h1 : lle x y) (h2 : lle y z) :
    (min x.1 z.1 ≤ y.1 ∧ y.1 ≤ max x.1 z.1) ∧ (min x.2 z.2 ≤ y.2 ∧ y.2 ≤ max x.2 z.2) := by
  have hxle : x.1 ≤ y.1 ∧ y.1 ≤ z.1 := by
    unfold lle at h1 h2
    constructor
    · rcases h1 with h | h
      · exact h.le
      · exact h.1.le
    · rcases h2 with h | h
      · exact h.le
      · exact h.1.le
  refine ⟨⟨le_trans (min_le_left _ _) hxle.1, le_trans hxle.2 (le_max_right _ _)⟩, ?_⟩
  unfold Spec.Arb.Directed at he
  unfold dq at hx hy hz
  by_cases c : e.1.1 < e.2.1
  · have hp : (0 : ℚ) < (e.2.1 : ℚ) - e.1.1 := by
      have : (e.1.1 : ℚ) < e.2.1 := by exact_mod_cast c
      linarith
    generalize (e.2.1 : ℚ) - e.1.1 = dx at *
    generalize (e.2.2 : ℚ) - e.1.2 = dy at *
    have k1 : (y.2 - x.2) * dx = dy * (y.1 - x.1) := by linarith
    have k2 : (z.2 - y.2) * dx = dy * (z.1 - y.1) := by linarith
    rcases le_total 0 dy with g | g
    · have m1 : 0 ≤ y.2 - x.2 := by
        have : 0 ≤ (y.2 - x.2) * dx := by rw [k1]; exact mul_nonneg g (by linarith)
        exact nonneg_of_mul_nonneg_left this hp
      have m2 : 0 ≤ z.2 - y.2 := by
        have : 0 ≤ (z.2 - y.2) * dx := by rw [k2]; exact mul_nonneg g (by linarith)
        exact nonneg_of_mul_nonneg_left this hp
      exact ⟨le_trans (min_le_left _ _) (by linarith), le_trans (by linarith) (le_max_right _ _)⟩
    · have m1 : 0 ≤ x.2 - y.2 := by
        have : 0 ≤ (x.2 - y.2) * dx := by
          have : (x.2 - y.2) * dx = (-dy) * (y.1 - x.1) := by linarith
          rw [this]; exact mul_nonneg (by linarith) (by linarith)
        exact nonneg_of_mul_nonneg_left this hp
      have m2 : 0 ≤ y.2 - z.2 := by
        have : 0 ≤ (y.2 - z.2) * dx := by
          have : (y.2 - z.2) * dx = (-dy) * (z.1 - y.1) := by linarith
          rw [this]; exact mul_nonneg (by linarith) (by linarith)
        exact nonneg_of_mul_nonneg_left this hp
      exact ⟨le_trans (min_le_right _ _) (by linarith), le_trans (by linarith) (le_max_left _ _)⟩
  · have hv : e.1.1 = e.2.1 := by omega
    have hvq : (e.2.1 : ℚ) - e.1.1 = 0 := by rw [hv]; ring
    have hy0 : (e.2.2 : ℚ) - e.1.2 ≠ 0 := by
      have : e.2.2 - e.1.2 ≠ 0 := by omega
      exact_mod_cast this
    rw [hvq] at hx hy hz
    have ex : ∀ t : ℚ × ℚ, (t.2 - e.1.2) * 0 - ((e.2.2 : ℚ) - e.1.2) * (t.1 - e.1.1) = 0 → t.1 = e.1.1 := by
      intro t ht
      have : ((e.2.2 : ℚ) - e.1.2) * (t.1 - e.1.1) = 0 := by linarith
      have := (mul_eq_zero.1 this).resolve_left hy0
      linarith
    have e1 := ex x hx
    have e2 := ex y hy
    have e3 := ex z hz
    unfold lle at h1 h2
    rw [e1, e2] at h1; rw [e2, e3] at h2
    have m1 := (h1.resolve_left (_root_.lt_irrefl _)).2
    have m2 := (h2.resolve_left (_root_.lt_irrefl _)).2
    exact ⟨le_trans (min_le_left _ _) m1, le_trans m2 (le_max_right _ _)⟩

/-- A lattice point in the half-open unit square of another is that point. -/
theorem square_unique {p s : Pt} (h1 : (p.1 : ℚ) ≤ s.1) (h2 : (s.1 : ℚ) < p.1 + 1) (h3 : (p.2 : ℚ) ≤ s.2) (h4 : (s.2 : ℚ) < p.2 + 1) : s = p := by
  have a1 : p.1 ≤ s.1 := by exact_mod_cast h1
  have a2 : s.1 < p.1 + 1 := by exact_mod_cast h2
  have a3 : p.2 ≤ s.2 := by exact_mod_cast h3
  have a4 : s.2 < p.2 + 1 := by exact_mod_cast h4
  exact Prod.ext (by omega) (by omega)

theorem part_lattice {E F : List HE} (hd : ∀ a ∈ E, Directed a) (hF : ∀ e ∈ F, PartOf E e) (h : OnLattice E) : OnLattice F := by
  constructor
  · intro e he f hf hc q q1 q2
    obtain ⟨de, _, _, a, ha, a1, a2⟩ := hF e he
    obtain ⟨df, _, _, b, hb, b1, b2⟩ := hF f hf
    rw [parallel_iff] at hc
    exact h.1 a ha b hb (by rw [parallel_iff]; exact part_cr (hd a ha) (hd b hb) de df a1 a2 b1 b2 hc) q
      (sub_onEdge (hd a ha) de a1 a2 q1) (sub_onEdge (hd b hb) df b1 b2 q2)
  · intro p hp e he ⟨q, hq, x1, x2, y1, y2⟩
    obtain ⟨de, _, _, a, ha, a1, a2⟩ := hF e he
    have hqa := sub_onEdge (hd a ha) de a1 a2 hq
    have hpa : OnEdge a (cq p) := h.2 p (junction_part hd hF hp) a ha ⟨q, hqa, x1, x2, y1, y2⟩
    have hcr := part_parallel (hd a ha) de a1 a2
    have dp := ((onEdge_lex (hd a ha) _).1 hpa).1
    have d1 := ((onEdge_lex (hd a ha) _).1 a1).1
    have d2 := ((onEdge_lex (hd a ha) _).1 a2).1
    obtain ⟨_, l1, l2⟩ := (onEdge_lex de q).1 hq
    have dqa := ((onEdge_lex (hd a ha) _).1 hqa).1
    have hpe : dq (cq p) e = 0 := by
      refine line_same (hd a ha) (by rw [cr_symm, hcr]; rfl) (q := cq e.1) ?_ d1 dp
      unfold dq cq; dsimp only; ring
    show OnEdge e (cq p)
    rw [onEdge_lex de]
    refine ⟨hpe, ?_, ?_⟩
    · by_contra hn
      have hn' := (lle_total _ _).resolve_left hn
      obtain ⟨⟨k1, k2⟩, k3, k4⟩ := lle_between (hd a ha) dp d1 dqa hn' l1
      unfold cq at k1 k2 k3 k4; dsimp only [Spec.Arb.pt] at k1 k2 k3 k4
      rw [min_eq_left x1] at k1; rw [max_eq_right x1] at k2
      rw [min_eq_left y1] at k3; rw [max_eq_right y1] at k4
      have := square_unique k1 (lt_of_le_of_lt k2 x2) k3 (lt_of_le_of_lt k4 y2)
      apply hn; rw [this]; exact Or.inr ⟨rfl, le_refl _⟩
    · by_contra hn
      have hn' := (lle_total _ _).resolve_left hn
      obtain ⟨⟨k1, k2⟩, k3, k4⟩ := lle_between (hd a ha) dqa d2 dp l2 hn'
      unfold cq at k1 k2 k3 k4; dsimp only [Spec.Arb.pt] at k1 k2 k3 k4
      rw [min_eq_right x1] at k1; rw [max_eq_left x1] at k2
      rw [min_eq_right y1] at k3; rw [max_eq_left y1] at k4
      have := square_unique k1 (lt_of_le_of_lt k2 x2) k3 (lt_of_le_of_lt k4 y2)
      apply hn; rw [this]; exact Or.inr ⟨rfl, le_refl _⟩

/-! ### Expressions -/

/-- A class of inputs whose cutting is exact, closed under taking parts. -/
structure Kind (fp : FP) (umin : Int) (P : List HE → Prop) : Prop where
  dir : ∀ E, P E → ∀ a ∈ E, Directed a
  exact : ∀ E, P E → Exact fp umin E
  part : ∀ E F, P E → (∀ e ∈ F, PartOf E e) → P F

theorem insertSet_nil {S : Data} (hS : ∀ e ∈ S, Directed e.1) : insertSet [] S false = S := by
  rw [insertSet_adds false S [] hS]; simp

theorem expr_ok {fp : FP} {umin : Int} (umax : Int) {P : List HE → Prop} (hK : Kind fp umin P) {E : List HE} (hE : P E) : ∀ x : Expr,
    (∀ D ∈ x.sets, Closed D ∧ ∀ e ∈ D, e.1 ∈ E) →
    ∃ out, evalExpr fp umin umax x = some out ∧ (∀ q, depth out q > 0 ↔ x.Inside q) ∧ Closed out ∧ (∀ e ∈ out, PartOf E e.1)
  | .set D, h => by
    obtain ⟨h1, h2⟩ := h D (by simp [Expr.sets])
    exact ⟨D, rfl, fun q => Iff.rfl, h1, fun e he => part_refl (hK.dir E hE) (h2 e he)⟩
  | .op k l r, h => by
    obtain ⟨A, a1, a2, a3, a4⟩ := expr_ok umax hK hE l (fun D hD => h D (by simp [Expr.sets, hD]))
    obtain ⟨B, b1, b2, b3, b4⟩ := expr_ok umax hK hE r (fun D hD => h D (by simp [Expr.sets, hD]))
    have hall : ∀ e ∈ (A ++ B).map Prod.fst, PartOf E e := by
      intro e he
      obtain ⟨e', he', rfl⟩ := List.mem_map.1 he
      rcases List.mem_append.1 he' with g | g
      · exact a4 e' g
      · exact b4 e' g
    have hP := hK.part E _ hE hall
    obtain ⟨out, o1, o2, o3, o4, o5, o6, o7⟩ := execute_exact umax k (hK.exact _ hP) a3 b3
    refine ⟨out, ?_, ?_, o6, fun e he => part_trans (hK.dir E hE) hall (o3 e he).1⟩
    · show (do boolOp fp k umin umax (← evalExpr fp umin umax l) (← evalExpr fp umin umax r)) = _
      rw [a1, b1]
      show boolOp fp k umin umax A B = _
      unfold boolOp
      rw [insertSet_nil (fun e he => (a4 e he).1), insertSet_nil (fun e he => (b4 e he).1)]
      exact o1
    · intro q
      rw [o2 q]
      have : inResult k (depth A q > 0) (depth B q > 0) ↔ (Expr.op k l r).Inside q := by
        rw [show (Expr.op k l r).Inside q = inResult k (l.Inside q) (r.Inside q) from rfl]
        have h1 := a2 q; have h2 := b2 q
        unfold inResult; split <;> rw [h1, h2]
      rw [← this]
      split_ifs with c
      · simp [c]
      · simp [c]

theorem kind_manhattan (fp : FP) (umin : Int) : Kind fp umin (fun E => Manhattan E ∧ (∀ a ∈ E, Directed a) ∧ ∀ a ∈ E, umin ≤ min a.1.2 a.2.2) where
  dir := fun _ h => h.2.1
  exact := fun _ h => manhattan_exact fp h.1 h.2.1 h.2.2
  part := fun _ _ h hF => ⟨part_manhattan h.2.1 hF h.1, fun e he => (hF e he).1, part_low h.2.1 hF h.2.2⟩

theorem kind_lattice {fp : FP} (hfp : fp.Accurate) (umin : Int) : Kind fp umin (fun E => OnLattice E ∧ (∀ a ∈ E, Directed a) ∧ ∀ a ∈ E, umin ≤ min a.1.2 a.2.2) where
  dir := fun _ h => h.2.1
  exact := fun _ h => lattice_exact hfp h.1 h.2.1 h.2.2
  part := fun _ _ h hF => ⟨part_lattice h.2.1 hF h.1, fun e he => (hF e he).1, part_low h.2.1 hF h.2.2⟩

end Verif.Cut
