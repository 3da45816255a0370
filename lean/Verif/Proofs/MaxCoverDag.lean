import Verif.Model.MaxCover
import Verif.Proofs.RectForm
/-! The graph of `computeDag` joins exactly the tiles that abut (helper lemmas for C67). -/
namespace Verif.MaxCover
open Verif.RectForm Verif.Interval Verif.BooleanOp

/-- The cell `(x, y)`, `x` across and `y` along the scanline, lies in the rectangle. -/
def InSR (r : SR) (x y : Int) : Prop := r.pl ≤ x ∧ x < r.ph ∧ r.lo ≤ y ∧ y < r.hi

/-- What the scan of `form_rectangles` guarantees. -/
structure Tiling (cov : Int → Int → Prop) (rs : List SR) : Prop where
  pos : ∀ r ∈ rs, r.pl < r.ph ∧ r.lo < r.hi
  cover : ∀ x y, cov x y ↔ ∃ r ∈ rs, InSR r x y
  disj : ∀ a ∈ rs, ∀ b ∈ rs, ∀ x y, InSR a x y → InSR b x y → a = b
  slab : ∀ r ∈ rs, ∀ x, r.pl ≤ x → x < r.ph → ¬ cov x (r.lo - 1) ∧ ¬ cov x r.hi
  ord : rs.Pairwise Before

variable {cov : Int → Int → Prop} {rs : List SR}

theorem Tiling.gap (h : Tiling cov rs) {a b : SR} (ha : a ∈ rs) (hb : b ∈ rs) (hne : a ≠ b) {x : Int}
    (a1 : a.pl ≤ x) (a2 : x < a.ph) (b1 : b.pl ≤ x) (b2 : x < b.ph) : a.hi < b.lo ∨ b.hi < a.lo := by
  by_contra hc
  push Not at hc
  have pa := h.pos a ha
  have pb := h.pos b hb
  rcases le_total a.lo b.lo with hl | hl
  · rcases lt_or_eq_of_le hc.1 with h1 | h1
    · exact hne (h.disj a ha b hb x b.lo ⟨a1, a2, hl, h1⟩ ⟨b1, b2, le_refl _, pb.2⟩)
    · exact (h.slab a ha x a1 a2).2 ((h.cover x a.hi).2 ⟨b, hb, b1, b2, by omega, by omega⟩)
  · rcases lt_or_eq_of_le hc.2 with h1 | h1
    · exact hne (h.disj a ha b hb x a.lo ⟨a1, a2, le_refl _, pa.2⟩ ⟨b1, b2, hl, h1⟩)
    · exact (h.slab b hb x b1 b2).2 ((h.cover x b.hi).2 ⟨a, ha, a1, a2, by omega, by omega⟩)

/-! ### nodes -/

theorem nodes_rect (rs : List SR) : (nodes rs).map (·.rect) = rs := by
  unfold nodes
  rw [List.map_map]
  have : ((fun x => x.rect) ∘ fun p : SR × Nat => (⟨p.2, p.1⟩ : Nd)) = Prod.fst := rfl
  rw [this, List.zipIdx_map_fst]

theorem nodes_mem {n : Nd} (h : n ∈ nodes rs) : n.rect ∈ rs := by
  have : n.rect ∈ (nodes rs).map (·.rect) := List.mem_map.2 ⟨n, h, rfl⟩
  rwa [nodes_rect] at this

theorem nodes_of {r : SR} (h : r ∈ rs) : ∃ n ∈ nodes rs, n.rect = r := by
  rw [← nodes_rect rs] at h
  exact List.mem_map.1 h

theorem nodes_id {n n' : Nd} (h : n ∈ nodes rs) (h' : n' ∈ nodes rs) (e : n.id = n'.id) : n = n' := by
  unfold nodes at h h'
  obtain ⟨⟨r, i⟩, hp, rfl⟩ := List.mem_map.1 h
  obtain ⟨⟨r', i'⟩, hp', rfl⟩ := List.mem_map.1 h'
  rw [List.mem_zipIdx_iff_getElem?] at hp hp'
  simp only at e hp hp'
  subst e
  rw [hp] at hp'
  cases hp'
  rfl

theorem nodes_pair {R : SR → SR → Prop} (h : rs.Pairwise R) : (nodes rs).Pairwise (fun a b => R a.rect b.rect) := by
  rw [← nodes_rect rs] at h
  exact List.pairwise_map.1 h

theorem before_ne {a b : SR} (ha : a.lo < a.hi) (h : Before a b) : a ≠ b := by
  rintro rfl
  unfold Before at h
  omega

theorem Tiling.nodup (h : Tiling cov rs) : rs.Nodup := by
  refine (List.Pairwise.and_mem.1 h.ord).imp (fun {a b} hab => before_ne (h.pos a hab.1).2 hab.2.2)

theorem Tiling.node_rect (h : Tiling cov rs) {n n' : Nd} (hn : n ∈ nodes rs) (hn' : n' ∈ nodes rs) (e : n.rect = n'.rect) : n = n' := by
  have := h.nodup
  rw [← nodes_rect rs] at this
  exact List.inj_on_of_nodup_map this hn hn' e

/-! ### leading edges -/

theorem insertEdge_perm (n : Nd) (L : List Nd) : (insertEdge n L).Perm (n :: L) := by
  induction L with
  | nil => exact List.Perm.refl _
  | cons a t ih =>
    unfold insertEdge
    split_ifs
    · exact List.Perm.refl _
    · exact (ih.cons a).trans (List.Perm.swap _ _ _)

/-- In order as far as the comparison tells. -/
def Weak (a b : SR) : Prop := lessEdge b a = false

theorem lessEdge_iff (a b : SR) : lessEdge a b = true ↔ a.pl < b.pl ∨ (a.pl = b.pl ∧ (a.lo < b.lo ∨ (a.lo = b.lo ∧ a.hi < b.hi))) := by
  unfold lessEdge Ivl.blt ivl
  by_cases h1 : a.pl < b.pl
  · simp [h1]
  by_cases h2 : a.pl > b.pl
  · simp [h1, h2]; omega
  by_cases h3 : a.lo = b.lo
  · simp [h1, h2, h3]; omega
  · simp [h1, h2, h3]; omega

theorem weak_iff (a b : SR) : Weak a b ↔ ¬ (b.pl < a.pl ∨ (b.pl = a.pl ∧ (b.lo < a.lo ∨ (b.lo = a.lo ∧ b.hi < a.hi)))) := by
  unfold Weak
  rw [← lessEdge_iff]
  simp

theorem insertEdge_sorted {n : Nd} {L : List Nd} (h : L.Pairwise (fun a b => Weak a.rect b.rect)) :
    (insertEdge n L).Pairwise (fun a b => Weak a.rect b.rect) := by
  induction L with
  | nil => simp [insertEdge]
  | cons a t ih =>
    obtain ⟨h1, h2⟩ := List.pairwise_cons.1 h
    unfold insertEdge
    split_ifs with hl
    · rw [List.pairwise_cons]
      refine ⟨fun b hb => ?_, h⟩
      rw [lessEdge_iff] at hl
      rcases List.mem_cons.1 hb with rfl | hb
      · rw [weak_iff]; omega
      · have := h1 b hb
        rw [weak_iff] at *; omega
    · rw [List.pairwise_cons]
      refine ⟨fun b hb => ?_, ih h2⟩
      rcases List.mem_cons.1 ((insertEdge_perm n t).mem_iff.1 hb) with rfl | hb
      · unfold Weak; simpa using hl
      · exact h1 b hb

theorem leading_spec (nds : List Nd) : (leading nds).Perm nds ∧ (leading nds).Pairwise (fun a b => Weak a.rect b.rect) := by
  have : ∀ (L acc : List Nd), acc.Pairwise (fun a b => Weak a.rect b.rect) →
      (L.foldl (fun L n => insertEdge n L) acc).Perm (L ++ acc) ∧
      (L.foldl (fun L n => insertEdge n L) acc).Pairwise (fun a b => Weak a.rect b.rect) := by
    intro L
    induction L with
    | nil => intro acc h; exact ⟨List.Perm.refl _, h⟩
    | cons a t ih =>
      intro acc h
      obtain ⟨i1, i2⟩ := ih (insertEdge a acc) (insertEdge_sorted h)
      refine ⟨i1.trans ?_, i2⟩
      exact ((insertEdge_perm a acc).append_left t).trans List.perm_middle
  have := this nds [] List.Pairwise.nil
  simpa [leading] using this

/-- The order of leading edges. -/
def Lead (a b : SR) : Prop := a.pl < b.pl ∨ (a.pl = b.pl ∧ a.hi < b.lo)

theorem Tiling.leading (h : Tiling cov rs) : (leading (nodes rs)).Pairwise (fun a b => Lead a.rect b.rect) := by
  obtain ⟨p, s⟩ := leading_spec (nodes rs)
  have hnd : ((MaxCover.leading (nodes rs)).map (·.rect)).Nodup := by
    rw [(p.map (·.rect)).nodup_iff, nodes_rect]
    exact h.nodup
  have hnd' := List.pairwise_map.1 hnd
  refine (List.Pairwise.and_mem.1 (s.and hnd')).imp (fun {a b} hab => ?_)
  obtain ⟨ha, hb, hw, hne⟩ := hab
  have ha := nodes_mem (p.mem_iff.1 ha)
  have hb := nodes_mem (p.mem_iff.1 hb)
  rw [weak_iff] at hw
  have pa := h.pos _ ha
  have pb := h.pos _ hb
  by_cases e : a.rect.pl = b.rect.pl
  · have := h.gap ha hb hne (x := a.rect.pl) (le_refl _) pa.1 (by omega) (by omega)
    exact Or.inr ⟨e, by omega⟩
  · exact Or.inl (by omega)

/-! ### the walk over leading and trailing edges -/

/-- `c` starts where `n` ends, and the two have an edge of positive length in common. -/
def Adj (n c : Nd) : Prop := c.rect.pl = n.rect.ph ∧ c.rect.lo < n.rect.hi ∧ n.rect.lo < c.rect.hi

theorem dagGo_spec (ls ts : List Nd) (E : List (Nat × Nd)) (hl : ls.Pairwise (fun a b => Lead a.rect b.rect))
    (ht : ts.Pairwise (fun a b => Before a.rect b.rect)) (hb : ∀ a ∈ ls, ∃ b ∈ ts, a.rect.pl < b.rect.ph)
    (pl : ∀ a ∈ ls, a.rect.lo < a.rect.hi) (pt : ∀ a ∈ ts, a.rect.lo < a.rect.hi) :
    ∃ F, dagGo ls ts E = some (E ++ F) ∧ ∀ i a, (i, a) ∈ F ↔ a ∈ ls ∧ ∃ b ∈ ts, b.id = i ∧ Adj b a := by
  induction ls, ts, E using dagGo.induct with
  | case1 ts E => exact ⟨[], by rw [dagGo]; simp, by simp⟩
  | case2 a ls E => obtain ⟨b, hb, -⟩ := hb a (by simp); simp at hb
  | case3 a ls b ts E c1 ih =>
    obtain ⟨l1, l2⟩ := List.pairwise_cons.1 hl
    obtain ⟨t1, t2⟩ := List.pairwise_cons.1 ht
    obtain ⟨F, e, hF⟩ := ih l2 ht (fun x hx => hb x (by simp [hx])) (fun x hx => pl x (by simp [hx])) pt
    refine ⟨F, by rw [dagGo, if_pos c1]; exact e, fun i x => ?_⟩
    rw [hF]
    constructor
    · rintro ⟨h1, h2⟩; exact ⟨List.mem_cons_of_mem _ h1, h2⟩
    · rintro ⟨h1, y, hy, hi, hadj⟩
      rcases List.mem_cons.1 h1 with rfl | h1
      · exfalso
        obtain ⟨j1, -⟩ := hadj
        rcases List.mem_cons.1 hy with rfl | hy
        · omega
        · have := t1 y hy; unfold Before at this; omega
      · exact ⟨h1, y, hy, hi, hadj⟩
  | case4 a ls b ts E c1 c2 ih =>
    obtain ⟨l1, l2⟩ := List.pairwise_cons.1 hl
    obtain ⟨t1, t2⟩ := List.pairwise_cons.1 ht
    obtain ⟨F, e, hF⟩ := ih hl t2 (fun x hx => by
        obtain ⟨y, hy, hxy⟩ := hb x hx
        rcases List.mem_cons.1 hy with rfl | hy
        · exfalso
          rcases List.mem_cons.1 hx with rfl | hx
          · omega
          · have := l1 x hx; unfold Lead at this; omega
        · exact ⟨y, hy, hxy⟩) pl (fun x hx => pt x (by simp [hx]))
    refine ⟨F, by rw [dagGo, if_neg c1, if_pos c2]; exact e, fun i x => ?_⟩
    rw [hF]
    constructor
    · rintro ⟨h1, y, hy, h2⟩; exact ⟨h1, y, List.mem_cons_of_mem _ hy, h2⟩
    · rintro ⟨h1, y, hy, hi, hadj⟩
      refine ⟨h1, y, ?_, hi, hadj⟩
      rcases List.mem_cons.1 hy with rfl | hy
      · exfalso
        obtain ⟨j1, -⟩ := hadj
        rcases List.mem_cons.1 h1 with rfl | h1
        · omega
        · have := l1 x h1; unfold Lead at this; omega
      · exact hy
  | case5 a ls b ts E c1 c2 c3 ih =>
    obtain ⟨l1, l2⟩ := List.pairwise_cons.1 hl
    obtain ⟨t1, t2⟩ := List.pairwise_cons.1 ht
    obtain ⟨F, e, hF⟩ := ih l2 ht (fun x hx => hb x (by simp [hx])) (fun x hx => pl x (by simp [hx])) pt
    refine ⟨F, by rw [dagGo, if_neg c1, if_neg c2, if_pos c3]; exact e, fun i x => ?_⟩
    rw [hF]
    constructor
    · rintro ⟨h1, h2⟩; exact ⟨List.mem_cons_of_mem _ h1, h2⟩
    · rintro ⟨h1, y, hy, hi, hadj⟩
      rcases List.mem_cons.1 h1 with rfl | h1
      · exfalso
        obtain ⟨j1, j2, j3⟩ := hadj
        have := pt b (by simp)
        rcases List.mem_cons.1 hy with rfl | hy
        · omega
        · have := t1 y hy; unfold Before at this; omega
      · exact ⟨h1, y, hy, hi, hadj⟩
  | case6 a ls b ts E c1 c2 c3 c4 ih =>
    obtain ⟨l1, l2⟩ := List.pairwise_cons.1 hl
    obtain ⟨t1, t2⟩ := List.pairwise_cons.1 ht
    obtain ⟨F, e, hF⟩ := ih hl t2 (fun x hx => by
        obtain ⟨y, hy, hxy⟩ := hb x hx
        rcases List.mem_cons.1 hy with rfl | hy
        · exfalso
          rcases List.mem_cons.1 hx with rfl | hx
          · omega
          · have := l1 x hx; unfold Lead at this; omega
        · exact ⟨y, hy, hxy⟩) pl (fun x hx => pt x (by simp [hx]))
    refine ⟨F, by rw [dagGo, if_neg c1, if_neg c2, if_neg c3, if_pos c4]; exact e, fun i x => ?_⟩
    rw [hF]
    constructor
    · rintro ⟨h1, y, hy, h2⟩; exact ⟨h1, y, List.mem_cons_of_mem _ hy, h2⟩
    · rintro ⟨h1, y, hy, hi, hadj⟩
      refine ⟨h1, y, ?_, hi, hadj⟩
      rcases List.mem_cons.1 hy with rfl | hy
      · exfalso
        obtain ⟨j1, j2, j3⟩ := hadj
        have := pl a (by simp)
        rcases List.mem_cons.1 h1 with rfl | h1
        · omega
        · have := l1 x h1; unfold Lead at this; omega
      · exact hy
  | case7 a ls b ts E c1 c2 c3 c4 E' c5 ih =>
    obtain ⟨l1, l2⟩ := List.pairwise_cons.1 hl
    obtain ⟨t1, t2⟩ := List.pairwise_cons.1 ht
    obtain ⟨F, e, hF⟩ := ih hl t2 (fun x hx => by
        obtain ⟨y, hy, hxy⟩ := hb x hx
        rcases List.mem_cons.1 hy with rfl | hy
        · exfalso
          rcases List.mem_cons.1 hx with rfl | hx
          · omega
          · have := l1 x hx; unfold Lead at this; omega
        · exact ⟨y, hy, hxy⟩) pl (fun x hx => pt x (by simp [hx]))
    refine ⟨(b.id, a) :: F, by rw [dagGo, if_neg c1, if_neg c2, if_neg c3, if_neg c4]; dsimp only; rw [if_pos c5]; simpa [E'] using e, fun i x => ?_⟩
    rw [List.mem_cons, hF]
    constructor
    · rintro (h1 | ⟨h1, y, hy, h2⟩)
      · obtain ⟨rfl, rfl⟩ := Prod.mk.inj h1
        exact ⟨by simp, b, by simp, rfl, by unfold Adj; omega⟩
      · exact ⟨h1, y, List.mem_cons_of_mem _ hy, h2⟩
    · rintro ⟨h1, y, hy, hi, hadj⟩
      rcases List.mem_cons.1 hy with rfl | hy
      · obtain ⟨j1, j2, j3⟩ := hadj
        rcases List.mem_cons.1 h1 with rfl | h1
        · exact Or.inl (by rw [hi])
        · have := l1 x h1; unfold Lead at this; omega
      · exact Or.inr ⟨h1, y, hy, hi, hadj⟩
  | case8 a ls b ts E c1 c2 c3 c4 E' c5 c6 ih =>
    obtain ⟨l1, l2⟩ := List.pairwise_cons.1 hl
    obtain ⟨t1, t2⟩ := List.pairwise_cons.1 ht
    obtain ⟨F, e, hF⟩ := ih l2 ht (fun x hx => hb x (by simp [hx])) (fun x hx => pl x (by simp [hx])) pt
    refine ⟨(b.id, a) :: F, by rw [dagGo, if_neg c1, if_neg c2, if_neg c3, if_neg c4]; dsimp only; rw [if_neg c5, if_pos c6]; simpa [E'] using e, fun i x => ?_⟩
    rw [List.mem_cons, hF]
    constructor
    · rintro (h1 | ⟨h1, h2⟩)
      · obtain ⟨rfl, rfl⟩ := Prod.mk.inj h1
        exact ⟨by simp, b, by simp, rfl, by unfold Adj; omega⟩
      · exact ⟨List.mem_cons_of_mem _ h1, h2⟩
    · rintro ⟨h1, y, hy, hi, hadj⟩
      rcases List.mem_cons.1 h1 with rfl | h1
      · obtain ⟨j1, j2, j3⟩ := hadj
        rcases List.mem_cons.1 hy with rfl | hy
        · exact Or.inl (by rw [hi])
        · have := t1 y hy; unfold Before at this; omega
      · exact Or.inr ⟨h1, y, hy, hi, hadj⟩
  | case9 a ls b ts E c1 c2 c3 c4 E' c5 c6 ih =>
    obtain ⟨l1, l2⟩ := List.pairwise_cons.1 hl
    obtain ⟨t1, t2⟩ := List.pairwise_cons.1 ht
    obtain ⟨F, e, hF⟩ := ih l2 t2 (fun x hx => by
        obtain ⟨y, hy, hxy⟩ := hb x (by simp [hx])
        rcases List.mem_cons.1 hy with rfl | hy
        · exfalso
          have := l1 x hx; unfold Lead at this; omega
        · exact ⟨y, hy, hxy⟩) (fun x hx => pl x (by simp [hx])) (fun x hx => pt x (by simp [hx]))
    refine ⟨(b.id, a) :: F, by rw [dagGo, if_neg c1, if_neg c2, if_neg c3, if_neg c4]; dsimp only; rw [if_neg c5, if_neg c6]; simpa [E'] using e, fun i x => ?_⟩
    rw [List.mem_cons, hF]
    constructor
    · rintro (h1 | ⟨h1, y, hy, h2⟩)
      · obtain ⟨rfl, rfl⟩ := Prod.mk.inj h1
        exact ⟨by simp, b, by simp, rfl, by unfold Adj; omega⟩
      · exact ⟨List.mem_cons_of_mem _ h1, y, List.mem_cons_of_mem _ hy, h2⟩
    · rintro ⟨h1, y, hy, hi, hadj⟩
      obtain ⟨j1, j2, j3⟩ := id hadj
      rcases List.mem_cons.1 h1 with rfl | h1 <;> rcases List.mem_cons.1 hy with rfl | hy
      · exact Or.inl (by rw [hi])
      · have := t1 y hy; unfold Before at this; omega
      · have := l1 x h1; unfold Lead at this; omega
      · exact Or.inr ⟨h1, y, hy, hi, hadj⟩

/-- `computeDag` succeeds, and the children of a node are the tiles abutting on its far side. -/
theorem Tiling.dag (h : Tiling cov rs) : ∃ E, computeDag (nodes rs) = some E ∧
    ∀ n ∈ nodes rs, ∀ c, c ∈ children E n ↔ c ∈ nodes rs ∧ Adj n c := by
  have p := (leading_spec (nodes rs)).1
  obtain ⟨F, e, hF⟩ := dagGo_spec (MaxCover.leading (nodes rs)) (nodes rs) [] h.leading (nodes_pair h.ord)
    (fun a ha => ⟨a, p.mem_iff.1 ha, (h.pos _ (nodes_mem (p.mem_iff.1 ha))).1⟩)
    (fun a ha => (h.pos _ (nodes_mem (p.mem_iff.1 ha))).2) (fun a ha => (h.pos _ (nodes_mem ha)).2)
  refine ⟨F, by simpa [computeDag] using e, fun n hn c => ?_⟩
  unfold children
  rw [List.mem_map]
  constructor
  · rintro ⟨⟨i, c'⟩, hm, rfl⟩
    obtain ⟨hm, he⟩ := List.mem_filter.1 hm
    obtain ⟨h1, b, hb, hi, hadj⟩ := (hF _ _).1 hm
    have : b = n := nodes_id hb hn (by simpa [hi] using he)
    subst this
    exact ⟨p.mem_iff.1 h1, hadj⟩
  · rintro ⟨h1, h2⟩
    exact ⟨(n.id, c), List.mem_filter.2 ⟨(hF _ _).2 ⟨p.mem_iff.2 h1, n, hn, rfl, h2⟩, by simp⟩, rfl⟩

end Verif.MaxCover
