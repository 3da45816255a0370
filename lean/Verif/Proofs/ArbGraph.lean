import Verif.Model.ArbMerge
import Verif.Spec.Arb
import Verif.Proofs.ArbSides
import Mathlib.Tactic.Linarith
/-! The graph that `connectivity_extraction_output_functor` builds from its calls. -/
namespace Verif.ArbMerge
open Verif Verif.Arb Verif.Contains Verif.Spec Verif.Spec.Arb

/-- A call writes the label at the point. -/
def Inc (cs : List Call) (v : Pt) (l : Int) : Prop := ∃ c ∈ cs, (c.1.1 = v ∨ c.1.2 = v) ∧ l ∈ c.2.1 ++ c.2.2

/-- Two different labels meet at a point. -/
def Linked (cs : List Call) (i j : Int) : Prop := i ≠ j ∧ ∃ v, Inc cs v i ∧ Inc cs v j

/-- The label is listed under the point. -/
def Lab (m : YMap) (v : Pt) (l : Int) : Prop := ∃ a ∈ m, a.1 = v ∧ l ∈ a.2

/-- The map is in order and so are the sets in it. -/
structure MOk (m : YMap) : Prop where
  srt : m.Pairwise (fun a b => lessPoint a.1 b.1 = true)
  set : ∀ a ∈ m, a.2.Pairwise (· < ·)

theorem setInsert_mem (k l : Int) : ∀ s, l ∈ setInsert s k ↔ l = k ∨ l ∈ s
  | [] => by simp [setInsert]
  | a :: r => by
    unfold setInsert
    split_ifs with h1 h2
    · rw [List.mem_cons, setInsert_mem k l r, List.mem_cons]; tauto
    · simp
    · have : a = k := by omega
      subst this; simp

theorem setInsert_srt (k : Int) : ∀ s : List Int, s.Pairwise (· < ·) → (setInsert s k).Pairwise (· < ·)
  | [], _ => by simp [setInsert]
  | a :: r, h => by
    rw [List.pairwise_cons] at h
    unfold setInsert
    split_ifs with h1 h2
    · rw [List.pairwise_cons]
      refine ⟨fun b hb => ?_, setInsert_srt k r h.2⟩
      rcases (setInsert_mem k b r).1 hb with rfl | hb
      exacts [h1, h.1 b hb]
    · rw [List.pairwise_cons]
      refine ⟨fun b hb => ?_, List.pairwise_cons.2 h⟩
      rcases List.mem_cons.1 hb with rfl | hb
      · exact h2
      · have := h.1 b hb; omega
    · exact List.pairwise_cons.2 h

theorem setFold (ks : List Int) : ∀ s : List Int, s.Pairwise (· < ·) →
    (ks.foldl setInsert s).Pairwise (· < ·) ∧ ∀ l, l ∈ ks.foldl setInsert s ↔ l ∈ s ∨ l ∈ ks := by
  induction ks with
  | nil => intro s h; simp [h]
  | cons k ks ih =>
    intro s h
    obtain ⟨h1, h2⟩ := ih _ (setInsert_srt k s h)
    refine ⟨h1, fun l => ?_⟩
    rw [List.foldl_cons, h2 l, setInsert_mem, List.mem_cons]; tauto

theorem lp_iff {p q : Pt} : lessPoint p q = true ↔ p.1 < q.1 ∨ (p.1 = q.1 ∧ p.2 < q.2) := by
  rw [Contains.lessPoint_iff]

theorem lp_eq {p q : Pt} (h1 : ¬ lessPoint p q = true) (h2 : ¬ lessPoint q p = true) : p = q := by
  rw [lp_iff] at h1 h2
  exact Prod.ext (by omega) (by omega)

theorem lab_cons (a : Pt × List Int) (r : YMap) (v : Pt) (l : Int) : Lab (a :: r) v l ↔ (a.1 = v ∧ l ∈ a.2) ∨ Lab r v l := by
  unfold Lab
  simp

theorem add_spec (p : Pt) (ks : List Int) : ∀ m : YMap, MOk m → MOk (YMap.add m p ks) ∧
    (∀ a ∈ YMap.add m p ks, a.1 = p ∨ ∃ b ∈ m, b.1 = a.1) ∧ ∀ v l, Lab (YMap.add m p ks) v l ↔ Lab m v l ∨ (v = p ∧ l ∈ ks)
  | [], _ => by
    obtain ⟨h1, h2⟩ := setFold ks [] List.Pairwise.nil
    rw [YMap.add]
    refine ⟨⟨by simp, by simpa using h1⟩, by simp, fun v l => ?_⟩
    unfold Lab
    simp only [List.mem_singleton, exists_eq_left, h2, List.not_mem_nil, false_or, false_and, exists_false]
    tauto
  | a :: r, h => by
    have hr : MOk r := ⟨(List.pairwise_cons.1 h.srt).2, fun b hb => h.set b (List.mem_cons_of_mem _ hb)⟩
    have ha := (List.pairwise_cons.1 h.srt).1
    rw [YMap.add]
    by_cases c1 : lessPoint a.1 p = true
    · rw [if_pos c1]
      obtain ⟨i1, i2, i3⟩ := add_spec p ks r hr
      refine ⟨⟨List.pairwise_cons.2 ⟨fun b hb => ?_, i1.srt⟩, fun b hb => ?_⟩, fun b hb => ?_, fun v l => ?_⟩
      · rcases i2 b hb with g | ⟨c, hc, g⟩
        · rw [g]; exact c1
        · rw [← g]; exact ha c hc
      · rcases List.mem_cons.1 hb with rfl | hb
        exacts [h.set b (by simp), i1.set b hb]
      · rcases List.mem_cons.1 hb with rfl | hb
        · exact Or.inr ⟨b, by simp, rfl⟩
        · rcases i2 b hb with g | ⟨c, hc, g⟩
          exacts [Or.inl g, Or.inr ⟨c, List.mem_cons_of_mem _ hc, g⟩]
      · rw [lab_cons, lab_cons, i3 v l]; tauto
    · rw [if_neg c1]
      by_cases c2 : lessPoint p a.1 = true
      · rw [if_pos c2]
        obtain ⟨h1, h2⟩ := setFold ks [] List.Pairwise.nil
        refine ⟨⟨List.pairwise_cons.2 ⟨fun b hb => ?_, h.srt⟩, fun b hb => ?_⟩, fun b hb => ?_, fun v l => ?_⟩
        · rcases List.mem_cons.1 hb with rfl | hb
          · exact c2
          · have := ha b hb
            simp only [lp_iff] at this c2 ⊢
            omega
        · rcases List.mem_cons.1 hb with rfl | hb
          exacts [h1, h.set b hb]
        · rcases List.mem_cons.1 hb with rfl | hb
          exacts [Or.inl rfl, Or.inr ⟨b, hb, rfl⟩]
        · rw [lab_cons]
          dsimp only
          rw [h2 l, List.mem_nil_iff, false_or, eq_comm (a := p)]; tauto
      · rw [if_neg c2]
        have e := lp_eq c1 c2
        obtain ⟨h1, h2⟩ := setFold ks a.2 (h.set a (by simp))
        refine ⟨⟨List.pairwise_cons.2 ⟨ha, hr.srt⟩, fun b hb => ?_⟩, fun b hb => ?_, fun v l => ?_⟩
        · rcases List.mem_cons.1 hb with rfl | hb
          exacts [h1, hr.set b hb]
        · rcases List.mem_cons.1 hb with rfl | hb
          exacts [Or.inl e, Or.inr ⟨b, List.mem_cons_of_mem _ hb, rfl⟩]
        · rw [lab_cons, lab_cons]
          dsimp only
          rw [h2 l, ← e, eq_comm (a := v)]; tauto

theorem pairs_mem : ∀ s : List Int, s.Pairwise (· < ·) → ∀ i j, (i, j) ∈ pairs s ↔ i ≠ j ∧ i ∈ s ∧ j ∈ s
  | [], _, i, j => by simp [pairs]
  | a :: r, h, i, j => by
    rw [List.pairwise_cons] at h
    rw [pairs, List.mem_append, pairs_mem r h.2, List.mem_flatMap, List.mem_cons, List.mem_cons]
    constructor
    · rintro (⟨b, hb, g⟩ | ⟨g1, g2, g3⟩)
      · have := h.1 b hb
        simp only [List.mem_cons, Prod.mk.injEq, List.not_mem_nil, or_false] at g
        rcases g with ⟨rfl, rfl⟩ | ⟨rfl, rfl⟩
        · exact ⟨by omega, Or.inl rfl, Or.inr hb⟩
        · exact ⟨by omega, Or.inr hb, Or.inl rfl⟩
      · exact ⟨g1, Or.inr g2, Or.inr g3⟩
    · rintro ⟨g1, g2 | g2, g3 | g3⟩
      · omega
      · exact Or.inl ⟨j, g3, by simp [g2]⟩
      · exact Or.inl ⟨i, g2, by simp [g3]⟩
      · exact Or.inr ⟨g1, g2, g3⟩

theorem processGo_spec (x : Int) : ∀ (m kept : YMap), (kept ++ m).Pairwise (fun a b => lessPoint a.1 b.1 = true) →
    (processGo x kept m).1.Sublist (kept ++ m) ∧ (∀ a ∈ kept ++ m, x ≤ a.1.1 → a ∈ (processGo x kept m).1) ∧
    ∀ g, g ∈ (processGo x kept m).2 ↔ ∃ a ∈ m, x ≤ a.1.1 ∧ g ∈ pairs a.2
  | [], kept, _ => by rw [processGo, List.append_nil]; exact ⟨List.Sublist.refl _, fun a ha _ => ha, by simp⟩
  | b :: r, kept, h => by
    rw [processGo]
    by_cases c : b.1.1 < x
    · rw [if_pos c]
      obtain ⟨h1, h2, h3⟩ := processGo_spec x r [b] (by rw [List.singleton_append]; exact (List.pairwise_append.1 h).2.1)
      refine ⟨h1.trans (List.sublist_append_right _ _), fun a ha hx => ?_, fun g => ?_⟩
      · apply h2 a _ hx
        rcases List.mem_append.1 ha with g | g
        · have := (List.pairwise_append.1 h).2.2 a g b (by simp)
          rw [lp_iff] at this; omega
        · exact g
      · rw [h3 g]
        constructor
        · rintro ⟨a, ha, k⟩; exact ⟨a, List.mem_cons_of_mem _ ha, k⟩
        · rintro ⟨a, ha, k1, k2⟩
          rcases List.mem_cons.1 ha with rfl | ha
          · omega
          · exact ⟨a, ha, k1, k2⟩
    · rw [if_neg c]
      obtain ⟨h1, h2, h3⟩ := processGo_spec x r (kept ++ [b]) (by rw [List.append_assoc]; exact h)
      rw [List.append_assoc, List.singleton_append] at h1 h2
      refine ⟨h1, h2, fun g => ?_⟩
      dsimp only
      rw [List.mem_append, h3 g]
      constructor
      · rintro (k | ⟨a, ha, k⟩)
        · exact ⟨b, by simp, by omega, k⟩
        · exact ⟨a, List.mem_cons_of_mem _ ha, k⟩
      · rintro ⟨a, ha, k1, k2⟩
        rcases List.mem_cons.1 ha with rfl | ha
        · exact Or.inl k2
        · exact Or.inr ⟨a, ha, k1, k2⟩

/-- The invariant of the calls. -/
structure CInv (cs : List Call) (s : CS) : Prop where
  ok : MOk s.m
  lab : ∀ v l, s.x ≤ v.1 → (Lab s.m v l ↔ Inc cs v l)
  sound : ∀ i j, (i, j) ∈ s.g → Linked cs i j
  compl : ∀ v i j, v.1 < s.x → i ≠ j → Inc cs v i → Inc cs v j → (i, j) ∈ s.g

theorem CInv.process {cs : List Call} {s : CS} (h : CInv cs s) : CInv cs s.process ∧ s.process.x = s.x ∧
    ∀ i j, (i, j) ∈ s.process.g ↔ Linked cs i j := by
  obtain ⟨h1, h2, h3⟩ := processGo_spec s.x s.m [] (by simpa using h.ok.srt)
  simp only [List.nil_append] at h1 h2
  have e1 : s.process.m = (processGo s.x [] s.m).1 := rfl
  have e2 : s.process.g = s.g ++ (processGo s.x [] s.m).2 := rfl
  have key : ∀ i j, (i, j) ∈ s.process.g ↔ Linked cs i j := by
    intro i j
    rw [e2, List.mem_append, h3]
    constructor
    · rintro (g | ⟨a, ha, g1, g2⟩)
      · exact h.sound i j g
      · obtain ⟨p1, p2, p3⟩ := (pairs_mem a.2 (h.ok.set a ha) i j).1 g2
        exact ⟨p1, a.1, (h.lab a.1 i g1).1 ⟨a, ha, rfl, p2⟩, (h.lab a.1 j g1).1 ⟨a, ha, rfl, p3⟩⟩
    · rintro ⟨p1, v, p2, p3⟩
      by_cases c : v.1 < s.x
      · exact Or.inl (h.compl v i j c p1 p2 p3)
      · right
        obtain ⟨a, ha, g1, g2⟩ := (h.lab v i (by omega)).2 p2
        obtain ⟨b, hb, g3, g4⟩ := (h.lab v j (by omega)).2 p3
        have hab : a = b := by
          by_contra hne
          have hs := h.ok.srt
          have : lessPoint a.1 b.1 = true ∨ lessPoint b.1 a.1 = true := by
            rcases List.pairwise_iff_forall_sublist.1 hs with _
            exact (List.Pairwise.forall_of_forall_of_flip (R := fun a b => a ≠ b → (lessPoint a.1 b.1 = true ∨ lessPoint b.1 a.1 = true))
              (fun x _ hx => absurd rfl hx) (hs.imp fun hx _ => Or.inl hx) (hs.imp fun hx _ => Or.inr hx)) ha hb hne
          rw [g1, g3, lp_iff] at this
          omega
        subst hab
        exact ⟨a, ha, by rw [g1]; omega, (pairs_mem a.2 (h.ok.set a ha) i j).2 ⟨p1, g2, g4⟩⟩
  refine ⟨⟨⟨?_, ?_⟩, ?_, fun i j g => (key i j).1 g, fun v i j _ a b c => (key i j).2 ⟨a, v, b, c⟩⟩, rfl, key⟩
  · rw [e1]; exact h.ok.srt.sublist h1
  · intro a ha; rw [e1] at ha; exact h.ok.set a (h1.subset ha)
  · intro v l hx
    rw [← h.lab v l hx, e1]
    constructor
    · rintro ⟨a, ha, g⟩; exact ⟨a, h1.subset ha, g⟩
    · rintro ⟨a, ha, g⟩; exact ⟨a, h2 a ha (by rw [g.1]; exact hx), g⟩

theorem inc_snoc (cs : List Call) (c : Call) (v : Pt) (l : Int) :
    Inc (cs ++ [c]) v l ↔ Inc cs v l ∨ ((c.1.1 = v ∨ c.1.2 = v) ∧ l ∈ c.2.1 ++ c.2.2) := by
  unfold Inc
  constructor
  · rintro ⟨a, ha, g⟩
    rcases List.mem_append.1 ha with ha | ha
    · exact Or.inl ⟨a, ha, g⟩
    · rw [List.mem_singleton] at ha; subst ha; exact Or.inr g
  · rintro (⟨a, ha, g⟩ | g)
    · exact ⟨a, List.mem_append_left _ ha, g⟩
    · exact ⟨c, by simp, g⟩

theorem CInv.call {cs : List Call} {s : CS} (h : CInv cs s) {c : Call} (hd : c.1.1.1 ≤ c.1.2.1) (hx : cs = [] ∧ s.m = [] ∨ s.x ≤ c.1.1.1) :
    CInv (cs ++ [c]) (s.call c) := by
  obtain ⟨t, ht, hok, hlab, hsnd, hcm⟩ : ∃ t : CS, t = (if c.1.1.1 ≠ s.x then s.process else s) ∧ MOk t.m ∧
      (∀ v l, c.1.1.1 ≤ v.1 → (Lab t.m v l ↔ Inc cs v l)) ∧ (∀ i j, (i, j) ∈ t.g → Linked cs i j) ∧
      ∀ v i j, v.1 < c.1.1.1 → i ≠ j → Inc cs v i → Inc cs v j → (i, j) ∈ t.g := by
    refine ⟨_, rfl, ?_⟩
    by_cases e : c.1.1.1 = s.x
    · rw [if_neg (by simpa using e), e]; exact ⟨h.ok, h.lab, h.sound, h.compl⟩
    · rw [if_pos e]
      obtain ⟨p1, p2, p3⟩ := h.process
      refine ⟨p1.ok, fun v l hv => ?_, p1.sound, fun v i j _ a b d => (p3 i j).2 ⟨a, v, b, d⟩⟩
      rcases hx with ⟨rfl, hm⟩ | hx
      · have : s.process.m = [] := by unfold CS.process; rw [hm]; rfl
        rw [this]
        unfold Lab Inc; simp
      · exact p1.lab v l (by rw [p2]; omega)
  have e : s.call c = { t with x := c.1.1.1, m := YMap.add (YMap.add t.m c.1.1 (c.2.1 ++ c.2.2)) c.1.2 (c.2.1 ++ c.2.2) } := by
    rw [ht]; rfl
  obtain ⟨a1, _, a3⟩ := add_spec c.1.1 (c.2.1 ++ c.2.2) t.m hok
  obtain ⟨b1, _, b3⟩ := add_spec c.1.2 (c.2.1 ++ c.2.2) _ a1
  rw [e]
  refine ⟨b1, fun v l hv => ?_, fun i j g => ?_, fun v i j hv hne h1 h2 => ?_⟩
  · dsimp only at hv ⊢
    rw [b3, a3, hlab v l hv, inc_snoc]
    constructor
    · rintro ((g | ⟨rfl, g⟩) | ⟨rfl, g⟩)
      exacts [Or.inl g, Or.inr ⟨Or.inl rfl, g⟩, Or.inr ⟨Or.inr rfl, g⟩]
    · rintro (g | ⟨rfl | rfl, g⟩)
      exacts [Or.inl (Or.inl g), Or.inl (Or.inr ⟨rfl, g⟩), Or.inr ⟨rfl, g⟩]
  · obtain ⟨p1, v, p2, p3⟩ := hsnd i j g
    exact ⟨p1, v, (inc_snoc _ _ _ _).2 (Or.inl p2), (inc_snoc _ _ _ _).2 (Or.inl p3)⟩
  · dsimp only at hv ⊢
    have : ∀ l, Inc (cs ++ [c]) v l → Inc cs v l := by
      intro l hl
      rcases (inc_snoc _ _ _ _).1 hl with g | ⟨g | g, _⟩
      · exact g
      · rw [g] at hd hv; omega
      · rw [g] at hd; omega
    exact hcm v i j hv hne (this i h1) (this j h2)

/-- The graph links the labels that are written at a common point. -/
theorem graphOf_spec (umax : Int) {cs : List Call} (hs : cs.Pairwise (fun a b => a.1.1.1 ≤ b.1.1.1)) (hd : ∀ c ∈ cs, c.1.1.1 ≤ c.1.2.1) (i j : Int) :
    (i, j) ∈ graphOf umax cs ↔ Linked cs i j := by
  have key : ∀ (r pre : List Call) (s : CS), CInv pre s → (pre = [] ∧ s.m = [] ∨ ∀ c ∈ r, s.x ≤ c.1.1.1) → r.Pairwise (fun a b => a.1.1.1 ≤ b.1.1.1) →
      (∀ c ∈ r, c.1.1.1 ≤ c.1.2.1) → CInv (pre ++ r) (r.foldl CS.call s) := by
    intro r
    induction r with
    | nil => intro pre s h _ _ _; simpa using h
    | cons c r ih =>
      intro pre s h hx hs hd
      rw [List.pairwise_cons] at hs
      have h1 : CInv (pre ++ [c]) (s.call c) := h.call (hd c (by simp)) (hx.imp_right fun g => g c (by simp))
      have h2 := ih (pre ++ [c]) (s.call c) h1 (Or.inr fun b hb => hs.1 b hb) hs.2 (fun b hb => hd b (List.mem_cons_of_mem _ hb))
      rw [List.append_assoc, List.singleton_append] at h2
      exact h2
  have h0 : CInv [] ⟨umax, [], []⟩ :=
    ⟨⟨List.Pairwise.nil, by simp⟩, fun v l _ => by unfold Lab Inc; simp, by simp, fun v i j _ _ h => by unfold Inc at h; simp at h⟩
  have h1 := key cs [] _ h0 (Or.inl ⟨rfl, rfl⟩) hs hd
  exact h1.process.2.2 i j

end Verif.ArbMerge
