import Verif.Proofs.PolyData
import Verif.Proofs.PolyRange
import Verif.Spec.PolyForm
/-!
# What `get` returns
-/
namespace Verif.Proofs.PolyGet
open Verif.PolyForm Verif.Proofs.PolyGross Verif.Proofs.PolyCyc Verif.Proofs.PolyInv Verif.Proofs.PolyLoop Verif.Proofs.PolyData Verif.Proofs.PolyRange
open Verif.Polygon Verif.Spec Verif.Set90 Verif.Isotropy Verif.BooleanOp

theorem proper {c : List Int} (h : LoopP c) : Proper (expand c) := by
  have n := nice h
  exact ⟨by rw [n.len]; exact n.four, ⟨by rw [n.len]; exact Nat.even_iff.2 n.even, Or.inl n.altn⟩, n.dist⟩

theorem wind_val {c : List Int} (h : LoopP c) (o : Nat) (q : ℚ × ℚ) :
    wind (expand c) q = val o c (if o = HORIZONTAL then ⌊q.2⌋ else ⌊q.1⌋) (if o = HORIZONTAL then ⌊q.1⌋ else ⌊q.2⌋) := by
  rw [(nice h).wnd, val]
  split_ifs <;> rfl

/-- What one polygon counts. -/
def pw (p : Poly) (q : ℚ × ℚ) : Int := wind (expand p.outer) q + (p.holes.map (fun h => wind (expand h) q)).sum

theorem pw_pvl {fr : Bool} {o : Nat} {p : Poly} (h : POk fr o p) (q : ℚ × ℚ) :
    pvl fr o p (if o = HORIZONTAL then ⌊q.2⌋ else ⌊q.1⌋) (if o = HORIZONTAL then ⌊q.1⌋ else ⌊q.2⌋) = sg fr * pw p q := by
  unfold pvl pw
  rw [wind_val h.lo o q]
  congr 3
  exact List.map_congr_left (fun c hc => (wind_val (h.lh c hc) o q).symm)

/-- The pieces of a polygon along the grid. -/
def qh (p : Poly) (x y : Int) : Int := Lp (hW x y) p.outer + (p.holes.map (fun h => Lp (hW x y) h)).sum
def qv (p : Poly) (x y : Int) : Int := Lp (vW x y) p.outer + (p.holes.map (fun h => Lp (vW x y) h)).sum

/-- Whether a cell is in the set. -/
def bit (s : PSet) (x y : Int) : Int := if 0 < depth s ((x : ℚ), (y : ℚ)) then 1 else 0

theorem jump_symm (a b : Int) : jump a b = jump b a := by unfold jump; split_ifs <;> omega

theorem get_spec (fr : Bool) {umin umax : Int} {s : PSet} (hs : Valid umin umax s) :
    ∃ ps t, s.getPolys fr umax = some (ps, t) ∧ s.clean umax = some t ∧ (∀ p ∈ ps, POk fr s.orient p) ∧
      (∀ q, (ps.map (fun p => sg fr * pw p q)).sum = if 0 < depth s q then 1 else 0) ∧
      (∀ p ∈ ps, PA (fun c => umin ≤ c ∧ c ≤ umax) p) ∧
      (fr = false → ∀ x y, (ps.map (fun p => qh p x y)).sum = jump (bit s x y) (bit s x (y - 1)) ∧ (ps.map (fun p => qv p x y)).sum = jump (bit s (x - 1) y) (bit s x y)) := by
  obtain ⟨t, ec, t1, t2, t3, t4, t5, t6⟩ := clean_spec hs
  obtain ⟨ps, e, h1, h2, h3⟩ := form_spec fr t.orient (umax := umax) (t5.sorted t3) (t5.clean t2) t5.closed (fun v hv => (t5.range v hv).2.2.2)
  rw [t1] at h1 h2 h3
  have hbit : ∀ x y, bit s x y = if s.orient = HORIZONTAL then coverZ t.data y x else coverZ t.data x y := by
    intro x y
    rw [t6, t6]
    unfold bit depth ind
    rcases hs.orient with ho | ho
    · have e1 : ¬ (HORIZONTAL = VERTICAL) := by decide
      simp [ho, e1, cover_int]
    · have e1 : ¬ (VERTICAL = HORIZONTAL) := by decide
      simp [ho, e1, cover_int]
  refine ⟨ps, t, ?_, ec, h2, fun q => ?_, ?_, ?_⟩
  rotate_right
  · intro hf x y
    obtain ⟨g1, g2⟩ := h3 hf
    rw [hbit, hbit, hbit]
    by_cases ho : s.orient = HORIZONTAL
    · simp only [if_pos ho]
      rw [jump_symm, ← g2 y x, jump_symm, ← g1 y x]
      unfold ppv pph ph pv
      simp only [if_pos ho]
      exact ⟨rfl, rfl⟩
    · simp only [if_neg ho]
      rw [← g2 x y, ← g1 x y]
      unfold ppv pph ph pv
      simp only [if_neg ho]
      exact ⟨rfl, rfl⟩
  · unfold PSet.getPolys
    rw [ec]
    simp [e]
  · have a1 := h1 (if s.orient = HORIZONTAL then ⌊q.2⌋ else ⌊q.1⌋) (if s.orient = HORIZONTAL then ⌊q.1⌋ else ⌊q.2⌋)
    unfold osum at a1
    rw [show ps.map (fun p => pvl fr s.orient p (if s.orient = HORIZONTAL then ⌊q.2⌋ else ⌊q.1⌋) (if s.orient = HORIZONTAL then ⌊q.1⌋ else ⌊q.2⌋)) =
      ps.map (fun p => sg fr * pw p q) from List.map_congr_left (fun p hp => pw_pvl (h2 p hp) q)] at a1
    rw [a1, t6]
    unfold depth ind
    rcases hs.orient with ho | ho
    · have e1 : ¬ (HORIZONTAL = VERTICAL) := by decide
      simp [ho, e1, cover_eq]
    · have e1 : ¬ (VERTICAL = HORIZONTAL) := by decide
      simp [ho, e1, cover_eq]
  · cases hd : t.data with
    | nil =>
      rw [hd] at e
      have : formPolys fr t.orient umax [] = some [] := by
        simp [formPolys, GP.run, GP.flush, processEdges, procGo.eq_def]
      rw [this] at e
      rw [← Option.some_inj.1 e]
      simp
    | cons v D =>
      have hv := t5.range v (by rw [hd]; simp)
      refine form_ha (p := fun c => umin ≤ c ∧ c ≤ umax) ⟨by omega, le_refl _⟩ (fun w hw => ?_) e
      have := t5.range w hw
      exact ⟨⟨this.1, this.2.1⟩, this.2.2⟩

theorem expandGo_pts {p : Int → Prop} (fx : Int) (hf : p fx) : ∀ (r : List Int) (q : Int × Int) (o : Nat), p q.1 → p q.2 → (∀ c ∈ r, p c) →
    ∀ z ∈ expandGo fx q r o, p z.1 ∧ p z.2
  | [], q, o, h1, h2, _, z, hz => by
    rw [expandGo] at hz
    split_ifs at hz
    · simp only [List.mem_cons, List.not_mem_nil, or_false] at hz
      rcases hz with rfl | rfl
      · exact ⟨h1, h2⟩
      · exact ⟨hf, h2⟩
    · simp only [List.mem_cons, List.not_mem_nil, or_false] at hz
      subst hz; exact ⟨h1, h2⟩
  | c :: r, q, o, h1, h2, h3, z, hz => by
    rw [expandGo] at hz
    have hc := h3 c (by simp)
    rcases List.mem_cons.1 hz with rfl | hz
    · exact ⟨h1, h2⟩
    · refine expandGo_pts fx hf r _ _ ?_ ?_ (fun d hd => h3 d (List.mem_cons_of_mem _ hd)) z hz
      · split_ifs
        · exact hc
        · exact h1
      · split_ifs
        · exact h2
        · exact hc

theorem expand_range {umin umax : Int} {c : List Int} (h : ∀ d ∈ c, umin ≤ d ∧ d ≤ umax) : PtsIn umin umax (expand c) := by
  intro z hz
  match c, h, hz with
  | x :: y :: r, h, hz =>
    have := expandGo_pts (p := fun d => umin ≤ d ∧ d ≤ umax) x (h x (by simp)) r (x, y) _ (h x (by simp)) (h y (by simp))
      (fun d hd => h d (by simp [hd])) z hz
    exact ⟨this.1.1, this.1.2, this.2⟩

theorem total_pts (ps : List Poly) (q : ℚ × ℚ) : total (ps.map pts) q = (ps.map (fun p => pw p q)).sum := by
  unfold total boundaries
  induction ps with
  | nil => rfl
  | cons p ps ih =>
    simp only [List.map_cons, List.flatMap_cons, List.map_append, List.sum_append, List.sum_cons] at ih ⊢
    rw [ih]
    simp [pts, pw, Function.comp_def]

theorem stutter {P : List (Int × Int)} (h : Proper P) : NoStutter P := by
  refine noStutter ?_ h.noZero
  intro e; have := h.four; rw [e] at this; simp at this

/-- Inserting polygons with holes adds up what they cover. -/
theorem insertAll_depth : ∀ (ps : List (List (Int × Int) × List (List (Int × Int)))) (s : PSet), s.orient = HORIZONTAL ∨ s.orient = VERTICAL →
    (∀ p ∈ ps, Proper p.1 ∧ ∀ h ∈ p.2, Proper h) → ∀ q, depth (insertAll s ps) q = depth s q +
      (ps.map (fun p => polyTerm p.1 ⌊q.1⌋ ⌊q.2⌋ - (p.2.map (fun Q => polyTerm Q ⌊q.1⌋ ⌊q.2⌋)).sum)).sum
  | [], s, _, _, q => by simp [insertAll]
  | p :: ps, s, hs, hp, q => by
    have h1 := hp p (by simp)
    have ho : (s.insertPolyHoles p.1 p.2 false).orient = s.orient := by
      by_cases h : polyHolesVertices p.1 p.2 s.orient false = []
      · rw [PSet.insertPolyHoles, h, PSet.insertIter, if_pos rfl]
      · rw [insertPolyHoles_eq _ _ _ _ h]
    have ih := insertAll_depth ps (s.insertPolyHoles p.1 p.2 false) (by rw [ho]; exact hs) (fun x hx => hp x (by simp [hx])) q
    rw [insertAll, List.foldl_cons, ← insertAll, ih, insertPolyHoles_depth s hs p.1 p.2 false (Or.inr ⟨h1.1.alternating, stutter h1.1⟩)
      (fun Q hQ => Or.inr ⟨(h1.2 Q hQ).alternating, stutter (h1.2 Q hQ)⟩), List.map_cons, List.sum_cons]
    simp only [Bool.false_eq_true, if_false, one_mul]
    ring

theorem insertAll_valid {umin umax : Int} (h0 : umin ≤ 0 ∧ 0 ≤ umax) : ∀ (ps : List (List (Int × Int) × List (List (Int × Int)))) (s : PSet), Valid umin umax s →
    (∀ p ∈ ps, Proper p.1 ∧ PtsIn umin umax p.1 ∧ ∀ h ∈ p.2, Proper h ∧ PtsIn umin umax h) → Valid umin umax (insertAll s ps) ∧ (insertAll s ps).orient = s.orient
  | [], s, hs, _ => ⟨hs, rfl⟩
  | p :: ps, s, hs, hp => by
    have h1 := hp p (by simp)
    have ho : (s.insertPolyHoles p.1 p.2 false).orient = s.orient := by
      by_cases h : polyHolesVertices p.1 p.2 s.orient false = []
      · rw [PSet.insertPolyHoles, h, PSet.insertIter, if_pos rfl]
      · rw [insertPolyHoles_eq _ _ _ _ h]
    have hv := insertPolyHoles_valid hs p.1 p.2 false h0 (Or.inr ⟨h1.1.alternating, stutter h1.1⟩)
      (fun Q hQ => Or.inr ⟨(h1.2.2 Q hQ).1.alternating, stutter (h1.2.2 Q hQ).1⟩) h1.2.1 (fun Q hQ => (h1.2.2 Q hQ).2)
    have ih := insertAll_valid h0 ps (s.insertPolyHoles p.1 p.2 false) hv (fun x hx => hp x (by simp [hx]))
    rw [insertAll, List.foldl_cons, ← insertAll]
    exact ⟨ih.1, by rw [ih.2, ho]⟩

theorem term_abs {P : List (Int × Int)} (h : Proper P) (hw : OnceCCW P ∨ OnceCW P) (q : ℚ × ℚ) : polyTerm P ⌊q.1⌋ ⌊q.2⌋ = |wind P q| := by
  rw [polyTerm, if_neg (by have := h.four; omega), ← wind_eq]
  rcases hw with hw | hw
  · exact sign_of_nonneg P (alternating_rect h.alternating) (fun q => by rcases hw q with e | e <;> omega) q
  · exact sign_of_nonpos P (alternating_rect h.alternating) (fun q => by rcases hw q with e | e <;> omega) q

theorem once_outer {fr : Bool} {o : Nat} {p : Poly} (h : POk fr o p) : if fr then OnceCW (expand p.outer) else OnceCCW (expand p.outer) := by
  have := fun q => h.vo (if o = HORIZONTAL then ⌊(q : ℚ × ℚ).2⌋ else ⌊q.1⌋) (if o = HORIZONTAL then ⌊q.1⌋ else ⌊q.2⌋)
  cases fr
  · intro q; rw [wind_val h.lo o q]; exact this q
  · intro q; rw [wind_val h.lo o q]; exact this q

theorem once_hole {fr : Bool} {o : Nat} {p : Poly} (h : POk fr o p) : ∀ c ∈ p.holes, OnceCW (expand c) := by
  intro c hc q
  rw [wind_val (h.lh c hc) o q]
  exact h.vh c hc _ _

/-- Inserting the polygons again counts what they covered. -/
theorem back_depth {fr : Bool} {o : Nat} {ps : List Poly} (h : ∀ p ∈ ps, POk fr o p) (q : ℚ × ℚ) :
    ((ps.map pts).map (fun p => polyTerm p.1 ⌊q.1⌋ ⌊q.2⌋ - (p.2.map (fun Q => polyTerm Q ⌊q.1⌋ ⌊q.2⌋)).sum)).sum = (ps.map (fun p => sg fr * pw p q)).sum := by
  rw [List.map_map]
  congr 1
  refine List.map_congr_left (fun p hp => ?_)
  have hk := h p hp
  have ho := once_outer hk
  have hh := once_hole hk
  simp only [Function.comp, pts, pw]
  have ho' : OnceCCW (expand p.outer) ∨ OnceCW (expand p.outer) := by
    cases fr
    · exact Or.inl ho
    · exact Or.inr ho
  rw [term_abs (proper hk.lo) ho', List.map_map]
  have e2 : (List.map ((fun Q => polyTerm Q ⌊q.1⌋ ⌊q.2⌋) ∘ expand) p.holes) = p.holes.map (fun c => - wind (expand c) q) := by
    refine List.map_congr_left (fun c hc => ?_)
    simp only [Function.comp]
    rw [term_abs (proper (hk.lh c hc)) (Or.inr (hh c hc))]
    rcases hh c hc q with e | e <;> rw [e] <;> rfl
  have e3 : ∀ L : List (List Int), (L.map (fun c => - wind (expand c) q)).sum = - (L.map (fun c => wind (expand c) q)).sum := by
    intro L
    induction L with
    | nil => rfl
    | cons a L ih => simp only [List.map_cons, List.sum_cons, ih]; omega
  rw [e2, e3]
  cases fr
  · rcases ho q with e | e <;> rw [e] <;> simp [sg]
  · rw [hk.nh rfl]
    rcases ho q with e | e <;> rw [e] <;> simp [sg]

/-! ### nesting -/

theorem neg_sum_le {α : Type} (f : α → Int) : ∀ {L : List α}, (∀ a ∈ L, f a = 0 ∨ f a = -1) → (L.map f).sum ≤ 0
  | [], _ => by simp
  | a :: L, h => by
    have := neg_sum_le f (L := L) (fun b hb => h b (by simp [hb]))
    have := h a (by simp)
    rw [List.map_cons, List.sum_cons]; omega

theorem neg_sum_mem {α : Type} (f : α → Int) : ∀ {L : List α}, (∀ a ∈ L, f a = 0 ∨ f a = -1) → ∀ a ∈ L, (L.map f).sum ≤ f a
  | [], _, a, ha => by simp at ha
  | b :: L, h, a, ha => by
    have h1 := neg_sum_le f (L := L) (fun b hb => h b (by simp [hb]))
    have h2 := h b (by simp)
    rw [List.map_cons, List.sum_cons]
    rcases List.mem_cons.1 ha with rfl | ha
    · omega
    · have := neg_sum_mem f (L := L) (fun b hb => h b (by simp [hb])) a ha
      omega

theorem neg_sum_pair {α : Type} (f : α → Int) : ∀ {L : List α}, (∀ a ∈ L, f a = 0 ∨ f a = -1) → -1 ≤ (L.map f).sum → L.Pairwise (fun a b => f a = 0 ∨ f b = 0)
  | [], _, _ => List.Pairwise.nil
  | b :: L, h, hs => by
    have h2 := h b (by simp)
    have hL := fun c (hc : c ∈ L) => h c (by simp [hc])
    rw [List.map_cons, List.sum_cons] at hs
    refine List.pairwise_cons.2 ⟨fun c hc => ?_, neg_sum_pair f hL (by omega)⟩
    have := neg_sum_mem f hL c hc
    have := hL c hc
    omega

theorem pairwise_forall {α β : Type} {R : β → α → α → Prop} : ∀ {L : List α}, (∀ q, L.Pairwise (R q)) → L.Pairwise (fun a b => ∀ q, R q a b)
  | [], _ => List.Pairwise.nil
  | a :: L, h => List.pairwise_cons.2 ⟨fun b hb q => (List.pairwise_cons.1 (h q)).1 b hb, pairwise_forall (fun q => (List.pairwise_cons.1 (h q)).2)⟩

theorem pos_sum_pair {α : Type} (f : α → Int) {L : List α} (h : ∀ a ∈ L, f a = 0 ∨ f a = 1) (hs : (L.map f).sum ≤ 1) : L.Pairwise (fun a b => f a = 0 ∨ f b = 0) := by
  have e : ∀ L : List α, (L.map (fun a => - f a)).sum = - (L.map f).sum := by
    intro L
    induction L with
    | nil => rfl
    | cons a L ih => simp only [List.map_cons, List.sum_cons, ih]; omega
  have := neg_sum_pair (fun a => - f a) (L := L) (fun a ha => by have := h a ha; omega) (by rw [e]; omega)
  exact this.imp (fun h => by omega)

theorem pw_nonneg {o : Nat} {p : Poly} (h : POk false o p) (q : ℚ × ℚ) : 0 ≤ pw p q := by
  have h1 := h.nn (if o = HORIZONTAL then ⌊q.2⌋ else ⌊q.1⌋) (if o = HORIZONTAL then ⌊q.1⌋ else ⌊q.2⌋)
  rw [pw_pvl h q] at h1
  simpa [sg] using h1

theorem pw_holes {o : Nat} {p : Poly} (h : POk false o p) (q : ℚ × ℚ) : (∀ c ∈ p.holes, wind (expand c) q = 0 ∨ wind (expand c) q = -1) ∧
    (wind (expand p.outer) q = 0 ∨ wind (expand p.outer) q = 1) :=
  ⟨fun c hc => once_hole h c hc q, once_outer h q⟩

open Classical in
theorem pw_in {o : Nat} {p : Poly} (h : POk false o p) (q : ℚ × ℚ) : pw p q = if InPoly (pts p) q then 1 else 0 := by
  have hn := pw_nonneg h q
  obtain ⟨hh, ho⟩ := pw_holes h q
  unfold pw at hn ⊢
  have hle := neg_sum_le (fun c => wind (expand c) q) hh
  by_cases hz : ∀ c ∈ p.holes, wind (expand c) q = 0
  · have h0 : (p.holes.map (fun c => wind (expand c) q)).sum = 0 := List.sum_eq_zero (fun x hx => by
      obtain ⟨c, hc, rfl⟩ := List.mem_map.1 hx
      exact hz c hc)
    rw [h0]
    by_cases e : wind (expand p.outer) q = 0
    · rw [if_neg (fun hi => hi.1 e), e]; rfl
    · rw [if_pos ⟨e, fun c hc => by obtain ⟨d, hd, rfl⟩ := List.mem_map.1 hc; exact hz d hd⟩]; omega
  · push Not at hz
    obtain ⟨c, hc, hne⟩ := hz
    have := neg_sum_mem (fun c => wind (expand c) q) hh c hc
    have := hh c hc
    rw [if_neg (fun hi => hne (hi.2 _ (List.mem_map.2 ⟨c, hc, rfl⟩)))]; omega

end Verif.Proofs.PolyGet
