import Verif.Model.RectForm
import Verif.Proofs.Set90Ops
import Mathlib.Tactic.Linarith
import Mathlib.Algebra.Order.BigOperators.Group.List
/-! The scan of `form_rectangles` tiles the region (helper lemmas for C13, C14). -/
namespace Verif.RectForm
open Verif.BooleanOp Verif.Set90 Verif.Interval Verif.Spec

/-- Ordered, with gaps, and not degenerate. -/
def Good (S : List SR) : Prop := S.Pairwise (fun a b => a.hi < b.lo) ∧ ∀ a ∈ S, a.lo < a.hi
/-- `K` does not touch any element. -/
def Sep (K : SR) (S : List SR) : Prop := ∀ a ∈ S, a.hi < K.lo ∨ K.hi < a.lo
/-- The open rectangles of the state. -/
def act (st : St) : List SR := if st.hv then st.K :: st.S else st.S
/-- Sum of a weight. -/
def sm (w : SR → Int) (L : List SR) : Int := (L.map w).sum
/-- 1 if the interval contains the cell. -/
def cv (y : Int) (a : SR) : Int := if a.lo ≤ y ∧ y < a.hi then 1 else 0
/-- 1 if the open rectangle covers the cell `(x, y)` left of the scanline. -/
def tc (x y : Int) (a : SR) : Int := if a.pl ≤ x ∧ a.lo ≤ y ∧ y < a.hi then 1 else 0
/-- 1 if the finished rectangle covers the cell. -/
def oc (x y : Int) (a : SR) : Int := if a.pl ≤ x ∧ x < a.ph ∧ a.lo ≤ y ∧ y < a.hi then 1 else 0
/-- How often finished and open rectangles cover a cell left of the scanline. -/
def T (st : St) (x y : Int) : Int := sm (oc x y) st.out + sm (tc x y) (act st)

theorem sm_perm {w : SR → Int} {L M : List SR} (p : L.Perm M) : sm w L = sm w M := (p.map w).sum_eq
@[simp] theorem sm_cons (w : SR → Int) (a : SR) (L : List SR) : sm w (a :: L) = w a + sm w L := by simp [sm]
@[simp] theorem sm_nil (w : SR → Int) : sm w [] = 0 := rfl
@[simp] theorem sm_append (w : SR → Int) (L M : List SR) : sm w (L ++ M) = sm w L + sm w M := by simp [sm]

theorem less_of_lt {a b : SR} (h : a.lo < b.lo) : less a b = true ∧ less b a = false := by
  unfold less
  constructor
  · rw [if_neg (by omega), if_neg (by omega)]
  · rw [if_pos (by omega)]

theorem less_irrefl (a : SR) : less a a = false := by unfold less; simp

theorem le_of_less {a b : SR} (h : less a b = true) : a.lo ≤ b.lo := by
  by_contra h'
  rw [(less_of_lt (a := b) (b := a) (by omega)).2] at h
  cases h

theorem good_nil : Good [] := ⟨List.Pairwise.nil, by simp⟩

theorem good_cons {a : SR} {S : List SR} : Good (a :: S) ↔ (∀ b ∈ S, a.hi < b.lo) ∧ a.lo < a.hi ∧ Good S := by
  unfold Good
  simp only [List.pairwise_cons, List.forall_mem_cons]
  tauto

/-- Inserting a separate interval. -/
theorem ins {K : SR} {S : List SR} (hg : Good S) (hK : K.lo < K.hi) (hs : Sep K S) :
    Good (insertS K S) ∧ (insertS K S).Perm (K :: S) := by
  induction S with
  | nil => exact ⟨good_cons.mpr ⟨by simp, hK, good_nil⟩, List.Perm.refl _⟩
  | cons a t ih =>
    obtain ⟨h1, h2, h3⟩ := good_cons.mp hg
    obtain ⟨i1, i2⟩ := ih h3 (fun b hb => hs b (List.mem_cons_of_mem _ hb))
    rcases hs a List.mem_cons_self with h | h
    · have : less a K = true := (less_of_lt (by omega)).1
      simp only [insertS, this, if_true]
      refine ⟨good_cons.mpr ⟨fun b hb => ?_, h2, i1⟩, (i2.cons a).trans (List.Perm.swap _ _ _)⟩
      rcases List.mem_cons.mp (i2.mem_iff.mp hb) with rfl | hb
      · exact h
      · exact h1 b hb
    · have l := less_of_lt (a := K) (b := a) (by omega)
      simp only [insertS, l.2, l.1, if_true]
      refine ⟨good_cons.mpr ⟨fun b hb => ?_, hK, hg⟩, List.Perm.refl _⟩
      rcases List.mem_cons.mp hb with rfl | hb
      · exact h
      · have := h1 b hb; omega

theorem mem_ins {K a : SR} {S : List SR} (hg : Good S) (hK : K.lo < K.hi) (hs : Sep K S) :
    a ∈ insertS K S ↔ a = K ∨ a ∈ S := by rw [(ins hg hK hs).2.mem_iff, List.mem_cons]

theorem sep_two {S : List SR} (hg : Good S) {a b : SR} (ha : a ∈ S) (hb : b ∈ S) (hne : a ≠ b) :
    a.hi < b.lo ∨ b.hi < a.lo := by
  induction S with
  | nil => simp at ha
  | cons c t ih =>
    obtain ⟨h1, h2, h3⟩ := good_cons.mp hg
    rcases List.mem_cons.mp ha with rfl | ha' <;> rcases List.mem_cons.mp hb with rfl | hb'
    · exact absurd rfl hne
    · exact Or.inl (h1 _ hb')
    · exact Or.inr (h1 _ ha')
    · exact ih h3 ha' hb'

theorem good_nodup {S : List SR} (hg : Good S) : S.Nodup :=
  (List.Pairwise.and_mem.mp hg.1).imp (fun {a b} h => by
    rintro rfl; have := hg.2 a h.1; have := h.2.2; omega)

theorem good_erase {S : List SR} (hg : Good S) (r : SR) : Good (S.erase r) :=
  ⟨hg.1.sublist List.erase_sublist, fun a ha => hg.2 a (List.mem_of_mem_erase ha)⟩

theorem mem_erase {S : List SR} (hg : Good S) {r a : SR} : a ∈ S.erase r ↔ a ≠ r ∧ a ∈ S :=
  (good_nodup hg).mem_erase_iff

theorem sm_erase {S : List SR} {r : SR} (hr : r ∈ S) (w : SR → Int) : sm w S = w r + sm w (S.erase r) := by
  rw [sm_perm (List.perm_cons_erase hr), sm_cons]

/-- The invariant within the column `cur`, all edges up to `y0` being done. -/
structure Inv (cur y0 : Int) (st : St) : Prop where
  good : Good st.S
  start : ∀ a ∈ st.S, a.pl ≤ cur
  k : st.hv = true → st.K.lo < st.K.hi ∧ st.K.pl = cur ∧ st.K.ph = cur ∧ Sep st.K st.S ∧ st.K.lo ≤ y0
  outOk : ∀ r ∈ st.out, r.pl < r.ph ∧ r.ph ≤ cur ∧ r.lo < r.hi

/-- 1 on the cells of the edge. -/
def ev (l h y : Int) : Int := if l ≤ y ∧ y < h then 1 else 0

/-- The rectangles written are open ones met by the edge, in order, and are no longer open. -/
def Outs (cur l h : Int) (st : St) (S' out : List SR) : Prop :=
  ∃ L : List SR, out = st.out ++ L.map (fun a => { a with ph := cur }) ∧ L.Pairwise (fun a b => a.hi < b.lo) ∧
    ∀ a ∈ L, a ∈ st.S ∧ a ∉ S' ∧ a.pl < cur ∧ a.lo ≤ h ∧ l ≤ a.hi

/-- Open rectangles are old ones or start now; finished ones are old or were open. -/
def From (cur l h : Int) (st st' : St) : Prop :=
  (∀ a ∈ act st', a ∈ act st ∨ a.pl = cur) ∧ Outs cur l h st st'.S st'.out

/-- What processing an edge achieves; `s = 1` for an opening, `-1` for a closing edge. -/
def Post (s cur l h : Int) (st st' : St) : Prop :=
  Inv cur h st' ∧ (∀ y, sm (cv y) (act st') = sm (cv y) (act st) + s * ev l h y) ∧
  (∀ x y, x < cur → T st' x y = T st x y) ∧ (s = 1 → st'.hv = true → st'.K.lo < h) ∧ From cur l h st st'

/-- `out` after writing `r` if it has extent. -/
def emit (cur : Int) (out : List SR) (r : SR) : List SR :=
  if r.pl < cur then out ++ [{ r with ph := cur }] else out

theorem sm_emit (out : List SR) (cur : Int) (r : SR) (x y : Int) (hx : x < cur) (hp : r.pl ≤ cur) :
    sm (oc x y) (emit cur out r) = sm (oc x y) out + tc x y r := by
  unfold emit
  split_ifs with h
  · rw [sm_append]; simp [oc, tc, hx]
  · rw [tc, if_neg (by omega)]; simp

/-- Finished rectangles are not degenerate and left of the scanline. -/
def OutOk (cur : Int) (out : List SR) : Prop := ∀ r ∈ out, r.pl < r.ph ∧ r.ph ≤ cur ∧ r.lo < r.hi

theorem emit_ok {out : List SR} {cur : Int} (ho : OutOk cur out) {r : SR} (hr : r.lo < r.hi) :
    OutOk cur (emit cur out r) := by
  rename' ho => hi
  intro o ho
  unfold emit at ho
  split_ifs at ho with h
  · rcases List.mem_append.mp ho with ho | ho
    · exact hi o ho
    · rw [List.mem_singleton.mp ho]; exact ⟨h, le_refl _, hr⟩
  · exact hi o ho

theorem mem_emit {cur : Int} {out : List SR} {r o : SR} (h : o ∈ emit cur out r) : o ∈ out ∨ o = { r with ph := cur } := by
  unfold emit at h
  split_ifs at h
  · simpa using h
  · exact Or.inl h

theorem mem_act_S {st : St} {a : SR} (h : a ∈ st.S) : a ∈ act st := by unfold act; split <;> simp [h]

theorem mem_act {st : St} {a : SR} (h : a ∈ act st) : a ∈ st.S ∨ (st.hv = true ∧ a = st.K) := by
  unfold act at h
  split at h
  · rename_i hv
    rcases List.mem_cons.mp h with h | h
    · exact Or.inr ⟨hv, h⟩
    · exact Or.inl h
  · exact Or.inl h

theorem outs_nil {cur l h : Int} {st : St} {S' : List SR} : Outs cur l h st S' st.out := ⟨[], by simp⟩

theorem outs_emit {cur l h : Int} {st : St} {S' : List SR} {c : SR} (hc : c ∈ st.S) (hn : c.pl < cur → c ∉ S') (h1 : c.lo ≤ h) (h2 : l ≤ c.hi) :
    Outs cur l h st S' (emit cur st.out c) := by
  unfold emit
  split_ifs with hp
  · exact ⟨[c], by simp, by simp, by simpa using ⟨hc, hn hp, hp, h1, h2⟩⟩
  · exact outs_nil

theorem outs_emit2 {cur l h : Int} {st : St} {S' : List SR} {b c : SR} (hb : b ∈ st.S) (hc : c ∈ st.S) (hnb : b.pl < cur → b ∉ S')
    (hn : c.pl < cur → c ∉ S') (hbc : b.hi < c.lo) (b1 : b.lo ≤ h) (b2 : l ≤ b.hi) (h1 : c.lo ≤ h) (h2 : l ≤ c.hi) :
    Outs cur l h st S' (emit cur (emit cur st.out b) c) := by
  by_cases hp : c.pl < cur
  · by_cases hq : b.pl < cur
    · refine ⟨[b, c], by simp [emit, hp, hq], by simpa using hbc, ?_⟩
      intro a ha
      rcases List.mem_cons.1 ha with rfl | ha
      · exact ⟨hb, hnb hq, hq, b1, b2⟩
      · rw [List.mem_singleton.1 ha]; exact ⟨hc, hn hp, hp, h1, h2⟩
    · refine ⟨[c], by simp [emit, hp, hq], by simp, ?_⟩
      intro a ha
      rw [List.mem_singleton.1 ha]; exact ⟨hc, hn hp, hp, h1, h2⟩
  · have : emit cur (emit cur st.out b) c = emit cur st.out b := by rw [emit, if_neg hp]
    rw [this]
    exact outs_emit hb hnb b1 b2

theorem From.outs {cur l h : Int} {st st' : St} (hf : From cur l h st st') : ∀ o ∈ st'.out, o ∈ st.out ∨ ∃ a ∈ act st, o = { a with ph := cur } := by
  obtain ⟨L, e, -, hL⟩ := hf.2
  intro o ho
  rw [e] at ho
  rcases List.mem_append.1 ho with ho | ho
  · exact Or.inl ho
  · obtain ⟨a, ha, rfl⟩ := List.mem_map.1 ho
    exact Or.inr ⟨a, mem_act_S (hL a ha).1, rfl⟩

theorem K_act {st : St} (h : st.hv = true) : st.K ∈ act st := by simp [act, h]

theorem tc_new {cur x y : Int} {a : SR} (hx : x < cur) (h : a.pl = cur) : tc x y a = 0 := by
  rw [tc, if_neg (by omega)]

theorem close_post {cur y0 l h : Int} {st : St} (hi : Inv cur y0 st) (hy : y0 ≤ h) (hlh : l < h) {r : SR}
    (hr : r ∈ st.S) (hl : r.lo ≤ l) (hh : h ≤ r.hi) : Post (-1) cur l h st (closeEdge cur l h st r) := by
  have gE := good_erase hi.good r
  have sE : ∀ a ∈ st.S.erase r, a.hi < r.lo ∨ r.hi < a.lo := fun a ha =>
    sep_two hi.good ((mem_erase hi.good).mp ha).2 hr ((mem_erase hi.good).mp ha).1
  have hr0 := hi.good.2 r hr
  have hp := hi.start r hr
  -- the first insertion
  obtain ⟨S1, e1, g1, m1, s1⟩ : ∃ S1, (if r.lo < l then insertS ⟨r.lo, l, cur, cur⟩ (st.S.erase r) else st.S.erase r) = S1 ∧
      Good S1 ∧ (∀ a ∈ S1, a ∈ st.S.erase r ∨ (r.lo < l ∧ a = ⟨r.lo, l, cur, cur⟩)) ∧
      ∀ w, sm w S1 = sm w (st.S.erase r) + if r.lo < l then w ⟨r.lo, l, cur, cur⟩ else 0 := by
    refine ⟨_, rfl, ?_⟩
    split_ifs with h1
    · have hs : Sep ⟨r.lo, l, cur, cur⟩ (st.S.erase r) := fun a ha => by
        have := sE a ha; show a.hi < r.lo ∨ l < a.lo; omega
      refine ⟨(ins gE h1 hs).1, fun a ha => ?_, fun w => by rw [sm_perm (ins gE h1 hs).2, sm_cons]; omega⟩
      rcases (mem_ins gE h1 hs).mp ha with rfl | ha
      · exact Or.inr ⟨h1, rfl⟩
      · exact Or.inl ha
    · exact ⟨gE, fun a ha => Or.inl ha, fun w => by simp⟩
  obtain ⟨S2, e2, g2, m2, s2⟩ : ∃ S2, (if r.hi > h then insertS ⟨h, r.hi, cur, cur⟩ S1 else S1) = S2 ∧
      Good S2 ∧ (∀ a ∈ S2, a ∈ st.S.erase r ∨ (a.pl = cur ∧ r.lo ≤ a.lo ∧ a.hi ≤ r.hi)) ∧
      ∀ w, sm w S2 = sm w S1 + if r.hi > h then w ⟨h, r.hi, cur, cur⟩ else 0 := by
    refine ⟨_, rfl, ?_⟩
    have mm : ∀ a ∈ S1, a ∈ st.S.erase r ∨ (a.pl = cur ∧ r.lo ≤ a.lo ∧ a.hi ≤ r.hi) := fun a ha => by
      rcases m1 a ha with h' | ⟨h', rfl⟩
      · exact Or.inl h'
      · exact Or.inr ⟨rfl, le_refl _, by show l ≤ r.hi; omega⟩
    split_ifs with h1
    · have hs : Sep ⟨h, r.hi, cur, cur⟩ S1 := fun a ha => by
        show a.hi < h ∨ r.hi < a.lo
        rcases m1 a ha with h' | ⟨h', rfl⟩
        · have := sE a h'; omega
        · left; exact hlh
      refine ⟨(ins g1 h1 hs).1, fun a ha => ?_, fun w => by rw [sm_perm (ins g1 h1 hs).2, sm_cons]; omega⟩
      rcases (mem_ins g1 h1 hs).mp ha with rfl | ha
      · exact Or.inr ⟨rfl, by show r.lo ≤ h; omega, le_refl _⟩
      · exact mm a ha
    · exact ⟨g1, mm, fun w => by simp⟩
  have es : closeEdge cur l h st r = ⟨S2, st.hv, st.K, emit cur st.out r⟩ := by
    unfold closeEdge emit; simp only [e1, e2]
  have key : ∀ w, sm w S2 + w r = sm w st.S + (if r.lo < l then w ⟨r.lo, l, cur, cur⟩ else 0) +
      (if r.hi > h then w ⟨h, r.hi, cur, cur⟩ else 0) := fun w => by
    rw [s2, s1, sm_erase hr w]; omega
  have actE : ∀ w, sm w (act (closeEdge cur l h st r)) + w r = sm w (act st) + (if r.lo < l then w ⟨r.lo, l, cur, cur⟩ else 0) +
      (if r.hi > h then w ⟨h, r.hi, cur, cur⟩ else 0) := fun w => by
    have := key w
    rw [es]; unfold act
    cases st.hv <;> simp <;> omega
  refine ⟨⟨by rw [es]; exact g2, ?_, ?_, ?_⟩, fun y => ?_, fun x y hx => ?_, by simp, ⟨fun a ha => ?_, ?_⟩⟩
  · rw [es]; intro a ha
    rcases m2 a ha with h' | h'
    · exact hi.start a (List.mem_of_mem_erase h')
    · exact h'.1.le
  · rw [es]; intro hv
    obtain ⟨k1, k2, k3, k4, k5⟩ := hi.k hv
    refine ⟨k1, k2, k3, fun a ha => ?_, by simp only; omega⟩
    rcases m2 a ha with h' | ⟨_, h1, h2⟩
    · exact k4 a (List.mem_of_mem_erase h')
    · have := k4 r hr
      simp only
      omega
  · rw [es]; exact emit_ok hi.outOk hr0
  · have := actE (cv y)
    have e : (if r.lo < l then cv y ⟨r.lo, l, cur, cur⟩ else 0) + (if r.hi > h then cv y ⟨h, r.hi, cur, cur⟩ else 0) + ev l h y
        = cv y r := by
      unfold cv ev
      dsimp only
      split_ifs <;> omega
    omega
  · have := actE (tc x y)
    unfold T
    have e : sm (oc x y) (closeEdge cur l h st r).out = sm (oc x y) st.out + tc x y r := by
      rw [es]; exact sm_emit st.out cur r x y hx hp
    rw [e]
    rw [tc_new (a := ⟨r.lo, l, cur, cur⟩) hx rfl, tc_new (a := ⟨h, r.hi, cur, cur⟩) hx rfl] at this
    simp only [ite_self] at this
    omega
  · rw [es] at ha
    rcases mem_act ha with h1 | ⟨h1, h2⟩
    · rcases m2 a h1 with h' | h'
      · exact Or.inl (mem_act_S (List.mem_of_mem_erase h'))
      · exact Or.inr h'.1
    · have h2' : a = st.K := h2
      rw [h2']; exact Or.inl (K_act h1)
  · rw [es]
    refine outs_emit hr (fun hp' hm => ?_) (by omega) (by omega)
    rcases m2 r hm with h' | h'
    · exact ((mem_erase hi.good).mp h').1 rfl
    · omega

/-- The set with the current rectangle put in. -/
def flush (st : St) (S : List SR) : List SR := if st.hv then insertS st.K S else S

theorem flush_facts {cur y0 : Int} {st : St} (hi : Inv cur y0 st) {R : List SR} (hR : Good R) (hsub : ∀ a ∈ R, a ∈ st.S) :
    Good (flush st R) ∧ (∀ a, a ∈ flush st R ↔ (st.hv = true ∧ a = st.K) ∨ a ∈ R) ∧
    ∀ w, sm w (flush st R) = sm w R + (if st.hv then w st.K else 0) := by
  unfold flush
  cases hv : st.hv
  · simp [hR]
  · obtain ⟨k1, k2, k3, k4, k5⟩ := hi.k hv
    have hs : Sep st.K R := fun a ha => k4 a (hsub a ha)
    have := ins hR k1 hs
    simp only [if_true]
    exact ⟨this.1, fun a => by rw [mem_ins hR k1 hs]; simp, fun w => by rw [sm_perm this.2, sm_cons]; omega⟩

theorem act_sm (st : St) (w : SR → Int) : sm w (act st) = sm w st.S + (if st.hv then w st.K else 0) := by
  unfold act; cases st.hv <;> simp
  omega

/-- Opening edge merged with rectangles of the set into a new current rectangle. -/
theorem fresh_post {cur y0 l h : Int} {st : St} (hi : Inv cur y0 st) {S' out : List SR} {M : SR} {rem : (SR → Int) → Int}
    (hg : Good S') (hm : ∀ a ∈ S', (st.hv = true ∧ a = st.K) ∨ a ∈ st.S) (hrem : ∀ w, sm w (act st) = sm w S' + rem w)
    (hM : M.lo < M.hi ∧ M.pl = cur ∧ M.ph = cur ∧ M.lo < h) (hs : Sep M S') (ho : OutOk cur out)
    (hof : Outs cur l h st S' out)
    (hT : ∀ x y, x < cur → sm (oc x y) out = sm (oc x y) st.out + rem (tc x y))
    (hA : ∀ y, cv y M = rem (cv y) + ev l h y) :
    Post 1 cur l h st ⟨S', true, M, out⟩ := by
  refine ⟨⟨hg, fun a ha => ?_, fun _ => ⟨hM.1, hM.2.1, hM.2.2.1, hs, hM.2.2.2.le⟩, ho⟩, fun y => ?_, fun x y hx => ?_, fun _ _ => hM.2.2.2, ⟨fun a ha => ?_, hof⟩⟩
  · rcases hm a ha with ⟨hv, rfl⟩ | ha
    · exact (hi.k hv).2.1.le
    · exact hi.start a ha
  · have a1 := hA y
    rw [hrem, act_sm]
    simp only [if_true]
    omega
  · unfold T
    rw [hrem, act_sm]
    have a1 := hT x y hx
    have a2 := tc_new (y := y) hx hM.2.1
    simp only [if_true]
    omega
  · rcases mem_act ha with h1 | ⟨-, h2⟩
    · rcases hm a h1 with ⟨hv, rfl⟩ | h1
      · exact Or.inl (K_act hv)
      · exact Or.inl (mem_act_S h1)
    · rw [h2]; exact Or.inr hM.2.1

/-- Opening edge extending the current rectangle. -/
theorem extend_post {cur y0 l h : Int} {st : St} (hi : Inv cur y0 st) (hv : st.hv = true) (hy : y0 < h) {R out : List SR} {h' : Int}
    {rem : (SR → Int) → Int}
    (hR : Good R) (hsub : ∀ a ∈ R, a ∈ st.S) (hrem : ∀ w, sm w st.S = sm w R + rem w)
    (hk : st.K.hi ≤ h') (hs : Sep { st.K with hi := h' } R) (ho : OutOk cur out)
    (hof : Outs cur l h st R out)
    (hT : ∀ x y, x < cur → sm (oc x y) out = sm (oc x y) st.out + rem (tc x y))
    (hA : ∀ y, cv y { st.K with hi := h' } = cv y st.K + rem (cv y) + ev l h y) :
    Post 1 cur l h st ⟨R, true, { st.K with hi := h' }, out⟩ := by
  obtain ⟨k1, k2, k3, k4, k5⟩ := hi.k hv
  refine ⟨⟨hR, fun a ha => hi.start a (hsub a ha), fun _ => ⟨by simp only; omega, k2, k3, hs, by simp only; omega⟩, ho⟩,
    fun y => ?_, fun x y hx => ?_, fun _ _ => by simp only; omega, ⟨fun a ha => ?_, hof⟩⟩
  · have a1 := hA y
    have a2 := hrem (cv y)
    rw [act_sm, act_sm, hv]
    dsimp only at a1 ⊢
    rw [if_pos rfl, if_pos rfl]
    omega
  · unfold T
    have a0 := hrem (tc x y)
    rw [act_sm, act_sm, hv]
    have a1 := hT x y hx
    have a2 := tc_new (y := y) hx k2
    have a3 := tc_new (a := { st.K with hi := h' }) (y := y) hx k2
    dsimp only at a3 ⊢
    rw [if_pos rfl, if_pos rfl]
    omega
  · rcases mem_act ha with h1 | ⟨-, h2⟩
    · exact Or.inl (mem_act_S (hsub a h1))
    · rw [h2]; exact Or.inr k2

/-- Opening edge on its own. -/
theorem alone_post {cur y0 l h : Int} {st : St} (hi : Inv cur y0 st) (hlh : l < h)
    (hs : Sep ⟨l, h, cur, cur⟩ st.S) (hsK : st.hv = true → st.K.hi < l ∨ h < st.K.lo) (hov : OutOk cur st.out) :
    Post 1 cur l h st ⟨insertS ⟨l, h, cur, cur⟩ (flush st st.S), false, st.K, st.out⟩ := by
  obtain ⟨f1, f2, f3⟩ := flush_facts hi hi.good (fun a h => h)
  have hs' : Sep ⟨l, h, cur, cur⟩ (flush st st.S) := fun a ha => by
    rcases (f2 a).mp ha with ⟨hv, rfl⟩ | ha
    · exact hsK hv
    · exact hs a ha
  obtain ⟨i1, i2⟩ := ins f1 (K := ⟨l, h, cur, cur⟩) hlh hs'
  refine ⟨⟨i1, fun a ha => ?_, by simp, hov⟩, fun y => ?_, fun x y hx => ?_, by simp, ⟨fun a ha => ?_, outs_nil⟩⟩
  · rcases (mem_ins f1 (K := ⟨l, h, cur, cur⟩) hlh hs').mp ha with rfl | ha
    · exact le_refl _
    · rcases (f2 a).mp ha with ⟨hv, rfl⟩ | ha
      · exact (hi.k hv).2.1.le
      · exact hi.start a ha
  · rw [act_sm, act_sm]
    simp only [sm_perm i2, sm_cons, f3]
    have : cv y ⟨l, h, cur, cur⟩ = ev l h y := rfl
    simp only [Bool.false_eq_true, if_false]
    omega
  · unfold T
    rw [act_sm, act_sm]
    simp only [sm_perm i2, sm_cons, f3]
    have := tc_new (a := ⟨l, h, cur, cur⟩) (y := y) hx rfl
    simp only [Bool.false_eq_true, if_false]
    omega
  · rcases mem_act ha with h1 | ⟨h2, -⟩
    · rcases (mem_ins f1 (K := ⟨l, h, cur, cur⟩) hlh hs').mp h1 with rfl | h1
      · exact Or.inr rfl
      · rcases (f2 a).mp h1 with ⟨hv, rfl⟩ | h1
        · exact Or.inl (K_act hv)
        · exact Or.inl (mem_act_S h1)
    · cases h2

/-- Closing edge inside the current rectangle. -/
theorem closeK_post {cur y0 l h : Int} {st : St} (hi : Inv cur y0 st) (hlh : l < h) (hv : st.hv = true)
    (hh : h ≤ st.K.hi) (hlo : st.K.lo < l) : Post (-1) cur l h st (finish cur l h st) := by
  obtain ⟨k1, k2, k3, k4, k5⟩ := hi.k hv
  have hs : Sep { st.K with hi := l } st.S := fun a ha => by
    have := k4 a ha; show a.hi < st.K.lo ∨ l < a.lo; omega
  obtain ⟨i1, i2⟩ := ins hi.good (K := { st.K with hi := l }) hlo hs
  have im := fun a => mem_ins (a := a) hi.good (K := { st.K with hi := l }) hlo hs
  have ef : finish cur l h st = ⟨insertS { st.K with hi := l } st.S, decide (st.K.hi > h),
      if st.K.hi > h then { st.K with lo := h } else st.K, st.out⟩ := by
    unfold finish
    rw [if_pos (by simp [hv, k3]; omega), if_pos (by omega)]
    split_ifs with h1 <;> simp [h1, hv]
  rw [ef]
  refine ⟨⟨i1, fun a ha => ?_, fun hv' => ?_, hi.outOk⟩, fun y => ?_, fun x y hx => ?_, by simp, ⟨fun a ha => ?_, outs_nil⟩⟩
  · rcases (im a).mp ha with rfl | ha
    · exact k2.le
    · exact hi.start a ha
  · have h1 : st.K.hi > h := of_decide_eq_true hv'
    simp only [if_pos h1]
    refine ⟨h1, k2, k3, fun a ha => ?_, le_refl _⟩
    rcases (im a).mp ha with rfl | ha
    · exact Or.inl hlh
    · have := k4 a ha; show a.hi < h ∨ st.K.hi < a.lo; omega
  · rw [act_sm, act_sm, hv]
    dsimp only
    rw [sm_perm i2, sm_cons, if_pos rfl]
    unfold cv ev
    dsimp only
    split_ifs <;> simp at * <;> omega
  · unfold T
    rw [act_sm, act_sm, hv]
    dsimp only
    rw [sm_perm i2, sm_cons, if_pos rfl, tc_new (a := { st.K with hi := l }) hx k2, tc_new (a := st.K) hx k2,
      tc_new (a := if st.K.hi > h then { st.K with lo := h } else st.K) hx (by split_ifs <;> exact k2)]
    simp
  · rcases mem_act ha with h1 | ⟨-, h2⟩
    · rcases (im a).mp h1 with rfl | h1
      · exact Or.inr k2
      · exact Or.inl (mem_act_S h1)
    · rw [h2]
      right
      dsimp only
      split_ifs <;> exact k2

/-! ### the loop -/

theorem split_at {S : List SR} (hg : Good S) (l : Int) :
    ∃ B C, S = B ++ C ∧ (∀ a ∈ B, a.lo ≤ l) ∧ ∀ a ∈ C, l < a.lo := by
  induction S with
  | nil => exact ⟨[], [], rfl, by simp, by simp⟩
  | cons a t ih =>
    obtain ⟨h1, h2, h3⟩ := good_cons.mp hg
    by_cases h : a.lo ≤ l
    · obtain ⟨B, C, e, hB, hC⟩ := ih h3
      exact ⟨a :: B, C, by rw [e]; rfl, by simpa using ⟨h, hB⟩, hC⟩
    · refine ⟨[], a :: t, rfl, by simp, fun b hb => ?_⟩
      rcases List.mem_cons.mp hb with rfl | hb
      · omega
      · have := h1 b hb; omega

theorem good_append {B C : List SR} (h : Good (B ++ C)) : Good B ∧ Good C ∧ ∀ a ∈ B, ∀ c ∈ C, a.hi < c.lo := by
  obtain ⟨h1, h2⟩ := h
  obtain ⟨p1, p2, p3⟩ := List.pairwise_append.mp h1
  exact ⟨⟨p1, fun a ha => h2 a (by simp [ha])⟩, ⟨p2, fun a ha => h2 a (by simp [ha])⟩, p3⟩

/-- Where the loop starts: at the last element not above the edge's low end, else at the first. -/
theorem start_it {B C : List SR} {l : Int} (E : SR) (hE : E.lo = l) (hg : Good (B ++ C)) (hB : ∀ a ∈ B, a.lo ≤ l)
    (hC : ∀ a ∈ C, l < a.lo) :
    backUp l ((B ++ C).takeWhile (fun a => less a E)).reverse ((B ++ C).find? (fun a => !less a E)) =
      (B.getLast?).or C.head? := by
  have fC : C.takeWhile (fun a => less a E) = [] ∧ C.find? (fun a => !less a E) = C.head? := by
    cases C with
    | nil => simp
    | cons c t =>
      have : less c E = false := (less_of_lt (by rw [hE]; exact hC c List.mem_cons_self)).2
      simp [this]
  rcases List.eq_nil_or_concat B with rfl | ⟨B', b, rfl⟩
  · simp only [List.nil_append, fC.1, fC.2]
    simp [backUp]
  · rw [List.concat_eq_append] at *
    obtain ⟨g1, g2, g3⟩ := good_append hg
    obtain ⟨g4, g5, g6⟩ := good_append g1
    have hb := hB b (by simp)
    have lB : ∀ a ∈ B', less a E = true := fun a ha => (less_of_lt (by
      have := g6 a ha b (by simp); have := g4.2 a ha; omega)).1
    have nB : B'.find? (fun a => !less a E) = none := by
      rw [List.find?_eq_none]; intro a ha; simp [lB a ha]
    have e1 : B' ++ [b] ++ C = B' ++ (b :: C) := by simp
    rw [e1, List.takeWhile_append_of_pos lB, List.find?_append, nB]
    cases hl : less b E
    · simp only [List.takeWhile_cons, hl, List.find?_cons]
      have : ∀ ps, backUp l ps (some b) = some b := fun ps => by cases ps <;> simp [backUp]; omega
      simp [this]
    · simp only [List.takeWhile_cons, hl, List.find?_cons, fC.1, fC.2]
      have : ∀ ps, backUp l ps (some b) = some b := fun ps => by cases ps <;> simp [backUp]; omega
      cases C with
      | nil => simp [backUp, this]
      | cons c t =>
        have := hC c List.mem_cons_self
        simp [backUp, this, ‹∀ ps, backUp l ps (some b) = some b›]

theorem next_split {B' C : List SR} {b : SR} (hg : Good (B' ++ b :: C)) : nextIt (B' ++ b :: C) b = C.head? := by
  obtain ⟨g1, g2, g3⟩ := good_append hg
  obtain ⟨g4, g5, g6⟩ := good_cons.mp g2
  have nB : B'.find? (fun a => less b a) = none := by
    rw [List.find?_eq_none]; intro a ha
    have := g3 a ha b List.mem_cons_self; have := g1.2 a ha
    simp [(less_of_lt (a := a) (b := b) (by omega)).2]
  unfold nextIt
  rw [List.find?_append, nB]
  simp only [List.find?_cons, less_irrefl]
  cases C with
  | nil => simp
  | cons c t =>
    have := g4 c List.mem_cons_self
    simp [(less_of_lt (a := b) (b := c) (by omega)).1]

section
variable {cur l h : Int}

theorem loop_stop (f : Nat) (it : Option SR) (st : St) (ep : Bool) (h1 : ∀ r, it = some r → h < r.lo) :
    loop cur l h (f + 1) it st ep = some (st, ep) := by
  cases it with
  | none => rfl
  | some r => rw [loop, if_neg (by have := h1 r rfl; omega)]

theorem loop_skip (f : Nat) (r : SR) (st : St) (ep : Bool) (h1 : r.lo ≤ h) (h2 : r.hi < l) :
    loop cur l h (f + 1) (some r) st ep = loop cur l h f (nextIt st.S r) st ep := by
  rw [loop, if_pos h1, if_neg (by omega)]

theorem loop_close (f : Nat) (r : SR) (st : St) (ep : Bool) (hlh : l < h) (h1 : r.lo ≤ l) (h2 : h ≤ r.hi) :
    loop cur l h (f + 1) (some r) st ep = some (closeEdge cur l h st r, true) := by
  rw [loop, if_pos (by omega), if_pos (by omega), if_pos]
  simp [containsIvl, containsVal, Ivl.get, Verif.Isotropy.LOW, Verif.Isotropy.HIGH]
  omega

theorem loop_open (f : Nat) (r : SR) (st : St) (ep : Bool) (h1 : r.lo ≤ h) (h2 : l ≤ r.hi) (h3 : l < r.lo ∨ r.hi < h) :
    loop cur l h (f + 1) (some r) st ep = loop cur l h f (nextIt st.S r) (openEdge cur l h st ep r) true := by
  rw [loop, if_pos h1, if_pos h2, if_neg]
  simp [containsIvl, containsVal, Ivl.get, Verif.Isotropy.LOW, Verif.Isotropy.HIGH]
  omega

theorem next_stop {S1 : List SR} {c : SR} (hS : ∀ a ∈ S1, a = c ∨ a.lo < c.lo ∨ h < a.lo) :
    ∀ r, nextIt S1 c = some r → h < r.lo := by
  intro r hr
  have h1 := List.find?_some hr
  have h2 := List.mem_of_find?_eq_some hr
  have h3 := le_of_less h1
  rcases hS r h2 with rfl | h4 | h4
  · simp [less_irrefl] at h1
  · omega
  · exact h4

theorem finish_open {y0 : Int} {st : St} (hi : Inv cur y0 st) (hlh : l < h) (hy : y0 ≤ l)
    (hK : st.hv = true → st.K.hi ≤ l) (hS : ∀ a ∈ st.S, a.hi < l ∨ h < a.lo) :
    Post 1 cur l h st (finish cur l h st) := by
  unfold finish
  by_cases hv : st.hv = true
  · obtain ⟨k1, k2, k3, k4, k5⟩ := hi.k hv
    have hk := hK hv
    by_cases hl : st.K.hi = l
    · rw [if_pos (by simp [hv, k3]; omega), if_neg (by omega)]
      have := extend_post (l := l) (h := h) hi hv (by omega) (R := st.S) (out := st.out) (h' := h) (rem := fun _ => 0) hi.good
        (fun a h => h) (by simp) (by omega) (fun a ha => by
          have := k4 a ha; have := hS a ha; have := hi.good.2 a ha
          show a.hi < st.K.lo ∨ h < a.lo; omega) hi.outOk outs_nil (by simp) (fun y => by
          unfold cv ev; dsimp only; split_ifs <;> omega)
      rw [show ({ st with K := { st.K with hi := h } } : St) = ⟨st.S, true, { st.K with hi := h }, st.out⟩ by rw [← hv]]
      exact this
    · rw [if_neg (by simp [hv, k3]; omega), if_pos hv]
      have := alone_post hi hlh (fun a ha => hS a ha) (fun _ => by omega) hi.outOk
      rw [flush, if_pos hv] at this
      exact this
  · rw [if_neg (by simp [hv]), if_neg hv]
    have := alone_post hi hlh (fun a ha => hS a ha) (fun h' => absurd h' hv) hi.outOk
    rw [flush, if_neg hv] at this
    exact this

/-- The rest of `processEdge` after the loop. -/
def rest (cur l h : Int) (r : Option (St × Bool)) : Option St := do
  let (st, ep) ← r
  if ep then some st else some (finish cur l h st)

theorem processEdge_eq (st : St) : processEdge cur l h st =
    rest cur l h (if st.S = [] then some (st, false) else
      loop cur l h (2 * st.S.length + 2) (backUp l (st.S.takeWhile (fun a => less a ⟨l, h, l, h⟩)).reverse
        (st.S.find? (fun a => !less a ⟨l, h, l, h⟩))) st false) := by
  unfold processEdge rest
  split_ifs <;> rfl

/-- Opening edge, from the first rectangle above the edge on. -/
theorem open_from_C {y0 : Int} {st : St} (hi : Inv cur y0 st) (hlh : l < h) (hy : y0 ≤ l) {B C : List SR} (hS : st.S = B ++ C)
    (hfree : ∀ a ∈ act st, a.hi ≤ l ∨ h ≤ a.lo) (hB : ∀ a ∈ B, a.hi < l) (hC : ∀ a ∈ C, l < a.lo) (f : Nat) :
    ∃ st', rest cur l h (loop cur l h (f + 2) C.head? st false) = some st' ∧ Post 1 cur l h st st' := by
  have hK : st.hv = true → st.K.hi ≤ l := fun hv => by
    have h1 := hfree st.K (by simp [act, hv])
    obtain ⟨k1, k2, k3, k4, k5⟩ := hi.k hv
    omega
  have fS : ∀ a ∈ st.S, a.hi ≤ l ∨ h ≤ a.lo := fun a ha => hfree a (by unfold act; split <;> simp [ha])
  by_cases hc : ∃ c, C.head? = some c ∧ c.lo = h
  · obtain ⟨c, hc1, hc2⟩ := hc
    obtain ⟨C', rfl⟩ : ∃ C', C = c :: C' := by
      cases C with
      | nil => simp at hc1
      | cons d C' => simp at hc1; exact ⟨C', by rw [hc1]⟩
    have hcS : c ∈ st.S := by rw [hS]; simp
    have hc0 := hi.good.2 c hcS
    have hcp := hi.start c hcS
    have others : ∀ a ∈ st.S, a ≠ c → a.hi < l ∨ c.hi < a.lo := fun a ha hne => by
      rw [hS] at ha
      rcases List.mem_append.mp ha with h' | h'
      · exact Or.inl (hB a h')
      · have := sep_two hi.good (by rw [hS]; simp [h']) hcS hne
        have := hC a h'
        have := fS a (by rw [hS]; simp [h'])
        have := hi.good.2 a (by rw [hS]; simp [h'])
        omega
    have gE := good_erase hi.good c
    have mE := fun a => mem_erase hi.good (r := c) (a := a)
    rw [List.head?_cons, loop_open (f + 1) c st false hc2.le (by omega) (Or.inl (by omega)),
      loop_stop f _ _ _ (next_stop (fun a ha => by
        by_cases e : a = c
        · exact Or.inl e
        · have := others a ha e
          have := hi.good.2 a ha
          omega))]
    refine ⟨openEdge cur l h st false c, by simp [rest], ?_⟩
    have hoT : ∀ x y, x < cur → sm (oc x y) (emit cur st.out c) = sm (oc x y) st.out + tc x y c :=
      fun x y hx => sm_emit st.out cur c x y hx hcp
    have hoF : ∀ S' : List SR, (∀ a ∈ S', (st.hv = true ∧ a = st.K) ∨ a ∈ st.S.erase c) → Outs cur l h st S' (emit cur st.out c) := by
      intro S' hS'
      refine outs_emit hcS (fun hp hm => ?_) hc2.le (by omega)
      rcases hS' c hm with ⟨hv, e⟩ | h'
      · have := (hi.k hv).2.1; rw [← e] at this; omega
      · exact ((mem_erase hi.good).mp h').1 rfl
    by_cases hv : st.hv = true
    · obtain ⟨k1, k2, k3, k4, k5⟩ := hi.k hv
      have hk := hK hv
      by_cases hl : st.K.hi = l
      · have e : openEdge cur l h st false c = ⟨st.S.erase c, true, { st.K with hi := c.hi }, emit cur st.out c⟩ := by
          unfold openEdge emit
          simp only [hv, if_true]
          rw [if_pos (by omega), if_neg (by simp; omega), max_eq_right (by omega)]
        rw [e]
        exact extend_post hi hv (by omega) (rem := fun w => w c) gE (fun a ha => ((mE a).mp ha).2)
          (fun w => by rw [sm_erase hcS w]; omega) (by omega) (fun a ha => by
            have h1 := (mE a).mp ha
            have := k4 a h1.2
            have := others a h1.2 h1.1
            have := hi.good.2 a h1.2
            show a.hi < st.K.lo ∨ c.hi < a.lo; omega) (emit_ok hi.outOk hc0) (hoF _ (fun a ha => Or.inr ha)) hoT
          (fun y => by unfold cv ev; dsimp only; split_ifs <;> omega)
      · have e : openEdge cur l h st false c = ⟨flush st (st.S.erase c), true, ⟨l, c.hi, cur, cur⟩, emit cur st.out c⟩ := by
          unfold openEdge emit flush
          simp only [hv, if_true]
          rw [if_neg (by omega), max_eq_left (show h ≤ c.hi by omega), min_eq_right (show l ≤ c.lo by omega)]
        rw [e]
        obtain ⟨f1, f2, f3⟩ := flush_facts hi gE (fun a ha => ((mE a).mp ha).2)
        refine fresh_post hi (rem := fun w => w c) f1 (fun a ha => ((f2 a).mp ha).imp id (fun h => ((mE a).mp h).2))
          (fun w => ?_) ⟨by simp only; omega, rfl, rfl, hlh⟩ (fun a ha => ?_) (emit_ok hi.outOk hc0) (hoF _ (fun a ha => (f2 a).mp ha)) hoT
          (fun y => by unfold cv ev; dsimp only; split_ifs <;> omega)
        · rw [f3, act_sm, sm_erase hcS w]; omega
        · rcases (f2 a).mp ha with ⟨_, rfl⟩ | h1
          · left; show st.K.hi < l; omega
          · exact others a ((mE a).mp h1).2 ((mE a).mp h1).1
    · have e : openEdge cur l h st false c = ⟨flush st (st.S.erase c), true, ⟨l, c.hi, cur, cur⟩, emit cur st.out c⟩ := by
        unfold openEdge emit flush
        simp only [hv]
        rw [max_eq_left (show h ≤ c.hi by omega), min_eq_right (show l ≤ c.lo by omega)]
        simp
      rw [e]
      obtain ⟨f1, f2, f3⟩ := flush_facts hi gE (fun a ha => ((mE a).mp ha).2)
      refine fresh_post hi (rem := fun w => w c) f1 (fun a ha => ((f2 a).mp ha).imp id (fun h => ((mE a).mp h).2))
        (fun w => ?_) ⟨by simp only; omega, rfl, rfl, hlh⟩ (fun a ha => ?_) (emit_ok hi.outOk hc0) (hoF _ (fun a ha => (f2 a).mp ha)) hoT
        (fun y => by unfold cv ev; dsimp only; split_ifs <;> omega)
      · rw [f3, act_sm, sm_erase hcS w]; omega
      · rcases (f2 a).mp ha with ⟨h1, _⟩ | h1
        · exact absurd h1 hv
        · exact others a ((mE a).mp h1).2 ((mE a).mp h1).1
  · rw [loop_stop (f + 1) _ _ _ (fun r hr => ?_)]
    · refine ⟨finish cur l h st, by simp [rest], finish_open hi hlh hy hK (fun a ha => ?_)⟩
      have h0 := fS a ha
      have h00 := hi.good.2 a ha
      rw [hS] at ha
      rcases List.mem_append.mp ha with h' | h'
      · exact Or.inl (hB a h')
      · have := hC a h'
        cases C with
        | nil => simp at h'
        | cons c C' =>
          have hne : c.lo ≠ h := fun e => hc ⟨c, rfl, e⟩
          have h2 := hC c List.mem_cons_self
          have h3 := fS c (by rw [hS]; simp)
          have h4 := hi.good.2 c (by rw [hS]; simp)
          rcases List.mem_cons.mp h' with rfl | h5
          · omega
          · have := (good_cons.mp (good_append (hS ▸ hi.good)).2.1).1 a h5
            omega
    · cases C with
      | nil => simp at hr
      | cons c C' =>
        simp at hr; subst hr
        have hne : c.lo ≠ h := fun e => hc ⟨c, rfl, e⟩
        have h2 := hC c List.mem_cons_self
        have h3 := fS c (by rw [hS]; simp)
        have h4 := hi.good.2 c (by rw [hS]; simp)
        omega

/-- An opening edge is processed correctly. -/
theorem process_open {y0 : Int} {st : St} (hi : Inv cur y0 st) (hlh : l < h) (hy : y0 ≤ l)
    (hfree : ∀ a ∈ act st, a.hi ≤ l ∨ h ≤ a.lo) :
    ∃ st', processEdge cur l h st = some st' ∧ Post 1 cur l h st st' := by
  have hK : st.hv = true → st.K.hi ≤ l := fun hv => by
    have h1 := hfree st.K (by simp [act, hv])
    obtain ⟨k1, k2, k3, k4, k5⟩ := hi.k hv
    omega
  have fS : ∀ a ∈ st.S, a.hi ≤ l ∨ h ≤ a.lo := fun a ha => hfree a (by unfold act; split <;> simp [ha])
  rw [processEdge_eq]
  by_cases hS0 : st.S = []
  · rw [if_pos hS0]
    exact ⟨finish cur l h st, by simp [rest], finish_open hi hlh hy hK (by simp [hS0])⟩
  rw [if_neg hS0]
  obtain ⟨f, hf⟩ : ∃ f, 2 * st.S.length + 2 = f + 4 := ⟨2 * st.S.length - 2, by
    have := List.length_pos_iff.mpr hS0; omega⟩
  obtain ⟨B, C, hS, hB, hC⟩ := split_at hi.good l
  have hg : Good (B ++ C) := hS ▸ hi.good
  rw [hf, show backUp l (st.S.takeWhile (fun a => less a ⟨l, h, l, h⟩)).reverse
        (st.S.find? (fun a => !less a ⟨l, h, l, h⟩)) = (B.getLast?).or C.head? by
      rw [hS]; exact start_it ⟨l, h, l, h⟩ rfl hg hB hC]
  rcases List.eq_nil_or_concat B with rfl | ⟨B', b, rfl⟩
  · exact open_from_C hi hlh hy (B := []) hS hfree (by simp) hC (f + 2)
  rw [List.concat_eq_append] at *
  have hbS : b ∈ st.S := by rw [hS]; simp
  have hb0 := hi.good.2 b hbS
  have hbl := hB b (by simp)
  have hbp := hi.start b hbS
  have hbh : b.hi ≤ l := by have := fS b hbS; omega
  obtain ⟨g1, g2, g3⟩ := good_append hg
  obtain ⟨g4, g5, g6⟩ := good_append g1
  have hB' : ∀ a ∈ B', a.hi < l := fun a ha => by have := g6 a ha b (by simp); omega
  have nx : nextIt st.S b = C.head? := by
    rw [hS, show B' ++ [b] ++ C = B' ++ b :: C by simp]
    exact next_split (by rw [show B' ++ b :: C = B' ++ [b] ++ C by simp]; exact hg)
  rw [show (B' ++ [b]).getLast?.or C.head? = some b by simp]
  by_cases hbt : b.hi < l
  · rw [loop_skip (f + 3) b st false (by omega) hbt, nx]
    exact open_from_C hi hlh hy hS hfree (fun a ha => by
      rcases List.mem_append.mp ha with h' | h'
      · exact hB' a h'
      · rw [List.mem_singleton.mp h']; exact hbt) hC (f + 1)
  -- the edge touches the rectangle below it
  rw [loop_open (f + 3) b st false (by omega) (by omega) (Or.inr (by omega)), nx]
  have gE := good_erase hi.good b
  have mE := fun a => mem_erase hi.good (r := b) (a := a)
  obtain ⟨f1, f2, f3⟩ := flush_facts hi gE (fun a ha => ((mE a).mp ha).2)
  have hKb : st.hv = true → st.K.hi < b.lo := fun hv => by
    obtain ⟨k1, k2, k3, k4, k5⟩ := hi.k hv
    have := k4 b hbS
    omega
  have e1 : openEdge cur l h st false b = ⟨flush st (st.S.erase b), true, ⟨b.lo, h, cur, cur⟩, emit cur st.out b⟩ := by
    unfold openEdge emit flush
    cases hv : st.hv
    · simp only [Bool.false_eq_true, if_false]
      rw [max_eq_right (show b.hi ≤ h by omega), min_eq_left (show b.lo ≤ l by omega)]
    · simp only [if_true]
      have := hKb hv
      rw [if_neg (by omega), max_eq_right (show b.hi ≤ h by omega), min_eq_left (show b.lo ≤ l by omega)]
  rw [e1]
  have others : ∀ a ∈ st.S, a ≠ b → a.hi < b.lo ∨ (a ∈ C ∧ h ≤ a.lo) := fun a ha hne => by
    have h0 := fS a ha
    have h1 := hi.good.2 a ha
    have h2 := sep_two hi.good ha hbS hne
    rw [hS] at ha
    rcases List.mem_append.mp ha with h' | h'
    · rcases List.mem_append.mp h' with h'' | h''
      · have := hB' a h''; omega
      · exact absurd (List.mem_singleton.mp h'') hne
    · right
      have := hC a h'
      exact ⟨h', by omega⟩
  have hoT : ∀ x y, x < cur → sm (oc x y) (emit cur st.out b) = sm (oc x y) st.out + tc x y b :=
    fun x y hx => sm_emit st.out cur b x y hx hbp
  have hoF : b.pl < cur → b ∉ flush st (st.S.erase b) := by
    intro hp hm
    rcases (f2 b).mp hm with ⟨hv, e⟩ | h'
    · have := (hi.k hv).2.1; rw [← e] at this; omega
    · exact ((mE b).mp h').1 rfl
  by_cases hc : ∃ c, C.head? = some c ∧ c.lo = h
  · obtain ⟨c, hc1, hc2⟩ := hc
    obtain ⟨C', rfl⟩ : ∃ C', C = c :: C' := by
      cases C with
      | nil => simp at hc1
      | cons d C' => simp at hc1; exact ⟨C', by rw [hc1]⟩
    have hcS : c ∈ st.S := by rw [hS]; simp
    have hc0 := hi.good.2 c hcS
    have hcp := hi.start c hcS
    have hcb : c ≠ b := by rintro rfl; omega
    have hcE : c ∈ st.S.erase b := (mE c).mpr ⟨hcb, hcS⟩
    have hcF : c ∈ flush st (st.S.erase b) := (f2 c).mpr (Or.inr hcE)
    have o2 : ∀ a ∈ flush st (st.S.erase b), a ≠ c → a.hi < b.lo ∨ c.hi < a.lo := fun a ha hne => by
      rcases (f2 a).mp ha with ⟨hv, rfl⟩ | h1
      · exact Or.inl (hKb hv)
      · have h2 := (mE a).mp h1
        rcases others a h2.2 h2.1 with h3 | ⟨h3, h4⟩
        · exact Or.inl h3
        · right
          rcases List.mem_cons.mp h3 with h5 | h5
          · exact absurd h5 hne
          · exact (good_cons.mp g2).1 a h5
    rw [List.head?_cons, loop_open (f + 2) c _ true hc2.le (by omega) (Or.inl (by omega)),
      loop_stop (f + 1) _ _ _ (next_stop (fun a ha => by
        by_cases e : a = c
        · exact Or.inl e
        · have := o2 a ha e
          have := f1.2 a ha
          omega))]
    refine ⟨_, by simp [rest]; rfl, ?_⟩
    have e2 : openEdge cur l h ⟨flush st (st.S.erase b), true, ⟨b.lo, h, cur, cur⟩, emit cur st.out b⟩ true c =
        ⟨(flush st (st.S.erase b)).erase c, true, ⟨b.lo, c.hi, cur, cur⟩, emit cur (emit cur st.out b) c⟩ := by
      unfold openEdge
      simp only [if_true]
      rw [if_pos (show h ≥ l by omega)]
      simp only [Bool.not_true, Bool.false_and, Bool.false_eq_true, if_false]
      rw [max_eq_right (show h ≤ c.hi by omega)]
      rfl
    rw [e2]
    refine fresh_post hi (rem := fun w => w b + w c) (good_erase f1 c) (fun a ha =>
        ((f2 a).mp ((mem_erase f1).mp ha).2).imp id (fun h => ((mE a).mp h).2))
      (fun w => ?_) ⟨by simp only; omega, rfl, rfl, by simp only; omega⟩ (fun a ha => ?_)
      (emit_ok (emit_ok hi.outOk hb0) hc0) (outs_emit2 hbS hcS (fun hp hm => hoF hp (List.mem_of_mem_erase hm)) (fun _ hm => ((mem_erase f1).mp hm).1 rfl) (by omega) (by omega) (by omega) (by omega) (by omega))
      (fun x y hx => ?_)
      (fun y => by unfold cv ev; dsimp only; split_ifs <;> omega)
    · have := sm_erase hcF w
      rw [f3] at this
      rw [act_sm, sm_erase hbS w]; omega
    · exact o2 a ((mem_erase f1).mp ha).2 ((mem_erase f1).mp ha).1
    · rw [sm_emit _ cur c x y hx hcp, hoT x y hx]; omega
  · have hCh : ∀ a ∈ C, h < a.lo := fun a ha => by
      cases C with
      | nil => simp at ha
      | cons c C' =>
        have hne : c.lo ≠ h := fun e => hc ⟨c, rfl, e⟩
        have h2 := hC c List.mem_cons_self
        have h3 := fS c (by rw [hS]; simp)
        have h4 := hi.good.2 c (by rw [hS]; simp)
        rcases List.mem_cons.mp ha with rfl | h5
        · omega
        · have := (good_cons.mp g2).1 a h5
          omega
    rw [loop_stop (f + 2) _ _ _ (fun r hr => hCh r (List.mem_of_mem_head? (by rw [hr]; rfl)))]
    refine ⟨_, by simp [rest]; rfl, ?_⟩
    refine fresh_post hi (rem := fun w => w b) f1 (fun a ha => ((f2 a).mp ha).imp id (fun h => ((mE a).mp h).2))
      (fun w => ?_) ⟨by simp only; omega, rfl, rfl, by simp only; omega⟩ (fun a ha => ?_) (emit_ok hi.outOk hb0) (outs_emit hbS hoF (by omega) (by omega)) hoT
      (fun y => by unfold cv ev; dsimp only; split_ifs <;> omega)
    · rw [f3, act_sm, sm_erase hbS w]; omega
    · rcases (f2 a).mp ha with ⟨hv, rfl⟩ | h1
      · exact Or.inl (hKb hv)
      · rcases others a ((mE a).mp h1).2 ((mE a).mp h1).1 with h2 | h2
        · exact Or.inl h2
        · exact Or.inr (hCh a h2.1)

/-- A closing edge is processed correctly. -/
theorem process_close {y0 : Int} {st : St} (hi : Inv cur y0 st) (hlh : l < h) (hy : y0 ≤ l)
    (hKl : st.hv = true → st.K.lo < l)
    (hin : ∃ a ∈ act st, a.lo ≤ l ∧ h ≤ a.hi) :
    ∃ st', processEdge cur l h st = some st' ∧ Post (-1) cur l h st st' := by
  obtain ⟨a, ha, hal, hah⟩ := hin
  rw [processEdge_eq]
  by_cases haS : a ∈ st.S
  · have hS0 : st.S ≠ [] := List.ne_nil_of_mem haS
    rw [if_neg hS0]
    obtain ⟨f, hf⟩ : ∃ f, 2 * st.S.length + 2 = f + 4 := ⟨2 * st.S.length - 2, by
      have := List.length_pos_iff.mpr hS0; omega⟩
    obtain ⟨B, C, hS, hB, hC⟩ := split_at hi.good l
    have hg : Good (B ++ C) := hS ▸ hi.good
    rw [hf, show backUp l (st.S.takeWhile (fun a => less a ⟨l, h, l, h⟩)).reverse
          (st.S.find? (fun a => !less a ⟨l, h, l, h⟩)) = (B.getLast?).or C.head? by
        rw [hS]; exact start_it ⟨l, h, l, h⟩ rfl hg hB hC]
    have haB : a ∈ B := by
      rw [hS] at haS
      rcases List.mem_append.mp haS with h' | h'
      · exact h'
      · have := hC a h'; omega
    rcases List.eq_nil_or_concat B with rfl | ⟨B', b, rfl⟩
    · simp at haB
    rw [List.concat_eq_append] at *
    have hb : b = a := by
      by_contra hne
      have h1 := (good_append (good_append hg).1).2.2 a (by
        rcases List.mem_append.mp haB with h' | h'
        · exact h'
        · exact absurd (List.mem_singleton.mp h').symm hne) b (by simp)
      have := hB b (by simp)
      omega
    subst hb
    rw [show (B' ++ [b]).getLast?.or C.head? = some b by simp, loop_close (f + 3) b st false hlh hal hah]
    exact ⟨_, by simp [rest], close_post hi (by omega) hlh haS hal hah⟩
  · have hv : st.hv = true := by
      by_contra hv
      exact haS (by simpa [act, hv] using ha)
    have haK : a = st.K := by
      rw [act, if_pos hv] at ha
      rcases List.mem_cons.mp ha with h' | h'
      · exact h'
      · exact absurd h' haS
    subst haK
    obtain ⟨k1, k2, k3, k4, k5⟩ := hi.k hv
    have post := closeK_post hi hlh hv hah (hKl hv)
    by_cases hS0 : st.S = []
    · rw [if_pos hS0]
      exact ⟨_, by simp [rest], post⟩
    rw [if_neg hS0]
    obtain ⟨f, hf⟩ : ∃ f, 2 * st.S.length + 2 = f + 4 := ⟨2 * st.S.length - 2, by
      have := List.length_pos_iff.mpr hS0; omega⟩
    obtain ⟨B, C, hS, hB, hC⟩ := split_at hi.good l
    have hg : Good (B ++ C) := hS ▸ hi.good
    rw [hf, show backUp l (st.S.takeWhile (fun a => less a ⟨l, h, l, h⟩)).reverse
          (st.S.find? (fun a => !less a ⟨l, h, l, h⟩)) = (B.getLast?).or C.head? by
        rw [hS]; exact start_it ⟨l, h, l, h⟩ rfl hg hB hC]
    have hCh : ∀ r, C.head? = some r → h < r.lo := fun r hr => by
      have hrC := List.mem_of_mem_head? (by rw [hr]; rfl : r ∈ C.head?)
      have := hC r hrC
      have hrS : r ∈ st.S := by rw [hS]; simp [hrC]
      have := k4 r hrS
      have := hi.good.2 r hrS
      omega
    rcases List.eq_nil_or_concat B with rfl | ⟨B', b, rfl⟩
    · rw [show ([] : List SR).getLast?.or C.head? = C.head? by simp, loop_stop (f + 3) _ _ _ hCh]
      exact ⟨_, by simp [rest], post⟩
    rw [List.concat_eq_append] at *
    have hbS : b ∈ st.S := by rw [hS]; simp
    have nx : nextIt st.S b = C.head? := by
      rw [hS, show B' ++ [b] ++ C = B' ++ b :: C by simp]
      exact next_split (by rw [show B' ++ b :: C = B' ++ [b] ++ C by simp]; exact hg)
    have h1 := hB b (by simp)
    have h2 := k4 b hbS
    rw [show (B' ++ [b]).getLast?.or C.head? = some b by simp,
      loop_skip (f + 3) b st false (by omega) (by omega), nx, loop_stop (f + 2) _ _ _ hCh]
    exact ⟨_, by simp [rest], post⟩

end

/-! ### counting -/

theorem cv_nonneg (y : Int) (a : SR) : 0 ≤ cv y a := by unfold cv; split_ifs <;> simp

theorem sm_nonneg (y : Int) (L : List SR) : 0 ≤ sm (cv y) L := by
  induction L with
  | nil => simp
  | cons a t ih => have := cv_nonneg y a; simp; omega

theorem sm_pos {y : Int} {L : List SR} {a : SR} (ha : a ∈ L) (h : a.lo ≤ y ∧ y < a.hi) : 1 ≤ sm (cv y) L := by
  rw [sm_perm (List.perm_cons_erase ha), sm_cons]
  have := sm_nonneg y (L.erase a)
  have : cv y a = 1 := if_pos h
  omega

theorem exists_of_sm {y : Int} {L : List SR} (h : 0 < sm (cv y) L) : ∃ a ∈ L, a.lo ≤ y ∧ y < a.hi := by
  induction L with
  | nil => simp at h
  | cons a t ih =>
    by_cases ha : a.lo ≤ y ∧ y < a.hi
    · exact ⟨a, List.mem_cons_self, ha⟩
    · have : cv y a = 0 := if_neg ha
      rw [sm_cons, this] at h
      obtain ⟨b, hb, h'⟩ := ih (by omega)
      exact ⟨b, List.mem_cons_of_mem _ hb, h'⟩

theorem act_sep {cur y0 : Int} {st : St} (hi : Inv cur y0 st) {a b : SR} (ha : a ∈ act st) (hb : b ∈ act st) (hne : a ≠ b) :
    a.hi < b.lo ∨ b.hi < a.lo := by
  unfold act at ha hb
  by_cases hv : st.hv = true
  · rw [if_pos hv] at ha hb
    have k4 := (hi.k hv).2.2.2.1
    rcases List.mem_cons.mp ha with rfl | ha' <;> rcases List.mem_cons.mp hb with rfl | hb'
    · exact absurd rfl hne
    · have := k4 _ hb'; omega
    · have := k4 _ ha'; omega
    · exact sep_two hi.good ha' hb' hne
  · rw [if_neg hv] at ha hb
    exact sep_two hi.good ha hb hne

theorem act_ne {cur y0 : Int} {st : St} (hi : Inv cur y0 st) {a : SR} (ha : a ∈ act st) : a.lo < a.hi := by
  unfold act at ha
  by_cases hv : st.hv = true
  · rw [if_pos hv] at ha
    rcases List.mem_cons.mp ha with rfl | ha'
    · exact (hi.k hv).1
    · exact hi.good.2 a ha'
  · rw [if_neg hv] at ha
    exact hi.good.2 a ha

theorem free_of_zero {cur y0 l h : Int} {st : St} (hi : Inv cur y0 st) (hlh : l < h)
    (hz : ∀ y, l ≤ y → y < h → sm (cv y) (act st) = 0) : ∀ a ∈ act st, a.hi ≤ l ∨ h ≤ a.lo := by
  intro a ha
  by_contra hn
  have := act_ne hi ha
  have h1 := sm_pos (y := max a.lo l) ha (by omega)
  have := hz (max a.lo l) (by omega) (by omega)
  omega

theorem in_of_one {cur y0 l h : Int} {st : St} (hi : Inv cur y0 st) (hlh : l < h)
    (hz : ∀ y, l ≤ y → y < h → sm (cv y) (act st) = 1) : ∃ a ∈ act st, a.lo ≤ l ∧ h ≤ a.hi := by
  obtain ⟨a, ha, h1, h2⟩ := exists_of_sm (y := l) (L := act st) (by rw [hz l (le_refl _) hlh]; decide)
  refine ⟨a, ha, h1, ?_⟩
  by_contra hn
  obtain ⟨b, hb, h3, h4⟩ := exists_of_sm (y := a.hi) (L := act st) (by rw [hz a.hi (by omega) (by omega)]; decide)
  have hne : a ≠ b := by rintro rfl; omega
  have := act_sep hi ha hb hne
  omega

/-! ### the data of a clean set comes in edges -/

/-- Sum of the counts in the column `a`. -/
def col (a : Int) (L : List V) : Int := (L.map (fun v => if v.x = a then v.c else 0)).sum

theorem col_append (a : Int) (L M : List V) : col a (L ++ M) = col a L + col a M := by simp [col]
theorem col_cons (a : Int) (v : V) (L : List V) : col a (v :: L) = (if v.x = a then v.c else 0) + col a L := by simp [col]

/-- Coverage contributed by the column `a`. -/
def colc (a y : Int) (L : List V) : Int := (L.map (fun v => if v.x = a ∧ v.y ≤ y then v.c else 0)).sum

theorem colc_append (a y : Int) (L M : List V) : colc a y (L ++ M) = colc a y L + colc a y M := by simp [colc]
theorem colc_cons (a y : Int) (v : V) (L : List V) :
    colc a y (v :: L) = (if v.x = a ∧ v.y ≤ y then v.c else 0) + colc a y L := by simp [colc]

theorem cover_step (L : List V) (a y : Int) : coverZ L a y = coverZ L (a - 1) y + colc a y L := by
  induction L with
  | nil => simp [coverZ, colc]
  | cons v t ih =>
    rw [coverZ_cons, coverZ_cons, colc_cons, ih]
    split_ifs <;> omega

theorem colc_eq_col {L : List V} {a y : Int} (h : ∀ v ∈ L, v.x = a → v.y ≤ y) : colc a y L = col a L := by
  induction L with
  | nil => rfl
  | cons v t ih =>
    rw [colc_cons, col_cons, ih (fun w hw => h w (List.mem_cons_of_mem _ hw))]
    have := h v List.mem_cons_self
    split_ifs <;> omega

theorem coverZ_zero {L : List V} {a y : Int} (h : ∀ v ∈ L, a < v.x ∨ y < v.y) : coverZ L a y = 0 := by
  induction L with
  | nil => rfl
  | cons v t ih =>
    have := h v List.mem_cons_self
    rw [coverZ_cons, ih (fun w hw => h w (List.mem_cons_of_mem _ hw)), if_neg (by omega)]; rfl

theorem coverZ_const {L : List V} {a b y : Int} (h : ∀ v ∈ L, v.x ≤ a) (hab : a ≤ b) : coverZ L b y = coverZ L a y := by
  induction L with
  | nil => rfl
  | cons v t ih =>
    have := h v List.mem_cons_self
    rw [coverZ_cons, coverZ_cons, ih (fun w hw => h w (List.mem_cons_of_mem _ hw))]
    split_ifs <;> omega

theorem exists_of_col {L : List V} {a : Int} (h : col a L ≠ 0) : ∃ v ∈ L, v.x = a := by
  by_contra hn
  push Not at hn
  apply h
  induction L with
  | nil => rfl
  | cons v t ih =>
    have hv : ¬ v.x = a := hn v List.mem_cons_self
    have ht : col a t = 0 := by
      by_contra h0
      exact h0 (ih h0 (fun w hw => hn w (List.mem_cons_of_mem _ hw)))
    rw [col_cons, ht, if_neg hv]; rfl

theorem sum_nonpos' {L : List Int} (h : ∀ z ∈ L, z ≤ 0) : L.sum ≤ 0 := by
  induction L with
  | nil => simp
  | cons a t ih =>
    have := h a List.mem_cons_self
    have := ih (fun z hz => h z (List.mem_cons_of_mem _ hz))
    simp only [List.sum_cons]; omega

/-- The next two vertices are the two ends of an edge. -/
theorem pair_next {P R1 : List V} {v : V} (hs : (P ++ v :: R1).Pairwise VLex) (hf : Flat (P ++ v :: R1))
    (hcl : ∀ a, col a (P ++ v :: R1) = 0) (hP : ∀ a, col a P = 0) :
    ∃ w R', R1 = w :: R' ∧ w.x = v.x ∧ w.c = -v.c ∧ v.y < w.y ∧ (v.c = 1 ∨ v.c = -1) := by
  obtain ⟨f1, f2, f3⟩ := hf
  obtain ⟨s1, s2, s3⟩ := List.pairwise_append.mp hs
  obtain ⟨s4, s5⟩ := List.pairwise_cons.mp s2
  have hv1 := f1 v (by simp)
  have hcol : v.c + col v.x R1 = 0 := by
    have := hcl v.x
    rw [col_append, hP, col_cons, if_pos rfl] at this
    omega
  obtain ⟨u, hu, hux⟩ := exists_of_col (L := R1) (a := v.x) (by omega)
  cases R1 with
  | nil => simp at hu
  | cons w R' =>
    obtain ⟨s6, s7⟩ := List.pairwise_cons.mp s5
    have hvw := s4 w List.mem_cons_self
    have hwx : w.x = v.x := by
      rcases List.mem_cons.mp hu with rfl | hu'
      · exact hux
      · have h1 := s6 u hu'
        unfold VLex at h1 hvw
        omega
    have hw1 := f1 w (by simp)
    have hwc : w.c = -v.c := by
      by_contra hne
      have hwv : w.c = v.c := by omega
      have e1 := cover_step (P ++ v :: w :: R') v.x w.y
      have e2 := f3 (v.x : ℚ) (w.y : ℚ)
      have e3 := f3 ((v.x - 1 : Int) : ℚ) (w.y : ℚ)
      rw [cover_int] at e2 e3
      have e4 : colc v.x w.y P = 0 := by
        rw [colc_eq_col (fun u hu' hux => by
          have h1 := s3 u hu' v (by simp)
          unfold VLex at h1 hvw
          omega), hP]
      have e5 : v.c = 1 → 0 ≤ colc v.x w.y R' := fun hv => by
        unfold colc
        apply List.sum_nonneg
        intro z hz
        obtain ⟨u, hu', rfl⟩ := List.mem_map.mp hz
        split_ifs with hc
        · have h1 := s6 u hu'
          have : u.c = w.c := by
            apply f2 u (by simp [hu']) w (by simp) (by omega)
            unfold VLex at h1
            omega
          omega
        · exact le_refl _
      have e6 : v.c = -1 → colc v.x w.y R' ≤ 0 := fun hv => by
        unfold colc
        apply sum_nonpos'
        intro z hz
        obtain ⟨u, hu', rfl⟩ := List.mem_map.mp hz
        split_ifs with hc
        · have h1 := s6 u hu'
          have : u.c = w.c := by
            apply f2 u (by simp [hu']) w (by simp) (by omega)
            unfold VLex at h1
            omega
          omega
        · exact le_refl _
      rw [colc_append, colc_cons, colc_cons, e4, if_pos ⟨rfl, by unfold VLex at hvw; omega⟩, if_pos ⟨hwx, le_refl _⟩] at e1
      rcases hv1 with hv | hv
      · have := e5 hv; omega
      · have := e6 hv; omega
    refine ⟨w, R', rfl, hwx, hwc, ?_, hv1⟩
    by_contra hn
    have hy : v.y = w.y := by unfold VLex at hvw; omega
    have := f2 v (by simp) w (by simp) hwx.symm hy
    omega

/-! ### the whole scan -/

theorem T_out {cur : Int} {out : List SR} (ho : OutOk cur out) {x y : Int} (hx : cur ≤ x) : sm (oc x y) out = 0 := by
  induction out with
  | nil => rfl
  | cons a t ih =>
    have := ho a List.mem_cons_self
    rw [sm_cons, ih (fun r hr => ho r (List.mem_cons_of_mem _ hr)), oc, if_neg (by omega)]; rfl

theorem tc_eq_cv {L : List SR} {x y : Int} (h : ∀ a ∈ L, a.pl ≤ x) : sm (tc x y) L = sm (cv y) L := by
  induction L with
  | nil => rfl
  | cons a t ih =>
    have := h a List.mem_cons_self
    rw [sm_cons, sm_cons, ih (fun r hr => h r (List.mem_cons_of_mem _ hr))]
    unfold tc cv
    simp [this]

theorem act_start {cur y0 : Int} {st : St} (hi : Inv cur y0 st) : ∀ a ∈ act st, a.pl ≤ cur := by
  intro a ha
  unfold act at ha
  by_cases hv : st.hv = true
  · rw [if_pos hv] at ha
    rcases List.mem_cons.mp ha with rfl | ha'
    · exact (hi.k hv).2.1.le
    · exact hi.start a ha'
  · rw [if_neg hv] at ha
    exact hi.start a ha

theorem nextMajor_eq (st : St) : nextMajor st = ⟨flush st st.S, false, st.K, st.out⟩ := by
  obtain ⟨S, hv, K, out⟩ := st
  cases hv <;> rfl

/-- Open and finished rectangles cannot be extended along the scanline. -/
def Slab (P : List V) (cur : Int) (st : St) : Prop :=
  (∀ a ∈ act st, ∀ x, a.pl ≤ x → x < cur → coverZ P x (a.lo - 1) = 0 ∧ coverZ P x a.hi = 0) ∧
  ∀ a ∈ st.out, ∀ x, a.pl ≤ x → x < a.ph → coverZ P x (a.lo - 1) = 0 ∧ coverZ P x a.hi = 0

theorem slab_step {P Q : List V} {cur l h' : Int} {st st' : St} (h : Slab P cur st) (hf : From cur l h' st st')
    (hc : ∀ x y, x < cur → coverZ Q x y = coverZ P x y) (ho : OutOk cur st'.out) : Slab Q cur st' := by
  constructor
  · intro a ha x h1 h2
    rw [hc _ _ h2, hc _ _ h2]
    rcases hf.1 a ha with h' | h'
    · exact h.1 a h' x h1 h2
    · omega
  · intro o ho' x h1 h2
    have := (ho o ho').2.1
    rw [hc _ _ (by omega), hc _ _ (by omega)]
    rcases hf.outs o ho' with h' | ⟨a, ha, rfl⟩
    · exact h.2 o h' x h1 h2
    · exact h.1 a ha x h1 h2

/-- The cells next to an open rectangle are free. -/
theorem act_gap {cur y0 : Int} {st : St} (hi : Inv cur y0 st) {a : SR} (ha : a ∈ act st) :
    sm (cv (a.lo - 1)) (act st) = 0 ∧ sm (cv a.hi) (act st) = 0 := by
  have h0 := act_ne hi ha
  constructor
  · by_contra hne
    obtain ⟨b, hb, h1, h2⟩ := exists_of_sm (y := a.lo - 1) (L := act st) (by have := sm_nonneg (a.lo - 1) (act st); omega)
    have hab : a ≠ b := by rintro rfl; omega
    have := act_sep hi ha hb hab
    omega
  · by_contra hne
    obtain ⟨b, hb, h1, h2⟩ := exists_of_sm (y := a.hi) (L := act st) (by have := sm_nonneg a.hi (act st); omega)
    have hab : a ≠ b := by rintro rfl; omega
    have := act_sep hi ha hb hab
    omega

/-- The order in which finished rectangles are written. -/
def Before (a b : SR) : Prop := a.ph < b.ph ∨ (a.ph = b.ph ∧ a.hi < b.lo)

/-- Finished rectangles are in order, and those of this column are clear of the open ones. -/
def Ord (cur y0 : Int) (st : St) : Prop :=
  st.out.Pairwise Before ∧
  ∀ o ∈ st.out, o.ph = cur → o.lo ≤ y0 ∧ ∀ a ∈ st.S, a.pl < cur → a.hi < o.lo ∨ o.hi < a.lo

theorem ord_step {cur y0 y1 l h : Int} {st st' : St} (hi : Inv cur y0 st) (ho : Ord cur y1 st) (hl : y1 ≤ l) (hlh : l < h)
    (hf : From cur l h st st') : Ord cur h st' := by
  obtain ⟨f1, L, e, hp, hL⟩ := hf
  have hold : ∀ a ∈ st'.S, a.pl < cur → a ∈ st.S := fun a ha hpl => by
    rcases f1 a (mem_act_S ha) with h' | h'
    · rcases mem_act h' with h' | ⟨hv, rfl⟩
      · exact h'
      · have := (hi.k hv).2.1; omega
    · omega
  constructor
  · rw [e, List.pairwise_append]
    refine ⟨ho.1, ?_, fun o ho' b hb => ?_⟩
    · rw [List.pairwise_map]
      exact hp.imp (fun {a b} h => Or.inr ⟨rfl, h⟩)
    · obtain ⟨a, ha, rfl⟩ := List.mem_map.1 hb
      have hk := (hi.outOk o ho').2.1
      obtain ⟨a1, -, a3, a4, a5⟩ := hL a ha
      by_cases hc : o.ph = cur
      · obtain ⟨o1, o2⟩ := ho.2 o ho' hc
        have := o2 a a1 a3
        exact Or.inr ⟨hc, by show o.hi < a.lo; omega⟩
      · exact Or.inl (by show o.ph < cur; omega)
  · intro o ho' hc
    rw [e] at ho'
    rcases List.mem_append.1 ho' with h' | h'
    · obtain ⟨o1, o2⟩ := ho.2 o h' hc
      exact ⟨by omega, fun a ha hpl => o2 a (hold a ha hpl) hpl⟩
    · obtain ⟨a, ha, rfl⟩ := List.mem_map.1 h'
      obtain ⟨a1, a2, a3, a4, a5⟩ := hL a ha
      refine ⟨a4, fun b hb hpl => ?_⟩
      have hne : b ≠ a := by rintro rfl; exact a2 hb
      have := sep_two hi.good (hold b hb hpl) a1 hne
      exact this

/-- The state between edges, `P` having been read. -/
structure Sc (P : List V) (cur : Int) (st : St) : Prop where
  inv : ∃ y0, (Inv cur y0 st ∧ Ord cur y0 st) ∧ ((P = [] ∧ st = ⟨[], false, ⟨0, 0, 0, 0⟩, []⟩) ∨
    ∃ w ∈ P, w.x = cur ∧ w.y = y0 ∧ (w.c = -1 → st.hv = true → st.K.lo < y0))
  le : ∀ v ∈ P, v.x ≤ cur
  bal : ∀ a, col a P = 0
  area : ∀ y, sm (cv y) (act st) = coverZ P cur y
  tiles : ∀ x y, x < cur → T st x y = coverZ P x y
  slab : Slab P cur st

/-- Reaching the vertex `v`. -/
theorem sc_column {P : List V} {cur : Int} {st : St} {v : V} (hsc : Sc P cur st) (hs : ∀ u ∈ P, VLex u v)
    (hsame : ∀ u ∈ P, u.x = v.x → u.y = v.y → u.c = v.c) :
    Inv v.x v.y (if v.x ≠ cur then nextMajor st else st) ∧
    (v.c = -1 → (if v.x ≠ cur then nextMajor st else st).hv = true → (if v.x ≠ cur then nextMajor st else st).K.lo < v.y) ∧
    (∀ y, sm (cv y) (act (if v.x ≠ cur then nextMajor st else st)) = coverZ P v.x y) ∧
    (∀ x y, x < v.x → T (if v.x ≠ cur then nextMajor st else st) x y = coverZ P x y) ∧
    Slab P v.x (if v.x ≠ cur then nextMajor st else st) ∧
    Ord v.x v.y (if v.x ≠ cur then nextMajor st else st) := by
  obtain ⟨y0, ⟨hi, hord⟩, hlast⟩ := hsc.inv
  by_cases hx : v.x = cur
  · simp only [hx, ne_eq, not_true_eq_false, if_false]
    rcases hlast with ⟨rfl, rfl⟩ | ⟨w, hw, hwx, hwy, hwk⟩
    · exact ⟨⟨good_nil, by simp, by simp, by simp⟩, by simp, fun y => rfl, fun x y _ => rfl, by simp [Slab, act], by simp [Ord]⟩
    · have hyv : y0 ≤ v.y := by have := hs w hw; unfold VLex at this; omega
      refine ⟨⟨hi.good, hi.start, fun hv => ?_, hi.outOk⟩, fun hc hv => ?_, hsc.area, hsc.tiles, hsc.slab, hord.1, fun o ho hc => ⟨?_, (hord.2 o ho hc).2⟩⟩
      · obtain ⟨k1, k2, k3, k4, k5⟩ := hi.k hv
        exact ⟨k1, k2, k3, k4, by omega⟩
      · by_cases e : y0 = v.y
        · have := hwk (by rw [hsame w hw (by omega) (by omega)]; exact hc) hv
          omega
        · have := (hi.k hv).2.2.2.2
          omega
      · have := (hord.2 o ho hc).1
        omega
  · simp only [ne_eq, hx, not_false_eq_true, if_true]
    obtain ⟨f1, f2, f3⟩ := flush_facts hi hi.good (fun a h => h)
    have hact : ∀ w, sm w (act (nextMajor st)) = sm w (act st) := fun w => by
      rw [act_sm, act_sm, nextMajor_eq]
      simp only [f3]
      simp
    rcases hlast with ⟨rfl, rfl⟩ | ⟨w, hw, hwx, hwy, hwk⟩
    · exact ⟨⟨good_nil, by simp [nextMajor], by simp [nextMajor], by simp [nextMajor]⟩, by simp [nextMajor],
        fun y => rfl, fun x y _ => rfl, by simp [Slab, act, nextMajor], by simp [Ord, nextMajor]⟩
    · have hcv : cur < v.x := by have := hs w hw; unfold VLex at this; omega
      refine ⟨⟨by rw [nextMajor_eq]; exact f1, ?_, by simp [nextMajor_eq], ?_⟩, by simp [nextMajor_eq], fun y => ?_,
        fun x y hxv => ?_, ⟨fun a ha x h1 h2 => ?_, fun a ha => ?_⟩, ?_, ?_⟩
      · rw [nextMajor_eq]; intro a ha
        rcases (f2 a).mp ha with ⟨hv, rfl⟩ | ha
        · have := (hi.k hv).2.1; omega
        · have := hi.start a ha; omega
      · rw [nextMajor_eq]; intro r hr
        have := hi.outOk r hr
        exact ⟨this.1, by omega, this.2.2⟩
      · rw [hact, hsc.area, coverZ_const hsc.le hcv.le]
      · unfold T
        rw [hact, show (nextMajor st).out = st.out by rw [nextMajor_eq]]
        by_cases hxc : x < cur
        · exact hsc.tiles x y hxc
        · rw [T_out hi.outOk (by omega), tc_eq_cv (fun a ha => by have := act_start hi a ha; omega), hsc.area,
            coverZ_const hsc.le (show cur ≤ x by omega)]
          omega
      · have ha' : a ∈ act st := by
          rw [nextMajor_eq] at ha
          rcases mem_act ha with h' | ⟨h', -⟩
          · rcases (f2 a).mp h' with ⟨hv, rfl⟩ | h'
            · exact K_act hv
            · exact mem_act_S h'
          · cases h'
        by_cases hxc : x < cur
        · exact hsc.slab.1 a ha' x h1 hxc
        · rw [coverZ_const hsc.le (show cur ≤ x by omega), coverZ_const hsc.le (show cur ≤ x by omega), ← hsc.area, ← hsc.area]
          exact act_gap hi ha'
      · rw [nextMajor_eq] at ha
        exact hsc.slab.2 a ha
      · rw [nextMajor_eq]; exact hord.1
      · rw [nextMajor_eq]; intro o ho hc
        have := (hi.outOk o ho).2.1
        dsimp only at ho hc
        omega

theorem formGo_spec {D : List V} (hs : D.Pairwise VLex) (hf : Flat D) (hcl : ∀ a, col a D = 0) :
    ∀ (n : Nat) (R P : List V) (cur : Int) (st : St), R.length ≤ n → D = P ++ R → Sc P cur st →
      ∃ st' cur', formGo R cur st = some st' ∧ Sc D cur' st' := by
  intro n
  induction n with
  | zero =>
    intro R P cur st hn hD hsc
    have : R = [] := List.length_eq_zero_iff.mp (by omega)
    subst this
    exact ⟨st, cur, rfl, by rw [hD]; simpa using hsc⟩
  | succ n ih =>
    intro R P cur st hn hD hsc
    cases R with
    | nil => exact ⟨st, cur, rfl, by rw [hD]; simpa using hsc⟩
    | cons v R1 =>
      obtain ⟨w, R', rfl, hwx, hwc, hvw, hvc⟩ := pair_next (P := P) (v := v) (R1 := R1) (hD ▸ hs) (hD ▸ hf)
        (hD ▸ hcl) hsc.bal
      obtain ⟨s1, s2, s3⟩ := List.pairwise_append.mp (hD ▸ hs)
      obtain ⟨s4, s5⟩ := List.pairwise_cons.mp s2
      obtain ⟨s6, s7⟩ := List.pairwise_cons.mp s5
      have hf' : Flat (P ++ v :: w :: R') := hD ▸ hf
      obtain ⟨c1, c2, c3, c4, c5, c6⟩ := sc_column hsc (v := v) (fun u hu => s3 u hu v (by simp))
        (fun u hu => hf'.2.1 u (by simp [hu]) v (by simp))
      rw [formGo]
      generalize (if v.x ≠ cur then nextMajor st else st) = st1 at c1 c2 c3 c4 c5 c6
      -- coverage around the edge
      have hPcol : ∀ y, v.y ≤ y → coverZ P v.x y = coverZ D (v.x - 1) y := fun y hy => by
        rw [cover_step P v.x y, colc_eq_col (fun u hu hux => by
          have h1 := s3 u hu v (by simp); unfold VLex at h1; omega), hsc.bal, hD, coverZ_append,
          coverZ_zero (L := v :: w :: R') (fun u hu => by
            rcases List.mem_cons.mp hu with rfl | hu'
            · omega
            · have h1 := s4 u hu'; unfold VLex at h1; omega)]
      have hnew : ∀ y, coverZ (P ++ [v, w]) v.x y = coverZ P v.x y + v.c * ev v.y w.y y := fun y => by
        rw [coverZ_append, coverZ_cons, coverZ_cons, hwx, hwc]
        have h0 : coverZ ([] : List V) v.x y = 0 := rfl
        rw [h0]
        unfold ev
        rcases hvc with hv | hv <;> rw [hv] <;> split_ifs <;> omega
      have hDnew : ∀ y, v.y ≤ y → y < w.y → coverZ D v.x y = coverZ P v.x y + v.c := fun y h1 h2 => by
        have e : D = (P ++ [v, w]) ++ R' := by rw [hD]; simp
        rw [e, coverZ_append, hnew, coverZ_zero (L := R') (fun u hu => by
          have h1 := s6 u hu; unfold VLex at h1; omega), ev, if_pos ⟨h1, h2⟩]
        omega
      have h01 : ∀ a y : Int, coverZ D a y = 0 ∨ coverZ D a y = 1 := fun a y => by
        have := hf.2.2 a y; rwa [cover_int] at this
      obtain ⟨st2, e2, post⟩ : ∃ st2, processEdge v.x v.y w.y st1 = some st2 ∧ Post v.c v.x v.y w.y st1 st2 := by
        rcases hvc with hv | hv
        · rw [hv]
          refine process_open c1 hvw (le_refl _) (free_of_zero c1 hvw (fun y h1 h2 => ?_))
          rw [c3]
          have a1 := hDnew y h1 h2; have a2 := hPcol y h1
          have a3 := h01 v.x y; have a4 := h01 (v.x - 1) y
          omega
        · rw [hv]
          refine process_close c1 hvw (le_refl _) (c2 hv) (in_of_one c1 hvw (fun y h1 h2 => ?_))
          rw [c3]
          have a1 := hDnew y h1 h2; have a2 := hPcol y h1
          have a3 := h01 v.x y; have a4 := h01 (v.x - 1) y
          omega
      obtain ⟨p1, p2, p3, p4, p5⟩ := post
      have hle : ∀ x y, x < v.x → coverZ (P ++ [v, w]) x y = coverZ P x y := fun x y hx => by
        rw [coverZ_append, coverZ_zero (L := [v, w]) (fun u hu => by
            simp at hu; rcases hu with rfl | rfl <;> omega)]
        omega
      have hsc' : Sc (P ++ [v, w]) v.x st2 := by
        refine ⟨⟨w.y, ⟨p1, ord_step c1 c6 (le_refl _) hvw p5⟩, Or.inr ⟨w, by simp, hwx, rfl, fun h1 h2 => p4 (by omega) h2⟩⟩, fun u hu => ?_, fun a => ?_, fun y => ?_,
          fun x y hx => ?_, slab_step c5 p5 hle p1.outOk⟩
        · rcases List.mem_append.mp hu with h1 | h1
          · have := s3 u h1 v (by simp); unfold VLex at this; omega
          · simp at h1; rcases h1 with rfl | rfl <;> omega
        · rw [col_append, hsc.bal, col_cons, col_cons, hwx, hwc]
          have : col a [] = 0 := rfl
          rw [this]
          split_ifs <;> omega
        · rw [p2, c3, hnew]
        · rw [p3 x y hx, c4 x y hx, hle x y hx]
      have hlen : R'.length ≤ n := by simp at hn; omega
      obtain ⟨st', cur', e, hh⟩ := ih R' (P ++ [v, w]) v.x st2 hlen (by rw [hD]; simp) hsc'
      refine ⟨st', cur', ?_, hh⟩
      simp only [e2, Option.bind_eq_bind, Option.bind_some]
      rw [if_neg (by rw [hwc]; rcases hvc with hv | hv <;> rw [hv] <;> decide)]
      exact e

/-- `form_rectangles` on clean data: every rectangle is proper and every cell is covered as often
by the rectangles as by the data. -/
theorem formRects_spec (umax : Int) {D : List V} (hs : D.Pairwise VLex) (hf : Flat D) (hcl : Closed D) :
    ∃ rs, formRects umax D = some rs ∧ (∀ r ∈ rs, r.pl < r.ph ∧ r.lo < r.hi) ∧
      (∀ x y, sm (oc x y) rs = coverZ D x y) ∧
      (∀ r ∈ rs, ∀ x, r.pl ≤ x → x < r.ph → coverZ D x (r.lo - 1) = 0 ∧ coverZ D x r.hi = 0) ∧
      rs.Pairwise Before := by
  obtain ⟨st', cur', e, hsc⟩ := formGo_spec hs hf hcl.1 D.length D [] umax ⟨[], false, ⟨0, 0, 0, 0⟩, []⟩ (le_refl _) rfl
    ⟨⟨0, ⟨⟨good_nil, by simp, by simp, by simp⟩, by simp [Ord]⟩, Or.inl ⟨rfl, rfl⟩⟩, by simp, fun a => rfl, fun y => rfl, fun x y _ => rfl, by simp [Slab, act]⟩
  obtain ⟨y0, ⟨hi, hord⟩, -⟩ := hsc.inv
  refine ⟨st'.out, by simp [formRects, e], fun r hr => ⟨(hi.outOk r hr).1, (hi.outOk r hr).2.2⟩, fun x y => ?_, hsc.slab.2, hord.1⟩
  obtain ⟨x0, hx0⟩ := cover_right hcl
  have hz : ∀ y, coverZ D cur' y = 0 := fun y => by
    rw [← coverZ_const hsc.le (le_max_left cur' x0), hx0 _ y (le_max_right _ _)]
  have hno : ∀ w, sm w (act st') = 0 := fun w => by
    have : act st' = [] := by
      by_contra hne
      obtain ⟨a, ha⟩ := List.exists_mem_of_ne_nil _ hne
      have h1 := act_ne hi ha
      have h2 := sm_pos (y := a.lo) ha ⟨le_refl _, h1⟩
      rw [hsc.area, hz] at h2
      omega
    rw [this]; rfl
  by_cases hx : x < cur'
  · have := hsc.tiles x y hx
    unfold T at this
    rw [hno] at this
    omega
  · rw [T_out hi.outOk (by omega), coverZ_const hsc.le (show cur' ≤ x by omega), hz]

end Verif.RectForm
