import Verif.Proofs.BooleanInterval
import Mathlib.Algebra.BigOperators.Group.List.Basic
import Mathlib.Tactic.Abel
/-! The column scan: loop invariant and coverage of the output. -/
namespace Verif.BooleanOp

variable {T : Type}

/-- Coverage of a vertex list at an integer point. -/
def coverZ (L : List V) (a y : Int) : Int := (L.map (fun v => if v.x ≤ a ∧ v.y ≤ y then v.c else 0)).sum

/-- `a` not after `b`, and equal points carry equal signs. -/
def VLe (a b : V) : Prop :=
  (a.x < b.x ∨ (a.x = b.x ∧ a.y ≤ b.y)) ∧ (a.x = b.x → a.y = b.y → a.c = b.c)

/-- Canonical vertex list: sorted, unit counts, no cancelling pair. -/
def Canon (L : List V) : Prop := L.Pairwise VLe ∧ ∀ v ∈ L, v.c = 1 ∨ v.c = -1

/-- `Canon` for a reversed list. -/
def CanonR (L : List V) : Prop := L.Pairwise (fun b a => VLe a b) ∧ ∀ v ∈ L, v.c = 1 ∨ v.c = -1

theorem canon_reverse {L : List V} (h : CanonR L) : Canon L.reverse :=
  ⟨List.pairwise_reverse.mpr h.1, fun v hv => h.2 v (by simpa using hv)⟩

theorem coverZ_reverse (L : List V) (a y : Int) : coverZ L.reverse a y = coverZ L a y := by
  unfold coverZ
  rw [List.map_reverse, List.sum_reverse]

theorem coverZ_append (L M : List V) (a y : Int) : coverZ (L ++ M) a y = coverZ L a y + coverZ M a y := by
  simp [coverZ]

theorem coverZ_cons (v : V) (M : List V) (a y : Int) :
    coverZ (v :: M) a y = (if v.x ≤ a ∧ v.y ≤ y then v.c else 0) + coverZ M a y := by
  simp [coverZ]

/-! ### emit -/

def OutLe (out : List V) (x y : Int) : Prop := ∀ v ∈ out, v.x < x ∨ (v.x = x ∧ v.y ≤ y)

theorem emit_spec {x : Int} {out : List V} {e : Piece} (hc : CanonR out) (ho : OutLe out x e.1)
    (hlt : e.1 < e.2.1) (hv : e.2.2 = 1 ∨ e.2.2 = -1) :
    CanonR (emit x out e) ∧ OutLe (emit x out e) x e.2.1 ∧
    ∀ a y, coverZ (emit x out e) a y =
      coverZ out a y + if x ≤ a then (if e.1 ≤ y ∧ y < e.2.1 then e.2.2 else 0) else 0 := by
  obtain ⟨lo, hi, v⟩ := e
  simp only at ho hlt hv
  cases out with
  | nil =>
    refine ⟨⟨?_, ?_⟩, ?_, ?_⟩
    · simp [emit, VLe]; omega
    · intro w hw; simp [emit] at hw; rcases hw with rfl | rfl <;> simp only <;> omega
    · intro w hw; simp [emit] at hw; rcases hw with rfl | rfl <;> simp; omega
    · intro a y
      simp only [emit, coverZ, List.map_cons, List.map_nil, List.sum_cons, List.sum_nil]
      split_ifs <;> omega
  | cons l r =>
    have hl := ho l (by simp)
    obtain ⟨hc1, hc2⟩ := hc
    have hp := List.pairwise_cons.mp hc1
    by_cases h : l.x = x ∧ l.y = lo ∧ l.c = v * -1
    · have e1 : emit x (l :: r) (lo, hi, v) = ⟨x, hi, v * -1⟩ :: r := by
        simp only [emit, if_pos h]
      rw [e1]
      refine ⟨⟨?_, ?_⟩, ?_, ?_⟩
      · rw [List.pairwise_cons]
        refine ⟨fun w hw => ?_, hp.2⟩
        have := ho w (by simp [hw])
        simp only [VLe]; omega
      · intro w hw
        rcases List.mem_cons.mp hw with rfl | hw
        · simp only; omega
        · exact hc2 w (by simp [hw])
      · intro w hw
        rcases List.mem_cons.mp hw with rfl | hw
        · simp
        · have := ho w (by simp [hw]); simp only; omega
      · intro a y
        rw [coverZ_cons, coverZ_cons]
        simp only [h.1, h.2.1, h.2.2]
        split_ifs <;> omega
    · have e1 : emit x (l :: r) (lo, hi, v) = ⟨x, hi, v * -1⟩ :: ⟨x, lo, v⟩ :: l :: r := by
        simp only [emit, if_neg h]
      rw [e1]
      refine ⟨⟨?_, ?_⟩, ?_, ?_⟩
      · rw [List.pairwise_cons, List.pairwise_cons]
        refine ⟨fun w hw => ?_, fun w hw => ?_, hc1⟩
        · rcases List.mem_cons.mp hw with rfl | hw
          · refine ⟨Or.inr ⟨rfl, hlt.le⟩, fun _ h9 => ?_⟩
            simp only at h9; omega
          · have := ho w hw; simp only [VLe]; omega
        · have h1 := ho w hw
          have hlv := hc2 l (by simp)
          refine ⟨h1, fun h2 h3 => ?_⟩
          simp only at h2 h3 ⊢
          rcases List.mem_cons.mp hw with rfl | hw
          · simp only [h2, h3, true_and] at h; omega
          · have h4 := hp.1 w hw
            have h5 : l.x = x ∧ l.y = lo := by
              obtain ⟨h6, -⟩ := h4
              omega
            have h6 := h4.2 (by omega) (by omega)
            have h7 : l.c ≠ v * -1 := fun h8 => h ⟨h5.1, h5.2, h8⟩
            omega
      · intro w hw
        rcases List.mem_cons.mp hw with rfl | hw
        · simp only; omega
        · rcases List.mem_cons.mp hw with rfl | hw
          · exact hv
          · exact hc2 w hw
      · intro w hw
        rcases List.mem_cons.mp hw with rfl | hw
        · simp
        · rcases List.mem_cons.mp hw with rfl | hw
          · simp; omega
          · have := ho w hw; simp only; omega
      · intro a y
        rw [coverZ_cons, coverZ_cons]
        simp only
        split_ifs <;> omega

theorem OutLe.mono {out : List V} {x y y' : Int} (h : OutLe out x y) (hy : y ≤ y') : OutLe out x y' := by
  intro v hv; have := h v hv; omega

theorem emits_spec {x hi : Int} (pieces : List Piece) :
    ∀ {lo : Int} {out : List V}, CanonR out → OutLe out x lo → PiecesOK pieces lo hi →
    CanonR (pieces.foldl (emit x) out) ∧ OutLe (pieces.foldl (emit x) out) x hi ∧
    ∀ a y, coverZ (pieces.foldl (emit x) out) a y =
      coverZ out a y + if x ≤ a then psum pieces y else 0 := by
  induction pieces with
  | nil =>
    intro lo out hc ho hp
    exact ⟨hc, ho.mono hp, fun a y => by simp [psum]⟩
  | cons p r ih =>
    intro lo out hc ho hp
    obtain ⟨h1, h2, h3, h4⟩ := hp
    obtain ⟨c1, c2, c3⟩ := emit_spec hc (ho.mono h1) h2 h3
    obtain ⟨d1, d2, d3⟩ := ih c1 c2 h4
    refine ⟨d1, d2, fun a y => ?_⟩
    simp only [List.foldl_cons]
    rw [d3, c3]
    simp only [psum]
    split_ifs <;> ring

/-! ### the generic scan -/

abbrev Ev (T : Type) := Int × Int × T

/-- Sum of the counts of the events selected by `p`. -/
def S [AddCommMonoid T] (p : Int → Int → Bool) (E : List (Ev T)) : T :=
  (E.map (fun e => if p e.1 e.2.1 then e.2.2 else 0)).sum

variable [AddCommMonoid T]

theorem S_append (p : Int → Int → Bool) (E F : List (Ev T)) : S p (E ++ F) = S p E + S p F := by
  simp [S]

theorem S_single (p : Int → Int → Bool) (e : Ev T) : S p [e] = if p e.1 e.2.1 then e.2.2 else 0 := by
  simp [S]

theorem S_congr {p q : Int → Int → Bool} {E : List (Ev T)} (h : ∀ e ∈ E, p e.1 e.2.1 = q e.1 e.2.1) :
    S p E = S q E := by
  unfold S
  congr 1
  apply List.map_congr_left
  intro e he
  rw [h e he]

theorem S_zero {p : Int → Int → Bool} {E : List (Ev T)} (h : ∀ e ∈ E, p e.1 e.2.1 = false) :
    S p E = 0 := by
  rw [S_congr (q := fun _ _ => false) h]
  simp [S]

theorem S_add {p q r : Int → Int → Bool} {E : List (Ev T)}
    (h : ∀ e ∈ E, (r e.1 e.2.1 = (p e.1 e.2.1 || q e.1 e.2.1)) ∧ (p e.1 e.2.1 && q e.1 e.2.1) = false) :
    S r E = S p E + S q E := by
  induction E with
  | nil => simp [S]
  | cons e E ih =>
    have h1 := h e (by simp)
    have h2 := ih (fun e he => h e (by simp [he]))
    simp only [S, List.map_cons, List.sum_cons] at h2 ⊢
    rw [h2, h1.1]
    have h3 := h1.2
    rcases hp : p e.1 e.2.1 with _ | _ <;> rcases hq : q e.1 e.2.1 with _ | _ <;> simp_all <;> abel

def scanE [DecidableEq T] (pos : T → Bool) : List (Ev T) → Loop T → Option (Loop T)
  | [], s => some s
  | e :: r, s => (scanBody pos s e.1 e.2.1 e.2.2).bind (scanE pos r)

def ELe (a b : Ev T) : Prop := a.1 < b.1 ∨ (a.1 = b.1 ∧ a.2.1 ≤ b.2.1)

/-! #### no undefined behaviour -/

structure InvS (s : Loop T) : Prop where
  sorted : Sorted s.st.scan
  last0 : lastVal (0 : T) s.st.scan = 0
  next : NextOK s.st s.py

theorem InvS.init (p q : Int) : InvS (⟨State.init, p, q, 0, []⟩ : Loop T) :=
  ⟨List.Pairwise.nil, rfl, ⟨[], [], rfl, rfl, by simp [KLt]⟩⟩

theorem scanBody_safe [DecidableEq T] (pos : T → Bool) {s : Loop T} (h : InvS s) (cx cy : Int) (cc : T)
    (hle : s.px = cx → s.cnt ≠ 0 → s.py ≤ cy) :
    ∃ s', scanBody pos s cx cy cc = some s' ∧ Sorted s'.st.scan ∧ lastVal (0 : T) s'.st.scan = 0 ∧
      (s.px = cx → s.py ≤ cy → InvS s') ∧ (s.px ≠ cx → InvS s') ∧
      s'.px = cx ∧ s'.py = cy := by
  unfold scanBody
  by_cases h1 : s.px = cx
  · rw [if_neg (by simpa using h1)]
    by_cases h2 : cy ≠ s.py ∧ s.cnt ≠ 0
    · rw [if_pos h2]
      have := hle h1 h2.2
      obtain ⟨s', out, e, g1, g2, g3, -, -, -⟩ :=
        processInterval_spec pos s.st s.py cy s.cnt h.sorted h.last0 h.next (by have := h2.1; omega)
      rw [e]
      refine ⟨_, rfl, g1, g2, fun _ _ => ⟨g1, g2, g3⟩, fun hx => absurd h1 hx, h1, rfl⟩
    · rw [if_neg h2]
      exact ⟨_, rfl, h.sorted, h.last0, fun _ hy => ⟨h.sorted, h.last0, h.next.mono hy⟩,
        fun hx => absurd h1 hx, h1, rfl⟩
  · rw [if_pos (by simpa using h1)]
    exact ⟨_, rfl, h.sorted, h.last0, fun hx => absurd hx h1,
      fun _ => ⟨h.sorted, h.last0, nextOK_advance _ _⟩, rfl, rfl⟩

/-- A column scan over sorted events is always defined, whatever the counts. -/
theorem scanE_safe [DecidableEq T] (pos : T → Bool) (E : List (Ev T)) :
    ∀ (s : Loop T), InvS s → (∀ e ∈ E, s.px < e.1 ∨ (s.px = e.1 ∧ s.py ≤ e.2.1)) → E.Pairwise ELe →
    ∃ s', scanE pos E s = some s' := by
  induction E with
  | nil => intro s _ _ _; exact ⟨s, rfl⟩
  | cons e E ih =>
    intro s h hle hs
    have h1 := hle e (by simp)
    obtain ⟨s', e1, -, -, g1, g2, g3, g4⟩ := scanBody_safe pos h e.1 e.2.1 e.2.2 (by omega)
    have hi : InvS s' := by
      by_cases hx : s.px = e.1
      · exact g1 hx (by omega)
      · exact g2 hx
    rw [List.pairwise_cons] at hs
    obtain ⟨s'', e2⟩ := ih s' hi (fun f hf => by rw [g3, g4]; exact hs.1 f hf) hs.2
    exact ⟨s'', by rw [scanE, e1]; exact e2⟩

theorem scanBody_first [DecidableEq T] (pos : T → Bool) (p q x y : Int) (c : T) :
    scanBody pos (⟨State.init, p, q, 0, []⟩ : Loop T) x y c = some ⟨State.init, x, y, c, []⟩ := by
  unfold scanBody
  by_cases h1 : p = x
  · rw [if_neg (by simpa using h1), if_neg (by simp)]
    simp [h1]
  · rw [if_pos (by simpa using h1)]
    rfl

theorem InvS.first (x y : Int) (c : T) : InvS (⟨State.init, x, y, c, []⟩ : Loop T) :=
  ⟨List.Pairwise.nil, rfl, ⟨[], [], rfl, rfl, by simp [KLt]⟩⟩

/-! #### coverage -/

structure Inv (pos : T → Bool) (E : List (Ev T)) (s : Loop T) : Prop where
  safe : InvS s
  pre : ∀ e ∈ E, e.1 < s.px ∨ (e.1 = s.px ∧ e.2.1 ≤ s.py)
  cnt : s.cnt = S (fun x _ => x == s.px) E
  val : ∀ y, valD 0 s.st.scan y = S (fun x z => decide (x < s.px) && decide (z ≤ y)) E +
    (if y < s.py then S (fun x z => decide (x = s.px) && decide (z ≤ y)) E else 0)
  outpre : OutLe s.out s.px s.py
  canon : CanonR s.out
  cov : ∀ a y, coverZ s.out a y = if a < s.px then ind (pos (S (fun x z => decide (x ≤ a) && decide (z ≤ y)) E))
    else ind (pos (valD 0 s.st.scan y))

theorem Inv.first {pos : T → Bool} (hp : pos 0 = false) (e : Ev T) :
    Inv pos [e] ⟨State.init, e.1, e.2.1, e.2.2, []⟩ where
  safe := InvS.first _ _ _
  pre := by simp
  cnt := by simp [S]
  val := by
    intro y
    simp only [S_single, State.init, valD]
    by_cases h : y < e.2.1
    · simp [h]
    · simp [h]
  outpre := by simp [OutLe]
  canon := ⟨List.Pairwise.nil, by simp⟩
  cov := by
    intro a y
    simp only [coverZ, List.map_nil, List.sum_nil, S_single, State.init, valD, hp]
    by_cases h : a < e.1
    · rw [if_pos h, if_neg (by simp; omega), hp]; rfl
    · simp [h, ind]

/-- The value of the scanline once the current column is complete. -/
theorem Inv.val_full {pos : T → Bool} {E : List (Ev T)} {s : Loop T} (h : Inv pos E s) (h0 : s.cnt = 0)
    (a y : Int) (ha : s.px ≤ a) :
    valD 0 s.st.scan y = S (fun x z => decide (x ≤ a) && decide (z ≤ y)) E := by
  rw [h.val]
  have e1 : S (fun x z => decide (x ≤ a) && decide (z ≤ y)) E =
      S (fun x z => decide (x < s.px) && decide (z ≤ y)) E +
      S (fun x z => decide (x = s.px) && decide (z ≤ y)) E := by
    apply S_add
    intro e he
    have := h.pre e he
    rw [Bool.eq_iff_iff, Bool.eq_false_iff]
    simp
    omega
  rw [e1]
  congr 1
  split
  · rfl
  · next hy =>
    rw [← h0, h.cnt]
    apply S_congr
    intro e he
    have := h.pre e he
    rw [Bool.eq_iff_iff]
    simp
    omega

theorem Inv.step [DecidableEq T] {pos : T → Bool} {E : List (Ev T)} {s : Loop T} (h : Inv pos E s) (e : Ev T)
    (hle : (s.px < e.1 ∧ s.cnt = 0) ∨ (s.px = e.1 ∧ s.py ≤ e.2.1)) :
    ∃ s', scanBody pos s e.1 e.2.1 e.2.2 = some s' ∧ Inv pos (E ++ [e]) s' ∧ s'.px = e.1 ∧ s'.py = e.2.1 := by
  rcases hle with ⟨hx, h0⟩ | ⟨hx, hy⟩
  · -- new column
    refine ⟨⟨s.st.advance, e.1, e.2.1, e.2.2, s.out⟩, ?_, ?_, rfl, rfl⟩
    · rw [scanBody, if_pos (by omega)]
    · have hpre := h.pre
      refine ⟨⟨h.safe.sorted, h.safe.last0, nextOK_advance _ _⟩, ?_, ?_, ?_, ?_, h.canon, ?_⟩
      · intro f hf
        rcases List.mem_append.mp hf with hf | hf
        · have := hpre f hf; simp only; omega
        · simp at hf; subst hf; simp
      · simp only
        rw [S_append, S_single, S_zero]
        · simp
        · intro f hf; have := hpre f hf; simp; omega
      · intro y
        simp only [State.advance]
        rw [h.val_full h0 s.px y (le_refl _), S_append, S_single, S_append, S_single]
        simp only [lt_irrefl, decide_false, Bool.false_and, Bool.false_eq_true, if_false, add_zero,
          decide_true, Bool.true_and, decide_eq_true_eq]
        have e2 : S (fun x z => decide (x = e.1) && decide (z ≤ y)) E = 0 := by
          apply S_zero
          intro f hf; have := hpre f hf
          rw [Bool.eq_false_iff]; simp; omega
        rw [e2, zero_add]
        have e3 : (if y < e.2.1 then (if e.2.1 ≤ y then e.2.2 else 0) else 0) = (0 : T) := by
          split
          · rw [if_neg (by omega)]
          · rfl
        rw [e3, add_zero]
        apply S_congr
        intro f hf
        have := hpre f hf
        rw [Bool.eq_iff_iff]; simp; omega
      · intro v hv; have := h.outpre v hv; simp only; omega
      · intro a y
        simp only [State.advance]
        rw [h.cov, S_append, S_single]
        by_cases c1 : a < s.px
        · rw [if_pos c1, if_pos (by omega), if_neg (by simp; omega), add_zero]
        · rw [if_neg c1]
          by_cases c2 : a < e.1
          · rw [if_pos c2, if_neg (by simp; omega), add_zero, h.val_full h0 a y (by omega)]
          · rw [if_neg c2]
  · -- same column
    have key : ∃ st' out', scanBody pos s e.1 e.2.1 e.2.2 = some ⟨st', s.px, e.2.1, s.cnt + e.2.2, out'⟩ ∧
        Sorted st'.scan ∧ lastVal (0 : T) st'.scan = 0 ∧ NextOK st' e.2.1 ∧
        (∀ y, valD 0 st'.scan y = if s.py ≤ y ∧ y < e.2.1 then valD 0 s.st.scan y + s.cnt
          else valD 0 s.st.scan y) ∧
        CanonR out' ∧ OutLe out' s.px e.2.1 ∧
        (∀ a y, coverZ out' a y = coverZ s.out a y + if s.px ≤ a then
          ind (pos (valD 0 st'.scan y)) - ind (pos (valD 0 s.st.scan y)) else 0) := by
      unfold scanBody
      rw [if_neg (by simpa using hx)]
      by_cases h2 : e.2.1 ≠ s.py ∧ s.cnt ≠ 0
      · rw [if_pos h2]
        obtain ⟨s', out, e1, g1, g2, g3, g4, g5, g6⟩ :=
          processInterval_spec pos s.st s.py e.2.1 s.cnt h.safe.sorted h.safe.last0 h.safe.next
            (by have := h2.1; omega)
        obtain ⟨k1, k2, k3⟩ := emits_spec out h.canon h.outpre g5
        rw [e1]
        refine ⟨s', _, rfl, g1, g2, g3, g4, k1, k2, ?_⟩
        intro a y
        rw [k3, g6]
      · rw [if_neg h2]
        refine ⟨s.st, s.out, rfl, h.safe.sorted, h.safe.last0, h.safe.next.mono hy, ?_, h.canon,
          h.outpre.mono hy, ?_⟩
        · intro y
          split
          · next hc =>
            by_cases h3 : e.2.1 = s.py
            · omega
            · have : s.cnt = 0 := by by_contra h4; exact h2 ⟨h3, h4⟩
              rw [this, add_zero]
          · rfl
        · intro a y; simp
    obtain ⟨st', out', e1, g1, g2, g3, g4, g5, g6, g7⟩ := key
    refine ⟨_, e1, ?_, hx, rfl⟩
    have hpre := h.pre
    refine ⟨⟨g1, g2, g3⟩, ?_, ?_, ?_, g6, g5, ?_⟩
    · intro f hf
      rcases List.mem_append.mp hf with hf | hf
      · have := hpre f hf; simp only; omega
      · simp at hf; subst hf; simp only; omega
    · simp only
      rw [S_append, S_single, h.cnt]
      simp [hx]
    · intro y
      simp only
      rw [g4, h.val, S_append, S_single, S_append, S_single]
      simp only [← hx, lt_irrefl, decide_false, Bool.false_and, Bool.false_eq_true, if_false, add_zero,
          decide_true, Bool.true_and, decide_eq_true_eq]
      by_cases c1 : y < s.py
      · rw [if_neg (by omega), if_pos c1, if_pos (by omega), if_neg (by omega), add_zero]
      · by_cases c2 : y < e.2.1
        · rw [if_pos (by omega), if_neg c1, if_pos c2, if_neg (by omega), add_zero, add_zero]
          congr 1
          rw [h.cnt]
          apply S_congr
          intro f hf
          have := hpre f hf
          rw [Bool.eq_iff_iff]; simp; omega
        · rw [if_neg (by omega), if_neg c1, if_neg c2]
    · intro a y
      simp only
      rw [g7, h.cov, S_append, S_single]
      by_cases c1 : a < s.px
      · rw [if_pos c1, if_pos c1, if_neg (by omega), add_zero, if_neg (by simp; omega), add_zero]
      · rw [if_neg c1, if_neg c1, if_pos (by omega)]; ring

/-- Every column of events sums to zero. -/
def ClosedE (E : List (Ev T)) : Prop := ∀ a : Int, S (fun x _ => x == a) E = 0

theorem scanE_inv [DecidableEq T] {pos : T → Bool} (P : List (Ev T)) (hcl : ClosedE P) (R : List (Ev T)) :
    ∀ (E : List (Ev T)) (s : Loop T), P = E ++ R → Inv pos E s → P.Pairwise ELe →
    (∀ e ∈ R, s.px < e.1 ∨ (s.px = e.1 ∧ s.py ≤ e.2.1)) →
    ∃ s', scanE pos R s = some s' ∧ Inv pos P s' ∧ s'.cnt = 0 := by
  induction R with
  | nil =>
    intro E s hP h hs _
    rw [List.append_nil] at hP
    subst hP
    exact ⟨s, rfl, h, by rw [h.cnt]; exact hcl _⟩
  | cons e R ih =>
    intro E s hP h hs hle
    have h1 := hle e (by simp)
    have hsR : (e :: R).Pairwise ELe := by rw [hP] at hs; exact (List.pairwise_append.mp hs).2.1
    have hsR1 := List.pairwise_cons.mp hsR
    have h2 : (s.px < e.1 ∧ s.cnt = 0) ∨ (s.px = e.1 ∧ s.py ≤ e.2.1) := by
      rcases h1 with h1 | h1
      · left
        refine ⟨h1, ?_⟩
        rw [h.cnt, ← hcl s.px, hP, S_append]
        have : S (fun x _ => x == s.px) (e :: R) = 0 := by
          apply S_zero
          intro f hf
          simp only [beq_eq_false_iff_ne, ne_eq]
          rcases List.mem_cons.mp hf with rfl | hf
          · omega
          · have := hsR1.1 f hf; unfold ELe at this; omega
        rw [this, add_zero]
      · exact Or.inr h1
    obtain ⟨s', e1, g1, g2, g3⟩ := h.step e h2
    obtain ⟨s'', e2, k1⟩ := ih (E ++ [e]) s' (by simp [hP]) g1 hs
      (fun f hf => by rw [g2, g3]; exact hsR1.1 f hf)
    exact ⟨s'', by rw [scanE, e1]; exact e2, k1⟩

/-- Main theorem of the column scan: for sorted, column-closed events the output is canonical
and covers exactly the points whose accumulated count is positive, once. -/
theorem scanE_cover [DecidableEq T] {pos : T → Bool} (hp : pos 0 = false) (P : List (Ev T)) (hcl : ClosedE P)
    (hs : P.Pairwise ELe) (p q : Int) :
    ∃ s, scanE pos P ⟨State.init, p, q, 0, []⟩ = some s ∧ CanonR s.out ∧
      ∀ a y, coverZ s.out a y = ind (pos (S (fun x z => decide (x ≤ a) && decide (z ≤ y)) P)) := by
  cases P with
  | nil =>
    refine ⟨_, rfl, ⟨List.Pairwise.nil, by simp⟩, ?_⟩
    intro a y; simp [coverZ, S, hp, ind]
  | cons e R =>
    obtain ⟨s, e1, h, h0⟩ := scanE_inv (pos := pos) (e :: R) hcl R [e] ⟨State.init, e.1, e.2.1, e.2.2, []⟩ rfl
      (Inv.first hp e) hs (fun f hf => (List.pairwise_cons.mp hs).1 f hf)
    refine ⟨s, ?_, h.canon, ?_⟩
    · rw [scanE, scanBody_first]; exact e1
    · intro a y
      rw [h.cov]
      split
      · rfl
      · next hc => rw [h.val_full h0 a y (by omega)]

end Verif.BooleanOp
