import Verif.Proofs.ArbGeom
import Mathlib.Algebra.BigOperators.Group.Finset.Basic
import Mathlib.Algebra.BigOperators.Ring.Finset
/-! Sums of counts over closed edge lists. -/
namespace Verif.Arb
open Verif.Spec Verif.Spec.Arb

/-! ### Flow through a closed list -/

theorem flow_swap (φ : Pt → Int) (V : Finset Pt) : ∀ (L : List (Edge × Int)), (∀ e ∈ L, e.1.1 ∈ V ∧ e.1.2 ∈ V) →
    (L.map (fun e => (if e.1.1.1 = e.1.2.1 then -e.2 else e.2) * (φ e.1.2 - φ e.1.1))).sum =
    V.sum (fun v => φ v * (L.map (fun e => inflow e v)).sum)
  | [], _ => by simp
  | e :: L, h => by
    have ih := flow_swap φ V L (fun f hf => h f (List.mem_cons_of_mem _ hf))
    obtain ⟨ha, hb⟩ := h e List.mem_cons_self
    simp only [List.map_cons, List.sum_cons, mul_add, Finset.sum_add_distrib]
    rw [ih]
    congr 1
    have h1 : V.sum (fun v => φ v * (if e.1.2 = v then (1 : Int) else 0)) = φ e.1.2 := by
      simp [hb]
    have h2 : V.sum (fun v => φ v * (if e.1.1 = v then (1 : Int) else 0)) = φ e.1.1 := by
      simp [ha]
    have : V.sum (fun v => φ v * inflow e v) = (if e.1.1.1 = e.1.2.1 then -e.2 else e.2) *
        (V.sum (fun v => φ v * (if e.1.2 = v then (1 : Int) else 0)) - V.sum (fun v => φ v * (if e.1.1 = v then (1 : Int) else 0))) := by
      rw [← Finset.sum_sub_distrib, Finset.mul_sum]
      apply Finset.sum_congr rfl
      intro v _
      unfold inflow; ring
    rw [this, h1, h2]

theorem flow_zero {L : List (Edge × Int)} (hC : Closed L) (φ : Pt → Int) :
    (L.map (fun e => (if e.1.1.1 = e.1.2.1 then -e.2 else e.2) * (φ e.1.2 - φ e.1.1))).sum = 0 := by
  rw [flow_swap φ ((L.map (fun e => e.1.1)).toFinset ∪ (L.map (fun e => e.1.2)).toFinset) L]
  · apply Finset.sum_eq_zero
    intro v _
    rw [hC v, mul_zero]
  · intro e he
    constructor
    · exact Finset.mem_union_left _ (List.mem_toFinset.2 (List.mem_map.2 ⟨e, he, rfl⟩))
    · exact Finset.mem_union_right _ (List.mem_toFinset.2 (List.mem_map.2 ⟨e, he, rfl⟩))

/-- Weighted sum of the counts of one layer. -/
def T (E : List Ev) (k : Int) (F : HE → Int) : Int :=
  (E.map (fun ev => if ev.2.1 = k then ev.2.2 * F ev.1 else 0)).sum

theorem T_nil (k : Int) (F : HE → Int) : T [] k F = 0 := rfl
theorem T_cons (ev : Ev) (E : List Ev) (k : Int) (F : HE → Int) :
    T (ev :: E) k F = (if ev.2.1 = k then ev.2.2 * F ev.1 else 0) + T E k F := by
  simp [T]
theorem T_append (E E' : List Ev) (k : Int) (F : HE → Int) : T (E ++ E') k F = T E k F + T E' k F := by
  simp [T]
theorem T_perm {E E' : List Ev} (h : E.Perm E') (k : Int) (F : HE → Int) : T E k F = T E' k F :=
  (h.map _).sum_eq

theorem T_congr {E : List Ev} {k : Int} {F G : HE → Int} (h : ∀ ev ∈ E, F ev.1 = G ev.1) : T E k F = T E k G := by
  unfold T
  congr 1
  apply List.map_congr_left
  intro ev hev
  rw [h ev hev]

theorem T_add (E : List Ev) (k : Int) (F G : HE → Int) : T E k (fun e => F e + G e) = T E k F + T E k G := by
  induction E with
  | nil => rfl
  | cons a E ih =>
    rw [T_cons, T_cons, T_cons, ih]; split_ifs <;> ring

theorem T_sub (E : List Ev) (k : Int) (F G : HE → Int) : T E k (fun e => F e - G e) = T E k F - T E k G := by
  induction E with
  | nil => rfl
  | cons a E ih =>
    rw [T_cons, T_cons, T_cons, ih]; split_ifs <;> ring

theorem T_zero {E : List Ev} {k : Int} {F : HE → Int} (h : ∀ ev ∈ E, F ev.1 = 0) : T E k F = 0 := by
  rw [T_congr (G := fun _ => 0) h]
  induction E with
  | nil => rfl
  | cons a E ih => rw [T_cons, ih (fun ev hev => h ev (List.mem_cons_of_mem _ hev))]; simp

theorem T_layer (E : List Ev) (k : Int) (g : HE → Int) :
    ((layer E k).map (fun e => e.2 * g e.1)).sum = T E k g := by
  induction E with
  | nil => rfl
  | cons a E ih =>
    rw [T_cons, ← ih]
    unfold layer
    by_cases h : a.2.1 = k
    · rw [List.filter_cons_of_pos (by simpa using h)]; simp [h]
    · rw [List.filter_cons_of_neg (by simpa using h)]; simp [h]

/-- Weighted sum of a potential difference. -/
theorem T_flow {E : List Ev} {k : Int} (hC : Closed (layer E k)) (φ : Pt → Int) {F : HE → Int}
    (h : ∀ ev ∈ E, F ev.1 = (if ev.1.1.1 = ev.1.2.1 then -1 else 1) * (φ ev.1.2 - φ ev.1.1)) : T E k F = 0 := by
  rw [T_congr (G := fun e => (if e.1.1 = e.2.1 then -1 else 1) * (φ e.2 - φ e.1)) h, ← T_layer, ← flow_zero hC φ]
  congr 1
  apply List.map_congr_left
  intro e _
  split_ifs <;> ring

open Classical in
/-- Sum of the counts of the edges of one layer with a property. -/
noncomputable def S (E : List Ev) (k : Int) (P : HE → Prop) : Int := T E k (fun e => if P e then 1 else 0)

theorem S_congr {E : List Ev} {k : Int} {P Q : HE → Prop} (h : ∀ ev ∈ E, P ev.1 ↔ Q ev.1) : S E k P = S E k Q := by
  apply T_congr
  intro ev hev
  have := h ev hev
  by_cases q : Q ev.1
  · rw [if_pos q, if_pos (this.2 q)]
  · rw [if_neg q, if_neg (fun hp => q (this.1 hp))]

theorem S_eq (E : List Ev) (k : Int) (P : HE → Prop) [DecidablePred P] : S E k P = T E k (fun e => if P e then 1 else 0) := by
  unfold S
  congr
  funext e
  congr

theorem S_zero {E : List Ev} {k : Int} {P : HE → Prop} (h : ∀ ev ∈ E, ¬ P ev.1) : S E k P = 0 := by
  apply T_zero
  intro ev hev
  simp only [h ev hev, if_false]

theorem S_add {E : List Ev} {k : Int} {P Q R : HE → Prop} (h : ∀ ev ∈ E, P ev.1 ↔ Q ev.1 ∨ R ev.1)
    (hd : ∀ ev ∈ E, ¬ (Q ev.1 ∧ R ev.1)) : S E k P = S E k Q + S E k R := by
  unfold S
  rw [← T_add]
  apply T_congr
  intro ev hev
  have h1 := h ev hev
  have h2 := hd ev hev
  by_cases q : Q ev.1
  · have r : ¬ R ev.1 := fun r => h2 ⟨q, r⟩
    simp [h1, q, r]
  · by_cases r : R ev.1
    · simp [h1, q, r]
    · simp [h1, q, r]

theorem S_perm {E E' : List Ev} (h : E.Perm E') (k : Int) (P : HE → Prop) : S E k P = S E' k P := T_perm h k _

theorem S_append (E E' : List Ev) (k : Int) (P : HE → Prop) : S (E ++ E') k P = S E k P + S E' k P := T_append E E' k _

theorem S_nil (k : Int) (P : HE → Prop) : S [] k P = 0 := rfl

theorem S_single (ev : Ev) (k : Int) (P : HE → Prop) (h : P ev.1) : S [ev] k P = if ev.2.1 = k then ev.2.2 else 0 := by
  unfold S; rw [T_cons, T_nil]; simp [h]

theorem S_single_not (ev : Ev) (k : Int) (P : HE → Prop) (h : ¬ P ev.1) : S [ev] k P = 0 := by
  unfold S; rw [T_cons, T_nil]; simp [h]

/-! ### Spans -/

/-- The edge passes over the stretch just left of `x`. -/
abbrev LSpan (x : Int) (e : HE) : Prop := e.1.1 < x ∧ x ≤ e.2.1
/-- The edge passes over the stretch just right of `x`. -/
abbrev RSpan (x : Int) (e : HE) : Prop := e.1.1 ≤ x ∧ x < e.2.1

theorem LSpan.nv {x : Int} {e : HE} (h : LSpan x e) : NV e := lt_of_lt_of_le h.1 h.2
theorem RSpan.nv {x : Int} {e : HE} (h : RSpan x e) : NV e := lt_of_le_of_lt h.1 h.2

/-- Hypotheses on the events. -/
structure Good (E : List Ev) : Prop where
  dir : ∀ ev ∈ E, Directed ev.1
  planar : Planar (E.map Prod.fst)
  closed : ∀ k, Closed (layer E k)

/-- The edge occurs among the events. -/
abbrev Has (E : List Ev) (e : HE) : Prop := e ∈ E.map Prod.fst

theorem Has.of {E : List Ev} {ev : Ev} (h : ev ∈ E) : Has E ev.1 := List.mem_map.2 ⟨ev, h, rfl⟩

theorem Good.dirE {E : List Ev} (hG : Good E) {e : HE} (h : Has E e) : Directed e := by
  obtain ⟨ev, hev, rfl⟩ := List.mem_map.1 h
  exact hG.dir ev hev

theorem Good.sep {E : List Ev} (hG : Good E) {e f : HE} (he : Has E e) (hf : Has E f) (hne : e ≠ f) (h1 : NV e) (h2 : NV f) : Sep e f :=
  planar_sep hG.planar he hf hne h1 h2

/-- The columns: what runs left of `x` below a cut, with the vertical edges across the cut, runs right of it. -/
theorem column {E : List Ev} (hG : Good E) (k x : Int) (C : ℚ → Prop) (hC : ∀ a b : ℚ, a < b → C b → C a) :
    S E k (fun e => LSpan x e ∧ C (Y e x)) + S E k (fun e => (e.1.1 = x ∧ e.2.1 = x) ∧ C e.1.2 ∧ ¬ C e.2.2) =
    S E k (fun e => RSpan x e ∧ C (Y e x)) := by
  classical
  have h := T_flow (hG.closed k) (fun v => if v.1 = x ∧ C v.2 then 1 else 0)
    (F := fun e => (if LSpan x e ∧ C (Y e x) then 1 else 0) + (if (e.1.1 = x ∧ e.2.1 = x) ∧ C e.1.2 ∧ ¬ C e.2.2 then 1 else 0)
      - (if RSpan x e ∧ C (Y e x) then 1 else 0)) ?_
  · rw [T_sub, T_add] at h
    rw [S_eq, S_eq, S_eq]
    linarith
  · intro ev hev
    have hd := hG.dir ev hev
    generalize ev.1 = e at hd ⊢
    by_cases hv : e.1.1 = e.2.1
    · rw [if_pos hv]
      have h1 : ¬ (LSpan x e ∧ C (Y e x)) := by intro hc; have := hc.1; unfold LSpan at this; omega
      have h2 : ¬ (RSpan x e ∧ C (Y e x)) := by intro hc; have := hc.1; unfold RSpan at this; omega
      have hy : e.1.2 < e.2.2 := by rcases hd with h | h <;> omega
      rw [if_neg h1, if_neg h2]
      by_cases hx : e.1.1 = x
      · have hx2 : e.2.1 = x := by omega
        simp only [hx, hx2, true_and]
        have : C e.2.2 → C e.1.2 := hC _ _ (by exact_mod_cast hy)
        by_cases c1 : C e.1.2
        · by_cases c2 : C e.2.2
          · simp [c1, c2]
          · simp [c1, c2]
        · have c2 : ¬ C e.2.2 := fun hc => c1 (this hc)
          simp [c1, c2]
      · have hx2 : e.2.1 ≠ x := by omega
        simp [hx, hx2]
    · rw [if_neg hv]
      have hn : NV e := by rcases hd with h | h <;> [exact h; omega]
      have h0 : ¬ ((e.1.1 = x ∧ e.2.1 = x) ∧ C e.1.2 ∧ ¬ C e.2.2) := by intro hc; omega
      rw [if_neg h0]
      by_cases ha : e.1.1 = x
      · subst ha
        have l : ¬ (LSpan e.1.1 e ∧ C (Y e e.1.1)) := by intro hc; have := hc.1; unfold LSpan at this; omega
        have r : (RSpan e.1.1 e ∧ C (Y e e.1.1)) ↔ C e.1.2 := by
          rw [Y_left hn]; exact ⟨fun h => h.2, fun h => ⟨⟨le_rfl, hn⟩, h⟩⟩
        have b : ¬ (e.2.1 = e.1.1 ∧ C e.2.2) := by intro hc; omega
        simp only [l, r, b, if_false, true_and]
        ring
      · by_cases hb : e.2.1 = x
        · subst hb
          have l : (LSpan e.2.1 e ∧ C (Y e e.2.1)) ↔ C e.2.2 := by
            rw [Y_right hn]; exact ⟨fun h => h.2, fun h => ⟨⟨hn, le_rfl⟩, h⟩⟩
          have r : ¬ (RSpan e.2.1 e ∧ C (Y e e.2.1)) := by intro hc; have := hc.1; unfold RSpan at this; omega
          have b : ¬ (e.1.1 = e.2.1 ∧ C e.1.2) := by intro hc; omega
          simp only [l, r, b, if_false, true_and]
          ring
        · have lr : (LSpan x e ∧ C (Y e x)) ↔ (RSpan x e ∧ C (Y e x)) := by
            unfold LSpan RSpan
            constructor
            · rintro ⟨h, h'⟩; exact ⟨by omega, h'⟩
            · rintro ⟨h, h'⟩; exact ⟨by omega, h'⟩
          have a : ¬ (e.1.1 = x ∧ C e.1.2) := fun h => ha h.1
          have b : ¬ (e.2.1 = x ∧ C e.2.2) := fun h => hb h.1
          simp only [lr, a, b, if_false]
          ring

/-- The counts of all edges over a stretch cancel. -/
theorem total_zero {E : List Ev} (hG : Good E) (k x : Int) : S E k (LSpan x) = 0 := by
  classical
  have h := T_flow (hG.closed k) (fun v => if v.1 < x then -1 else 0) (F := fun e => if LSpan x e then 1 else 0) ?_
  · rw [S_eq]
    exact h
  · intro ev hev
    have hd := hG.dir ev hev
    generalize ev.1 = e at hd ⊢
    unfold LSpan
    unfold Verif.Spec.Arb.Directed at hd
    split_ifs <;> omega

/-! ### The depth above an edge -/

/-- Sum over the edges up to `e` on the stretch just right of `x`. -/
noncomputable def D (E : List Ev) (e : HE) (x k : Int) : Int := S E k (fun f => RSpan x f ∧ (f = e ∨ Lt f e))

theorem D_left (E : List Ev) (e : HE) (x k : Int) : D E e (x - 1) k = S E k (fun f => LSpan x f ∧ (f = e ∨ Lt f e)) := by
  apply S_congr
  intro ev _
  unfold LSpan RSpan
  constructor
  · rintro ⟨h, h'⟩; exact ⟨by omega, h'⟩
  · rintro ⟨h, h'⟩; exact ⟨by omega, h'⟩

/-- A vertical edge does not cross an edge. -/
theorem no_cross {E : List Ev} (hG : Good E) {e f : HE} (he : Has E e) (hf : Has E f) {x : Int} (h1 : e.1.1 < x) (h2 : x < e.2.1)
    (hf1 : f.1.1 = x) (hf2 : f.2.1 = x) (a : (f.1.2 : ℚ) ≤ Y e x) (b : Y e x ≤ f.2.2) : False := by
  have hn : NV e := by unfold NV; omega
  have q1 : (e.1.1 : ℚ) < x := by exact_mod_cast h1
  have q2 : (x : ℚ) < e.2.1 := by exact_mod_cast h2
  have hne : e ≠ f := by intro hc; rw [hc] at h1; omega
  have hy : f.1.2 < f.2.2 := by rcases hG.dirE hf with h | h <;> omega
  have hy' : (0 : ℚ) < (f.2.2 : ℚ) - f.1.2 := by
    have : (f.1.2 : ℚ) < f.2.2 := by exact_mod_cast hy
    linarith
  have := hG.planar e he f hf hne (x, Y e x) ((onEdge_iff hn _).2 ⟨q1.le, q2.le, rfl⟩)
    ⟨(Y e x - f.1.2) / (f.2.2 - f.1.2), div_nonneg (by linarith) hy'.le, by rw [div_le_one hy']; linarith, by
      dsimp only; rw [hf1, hf2]; ring, by dsimp only; field_simp; ring⟩
  rcases this.1 with h | h
  · have := h.1; dsimp only at this; linarith
  · have := h.1; dsimp only at this; linarith

theorem D_step {E : List Ev} (hG : Good E) {e : HE} (he : Has E e) {x : Int} (h1 : e.1.1 < x) (h2 : x < e.2.1) (k : Int) :
    D E e x k = D E e (x - 1) k := by
  have hn : NV e := by unfold NV; omega
  have q1 : (e.1.1 : ℚ) < x := by exact_mod_cast h1
  have q2 : (x : ℚ) < e.2.1 := by exact_mod_cast h2
  have key : ∀ f, Has E f → NV f → f.1.1 ≤ x → x ≤ f.2.1 → ((f = e ∨ Lt f e) ↔ Y f x ≤ Y e x) := by
    intro f hf hfn a b
    by_cases hfe : f = e
    · subst hfe; simp
    · have qa : (f.1.1 : ℚ) ≤ x := by exact_mod_cast a
      have qb : (x : ℚ) ≤ f.2.1 := by exact_mod_cast b
      have hne := planar_ne hG.planar hf he hfe hfn hn qa qb q1 q2
      have := lt_iff (hG.sep hf he hfe hfn hn) hfn hn (by omega) (by omega) qa qb q1.le q2.le hne
      simp only [hfe, false_or]
      rw [this]
      exact ⟨le_of_lt, fun h => lt_of_le_of_ne h hne⟩
  have hc := column hG k x (fun t => t ≤ Y e x) (fun a b hab hb => le_trans hab.le hb)
  rw [D_left]
  unfold D
  rw [S_congr (Q := fun f => RSpan x f ∧ Y f x ≤ Y e x) (fun ev hev => and_congr_right fun h => key ev.1 (Has.of hev) h.nv h.1 h.2.le),
    S_congr (P := fun f => LSpan x f ∧ (f = e ∨ Lt f e)) (Q := fun f => LSpan x f ∧ Y f x ≤ Y e x)
      (fun ev hev => and_congr_right fun h => key ev.1 (Has.of hev) h.nv h.1.le h.2), ← hc]
  rw [S_zero (P := fun f => (f.1.1 = x ∧ f.2.1 = x) ∧ (f.1.2 : ℚ) ≤ Y e x ∧ ¬ (f.2.2 : ℚ) ≤ Y e x), add_zero]
  rintro ev hev ⟨⟨a, b⟩, c, d⟩
  exact no_cross hG he (Has.of hev) h1 h2 a b c (not_le.1 d).le

theorem D_const {E : List Ev} (hG : Good E) {e : HE} (he : Has E e) {x : Int} (h1 : e.1.1 ≤ x) (h2 : x < e.2.1) (k : Int) :
    D E e x k = D E e e.1.1 k := by
  obtain ⟨n, hn⟩ : ∃ n : Nat, x = e.1.1 + n := ⟨(x - e.1.1).toNat, by omega⟩
  subst hn
  induction n with
  | zero => simp
  | succ n ih =>
    have e1 : (((n + 1 : Nat)) : Int) = n + 1 := by push_cast; rfl
    rw [e1] at h2 ⊢
    have : D E e (e.1.1 + (n + 1)) k = D E e (e.1.1 + (n + 1) - 1) k := D_step hG he (by omega) (by omega) k
    rw [this, show e.1.1 + ((n : Int) + 1) - 1 = e.1.1 + n by ring]
    exact ih (by omega) (by omega)

end Verif.Arb
