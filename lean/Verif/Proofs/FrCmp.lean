import Verif.Proofs.FrScan
import Verif.Proofs.N45Prog
/-!
# The formation without holes adds up the entries of a point
-/
namespace Verif.Fr
open Verif.Deg45 Verif.Set45 Verif.Form45 Verif.N45
open Verif.ArbForm (Heap Poly)

theorem holeUp_cmp (x : Int) (sd : List (V45 × Nat)) (i : Nat) (s : ES) {L : List VC} (h : Cmp s.evs L) {sd1 : List (V45 × Nat)} {t : ES} (e : Frac45.holeUp x sd i s = some (sd1, t)) :
    Frac45.holeUp x sd i { s with evs := L } = some (sd1, { t with evs := L }) ∧ t.evs = s.evs := by
  rcases s with ⟨E, H, out, els, vt, vc, rm⟩
  dsimp only at h ⊢
  have hh := h.head
  cases vt with
  | none =>
    simp only [Frac45.holeUp, Option.some.injEq, Prod.mk.injEq] at e ⊢
    obtain ⟨rfl, rfl⟩ := e
    exact ⟨⟨rfl, rfl⟩, rfl⟩
  | some a =>
    by_cases c : vc ≠ 0
    · simp only [Frac45.holeUp, if_pos c, Option.some.injEq, Prod.mk.injEq] at e ⊢
      obtain ⟨rfl, rfl⟩ := e
      exact ⟨⟨rfl, rfl⟩, rfl⟩
    · have addit : ∀ {E L : List VC} {sd1 : List (V45 × Nat)} {t : ES} {f : V45 × Nat → List (V45 × Nat)} {g : V45 × Nat → Heap},
          (sd[i]? >>= fun b => some (f b, (⟨E, g b, out, els, none, vc, rm⟩ : ES))) = some (sd1, t) →
          (sd[i]? >>= fun b => some (f b, (⟨L, g b, out, els, none, vc, rm⟩ : ES))) = some (sd1, { t with evs := L }) ∧ t.evs = E := by
        intro E L sd1 t f g e
        rw [Option.bind_eq_bind, Option.bind_eq_some_iff] at e
        obtain ⟨b, h2, e⟩ := e
        rw [h2, Option.bind_eq_bind, Option.bind_some]
        simp only [Option.some.injEq, Prod.mk.injEq] at e
        obtain ⟨rfl, rfl⟩ := e
        exact ⟨rfl, rfl⟩
      cases L with
      | nil => cases E with
        | nil =>
          simp only [Frac45.holeUp, if_neg c, Option.bind_eq_bind, Option.bind_some, if_true] at e ⊢
          exact addit e
        | cons u r => simp at hh
      | cons w m => cases E with
        | nil => simp at hh
        | cons u r =>
          have hw : w.1 = u.1 := by simpa using hh
          simp only [Frac45.holeUp, if_neg c, Option.bind_eq_bind, Option.bind_some, if_true] at e ⊢
          rw [hw]
          by_cases cx : u.1.1 ≠ x
          · simp only [if_pos cx, Option.bind_some, if_true] at e ⊢
            exact addit e
          · simp only [if_neg cx] at e ⊢
            rw [Option.bind_eq_some_iff] at e
            obtain ⟨now, h1, e⟩ := e
            rw [h1, Option.bind_some]
            cases now with
            | false =>
              simp only [Bool.false_eq_true, if_false, Option.some.injEq, Prod.mk.injEq] at e ⊢
              obtain ⟨rfl, rfl⟩ := e
              exact ⟨⟨rfl, rfl⟩, rfl⟩
            | true =>
              simp only [if_true] at e ⊢
              exact addit e

theorem onePoint_cmp (x : Int) (sd : List (V45 × Nat)) (s : ES) {L : List VC} (h : Cmp s.evs L) {sd1 : List (V45 × Nat)} {t : ES} (e : Frac45.onePoint x sd s = some (sd1, t))
    (hx : ∀ v ∈ s.evs.head?, v.1.1 = x) :
    ∃ L', Frac45.onePoint x sd { s with evs := L } = some (sd1, { t with evs := L' }) ∧ Cmp t.evs L' ∧ L'.length < L.length := by
  rcases s with ⟨E, H, out, els, vt, vc, rm⟩
  dsimp only at h hx
  cases h with
  | nil => simp [Frac45.onePoint] at e
  | @blk p g C D hg h1 h2 h =>
    obtain ⟨v, g, rfl⟩ := List.exists_cons_of_ne_nil hg
    have hv : v.1 = p := h1 v (by simp)
    have hp : (x, p.2) = p := Prod.ext (hx _ rfl).symm rfl
    have w1 := takeWhile_all (q := fun e : VC => decide (e.1 = p)) (g := v :: g) (r := D) (fun a ha => by simpa using h1 a ha) (fun a ha => by simpa using h2 a ha)
    have w2 := takeWhile_all (q := fun e : VC => decide (e.1 = p)) (g := [(p, total (v :: g))]) (r := C) (by simp) (fun a ha => by
      obtain ⟨w, hw, e⟩ := h.pts a ha
      have := h2 w hw
      rw [e] at this
      simpa using this)
    unfold Frac45.onePoint at e ⊢
    simp only [List.cons_append, List.nil_append] at w1 w2
    simp only [List.cons_append] at e ⊢
    rw [hv]
    simp only [hp, w1, w2, total_one, vertSlot] at e ⊢
    rw [Option.bind_eq_bind, Option.bind_eq_some_iff] at e
    obtain ⟨r, hr, e⟩ := e
    refine ⟨D, ?_⟩
    rw [hr, Option.bind_eq_bind, Option.bind_some]
    have := holeUp_cmp x sd _ _ (L := D) (by exact h) e
    refine ⟨this.1, ?_, ?_⟩
    · rw [this.2]; exact h
    · simp

theorem points_cmp (x : Int) : ∀ (n m : Nat) (sd : List (V45 × Nat)) (s : ES) {L : List VC}, Cmp s.evs L → L.length < m → ∀ {sd1 : List (V45 × Nat)} {t : ES}, Frac45.points x n sd s = some (sd1, t) →
    ∃ L', Frac45.points x m sd { s with evs := L } = some (sd1, { t with evs := L' }) ∧ Cmp t.evs L' ∧ L'.length ≤ L.length := by
  intro n
  induction n with
  | zero => intro m sd s L _ _ sd1 t e; cases e
  | succ n ih =>
    intro m sd s L h hm sd1 t e
    obtain ⟨m, rfl⟩ : ∃ k, m = k + 1 := ⟨m - 1, by omega⟩
    have hh := h.head
    unfold Frac45.points at e ⊢
    dsimp only at e ⊢
    cases hE : s.evs with
    | nil =>
      rw [hE] at e hh h
      cases L with
      | cons w L => simp at hh
      | nil =>
        simp only [Option.some.injEq, Prod.mk.injEq] at e ⊢
        obtain ⟨rfl, rfl⟩ := e
        exact ⟨[], ⟨rfl, rfl⟩, by rw [hE]; exact Cmp.nil, le_refl _⟩
    | cons u r =>
      cases L with
      | nil => rw [hE] at hh; simp at hh
      | cons w L =>
        have hw : w.1 = u.1 := by rw [hE] at hh; simpa using hh
        rw [hE] at e
        dsimp only at e ⊢
        rw [hw]
        by_cases c : u.1.1 = x
        · rw [if_pos c] at e ⊢
          rw [Option.bind_eq_bind, Option.bind_eq_some_iff] at e
          obtain ⟨⟨sd2, s1⟩, e1, e2⟩ := e
          obtain ⟨L1, f1, f2, f3⟩ := onePoint_cmp x sd s h e1 (by rw [hE]; simpa using c)
          obtain ⟨L2, k1, k2, k3⟩ := ih m sd2 s1 f2 (by omega) e2
          refine ⟨L2, ?_, k2, by omega⟩
          rw [f1, Option.bind_eq_bind, Option.bind_some]
          exact k1
        · rw [if_neg c] at e ⊢
          simp only [Option.some.injEq, Prod.mk.injEq] at e ⊢
          obtain ⟨rfl, rfl⟩ := e
          exact ⟨_, ⟨rfl, rfl⟩, h, le_refl _⟩

theorem scan_cmp : ∀ (n m : Nat) {C D : List VC} (sd : List (V45 × Nat)) (H : Heap) (out res : List Poly), Cmp C D → D.length ≤ m →
    Frac45.scan n C sd H out = some res → Frac45.scan m D sd H out = some res := by
  intro n
  induction n with
  | zero =>
    intro m C D sd H out res h hm e
    cases h with
    | nil => simpa [Frac45.scan] using e
    | blk => cases e
  | succ n ih =>
    intro m C D sd H out res h hm e
    have hh := h.head
    cases hC : C with
    | nil =>
      rw [hC] at hh h e
      cases D with
      | cons w L => simp at hh
      | nil => simpa [Frac45.scan] using e
    | cons u r =>
      cases hD : D with
      | nil => rw [hC, hD] at hh; simp at hh
      | cons w L =>
        obtain ⟨m, rfl⟩ : ∃ k, m = k + 1 := ⟨m - 1, by rw [hD] at hm; simp at hm; omega⟩
        rw [hC] at e
        have hw : w.1 = u.1 := by rw [hC, hD] at hh; simpa using hh
        unfold Frac45.scan at e ⊢
        rw [Option.bind_eq_bind, Option.bind_eq_some_iff] at e
        obtain ⟨⟨E1, sd1, H1, out1⟩, e1, e2⟩ := e
        dsimp only at e2
        unfold Frac45.processEvent at e1
        rw [Option.bind_eq_bind, Option.bind_eq_some_iff] at e1
        obtain ⟨⟨sd3, s1⟩, e1, e3⟩ := e1
        dsimp only at e3
        rw [Option.bind_eq_bind, Option.bind_eq_some_iff] at e3
        obtain ⟨sd2, e3, e4⟩ := e3
        obtain ⟨rfl, rfl, rfl, rfl⟩ : s1.evs = E1 ∧ List.foldl (insertEl u.1.1) sd2 s1.els = sd1 ∧ s1.H = H1 ∧ s1.out = out1 := by
          have := Option.some_inj.1 e4
          simpa using this
        have hlen : ∃ L', Frac45.points w.1.1 (D.length + 1) sd ⟨D, H, out, [], none, 0, []⟩ = some (sd3, { s1 with evs := L' }) ∧ Cmp s1.evs L' ∧ L'.length < D.length := by
          rw [hw]
          unfold Frac45.points at e1
          dsimp only at e1
          rw [if_pos rfl, Option.bind_eq_bind, Option.bind_eq_some_iff] at e1
          obtain ⟨⟨sd4, s2⟩, f1, f2⟩ := e1
          obtain ⟨L2, k1, k2, k3⟩ := onePoint_cmp u.1.1 sd _ (L := D) (by rw [← hC]; exact h) f1 (by simp)
          obtain ⟨L3, g1, g2, g3⟩ := points_cmp u.1.1 _ D.length sd4 s2 k2 k3 f2
          refine ⟨L3, ?_, g2, by omega⟩
          unfold Frac45.points
          rw [hD]
          dsimp only
          rw [hw, if_pos rfl, ← hD]
          dsimp only at k1
          rw [k1, Option.bind_eq_bind, Option.bind_some]
          exact g1
        obtain ⟨L', l1, l2, l3⟩ := hlen
        rw [← hD]
        unfold Frac45.processEvent
        rw [l1]
        simp only [Option.bind_eq_bind, Option.bind_some, e3]
        rw [hw]
        exact ih m _ _ _ _ l2 (by omega) e2

/-- The formation of the data with one entry for each point. -/
theorem form_cmp {C D : List VC} (h : Cmp C D) {out : List (List P)} (e : Frac45.form C = some out) : Frac45.form D = some out := by
  unfold Frac45.form at e ⊢
  rw [Option.map_eq_some_iff] at e ⊢
  obtain ⟨r, e1, e2⟩ := e
  exact ⟨r, scan_cmp _ _ _ _ _ _ h (le_refl _) e1, e2⟩

end Verif.Fr
