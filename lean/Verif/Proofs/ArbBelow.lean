import Verif.Proofs.ArbMap
/-! Looking up the properties below a point in the scanline. -/
namespace Verif.Arb
open Verif.Contains (lessPoint lessPoint_iff)
open Verif.Spec Verif.Spec.Arb

/-- The scanline just left of `x`. -/
structure LInv (E : List Ev) (x : Int) (sd : SD) : Prop where
  mem : ∀ a ∈ sd, Has E a.1 ∧ LSpan x a.1 ∧ Ok a.2 ∧ ∀ k, get a.2 k = D E a.1 (x - 1) k
  all : ∀ e, Has E e → LSpan x e → ∃ a ∈ sd, a.1 = e
  srt : sd.Pairwise (fun a b => Lt a.1 b.1)

theorem pw_get {sd : SD} (h : sd.Pairwise (fun a b => Lt a.1 b.1)) {i j : Nat} {a b : HE × PMap} (hij : i < j) (ha : sd[i]? = some a)
    (hb : sd[j]? = some b) : Lt a.1 b.1 := by
  obtain ⟨hi, rfl⟩ := List.getElem?_eq_some_iff.1 ha
  obtain ⟨hj, rfl⟩ := List.getElem?_eq_some_iff.1 hb
  exact List.pairwise_iff_getElem.1 h i j hi hj hij

theorem LInv.sep {E : List Ev} (hG : Good E) {x : Int} {sd : SD} (h : LInv E x sd) {a b : HE × PMap} (ha : a ∈ sd) (hb : b ∈ sd)
    (hne : a.1 ≠ b.1) : Sep a.1 b.1 :=
  hG.sep (h.mem a ha).1 (h.mem b hb).1 hne (h.mem a ha).2.1.nv (h.mem b hb).2.1.nv

theorem lt_ne {e f : HE} (h : Lt e f) : e ≠ f := fun hc => lt_irrefl f (hc ▸ h)

theorem LInv.mono {E : List Ev} (hG : Good E) {x : Int} {sd : SD} (h : LInv E x sd) {i j : Nat} {a b : HE × PMap} (hij : i ≤ j)
    (ha : sd[i]? = some a) (hb : sd[j]? = some b) : Y a.1 x ≤ Y b.1 x := by
  rcases eq_or_lt_of_le hij with rfl | hij
  · rw [ha] at hb; rw [Option.some_inj.1 hb]
  · have hl := pw_get h.srt hij ha hb
    have ma := List.mem_of_getElem? ha
    have mb := List.mem_of_getElem? hb
    have sa := (h.mem a ma).2.1
    have sb := (h.mem b mb).2.1
    exact lt_le (h.sep hG ma mb (lt_ne hl)) hl (by exact_mod_cast sa.1.le) (by exact_mod_cast sa.2) (by exact_mod_cast sb.1.le)
      (by exact_mod_cast sb.2)

/-- Sum of what runs strictly below a point on its left. -/
noncomputable abbrev Lsum (E : List Ev) (p : Pt) (k : Int) : Int := S E k (fun e => LSpan p.1 e ∧ Y e p.1 < p.2)

theorem below_val {E : List Ev} (hG : Good E) {sd : SD} {p : Pt} (h : LInv E p.1 sd) {j : Nat} {b : HE × PMap} (hb : sd[j]? = some b)
    (hb1 : Y b.1 p.1 < p.2) (hab : ∀ i a, j < i → sd[i]? = some a → ¬ Y a.1 p.1 < p.2) (k : Int) : get b.2 k = Lsum E p k := by
  have mb := List.mem_of_getElem? hb
  rw [(h.mem b mb).2.2.2 k, D_left]
  apply S_congr
  intro ev hev
  refine and_congr_right fun hsp => ?_
  obtain ⟨a, ha, hae⟩ := h.all ev.1 (Has.of hev) hsp
  obtain ⟨i, hi⟩ := List.mem_iff_getElem?.1 ha
  rw [← hae]
  rcases lt_trichotomy i j with g | g | g
  · exact ⟨fun _ => lt_of_le_of_lt (h.mono hG g.le hi hb) hb1, fun _ => Or.inr (pw_get h.srt g hi hb)⟩
  · subst g
    rw [hi] at hb
    have := Option.some_inj.1 hb
    subst this
    exact ⟨fun _ => hb1, fun _ => Or.inl rfl⟩
  · have hl := pw_get h.srt g hb hi
    refine ⟨fun hc => ?_, fun hc => absurd hc (hab i a g hi)⟩
    rcases hc with hc | hc
    · exact absurd hc.symm (lt_ne hl)
    · exact absurd hl (lt_asymm (h.sep hG ha mb (lt_ne hc)) hc)

theorem below_none {E : List Ev} {sd : SD} {p : Pt} (h : LInv E p.1 sd)
    (hab : ∀ (i : Nat) a, sd[i]? = some a → ¬ Y a.1 p.1 < p.2) (k : Int) : Lsum E p k = 0 := by
  apply S_zero
  rintro ev hev ⟨hs, hy⟩
  obtain ⟨a, ha, hae⟩ := h.all ev.1 (Has.of hev) hs
  obtain ⟨i, hi⟩ := List.mem_iff_getElem?.1 ha
  exact hab i a hi (hae ▸ hy)

theorem below_all {E : List Ev} (hG : Good E) {sd : SD} {p : Pt} (h : LInv E p.1 sd)
    (hab : ∀ (i : Nat) a, sd[i]? = some a → Y a.1 p.1 < p.2) (k : Int) : Lsum E p k = 0 := by
  rw [← total_zero hG k p.1]
  apply S_congr
  intro ev hev
  refine ⟨fun h => h.1, fun hs => ⟨hs, ?_⟩⟩
  obtain ⟨a, ha, hae⟩ := h.all ev.1 (Has.of hev) hs
  obtain ⟨i, hi⟩ := List.mem_iff_getElem?.1 ha
  exact hae ▸ hab i a hi

/-! ### Prefixes -/

theorem tw_lt {α : Type} (q : α → Bool) : ∀ (l : List α) (i : Nat) (a : α), i < (l.takeWhile q).length → l[i]? = some a → q a = true
  | [], i, a, h, _ => by simp at h
  | b :: l, i, a, h, ha => by
    rw [List.takeWhile_cons] at h
    split_ifs at h with hq
    · cases i with
      | zero => simp at ha; rw [← ha]; exact hq
      | succ i =>
        simp only [List.getElem?_cons_succ] at ha
        simp only [List.length_cons] at h
        exact tw_lt q l i a (by omega) ha
    · simp at h

theorem tw_at {α : Type} (q : α → Bool) : ∀ (l : List α) (a : α), l[(l.takeWhile q).length]? = some a → q a = false
  | [], a, h => by simp at h
  | b :: l, a, h => by
    rw [List.takeWhile_cons] at h
    split_ifs at h with hq
    · simp only [List.length_cons, List.getElem?_cons_succ] at h
      exact tw_at q l a h
    · simp at h; rw [← h]; simpa using hq

theorem lb_lt (q : HE → Bool) (sd : SD) (i : Nat) (a : HE × PMap) (hi : i < lowerBound q sd) (ha : sd[i]? = some a) : q a.1 = true :=
  tw_lt (fun a : HE × PMap => q a.1) sd i a hi ha

theorem lb_at (q : HE → Bool) (sd : SD) (a : HE × PMap) (ha : sd[lowerBound q sd]? = some a) : q a.1 = false :=
  tw_at (fun a : HE × PMap => q a.1) sd a ha

theorem walkDown_spec (sd : SD) (pt : Pt) : ∀ n, walkDown sd pt n ≤ n ∧
    (∀ i a, walkDown sd pt n < i → i ≤ n → sd[i]? = some a → oab pt a.1 ≠ 1) ∧
    (walkDown sd pt n = 0 ∨ ∀ a, sd[walkDown sd pt n]? = some a → oab pt a.1 = 1)
  | 0 => by
    refine ⟨le_rfl, ?_, Or.inl rfl⟩
    intro i a h1 h2; simp [walkDown] at h1; omega
  | n + 1 => by
    have ih := walkDown_spec sd pt n
    rw [walkDown]
    rcases hs : sd[n + 1]? with _ | a
    · dsimp only
      refine ⟨le_rfl, fun i a h1 h2 => by omega, Or.inr ?_⟩
      intro a ha; rw [hs] at ha; simp at ha
    · dsimp only
      by_cases ho : oab pt a.1 ≠ 1
      · rw [if_pos ho]
        refine ⟨by omega, ?_, ih.2.2⟩
        intro i b h1 h2 hb
        rcases eq_or_lt_of_le h2 with rfl | h2
        · rw [hs] at hb; rw [← Option.some_inj.1 hb]; exact ho
        · exact ih.2.1 i b h1 (by omega) hb
      · rw [if_neg ho]
        refine ⟨le_rfl, fun i a h1 h2 => by omega, Or.inr ?_⟩
        intro b hb
        rw [hs] at hb; rw [← Option.some_inj.1 hb]; exact not_not.1 ho

/-- From an element that is not below the point, walking down finds what is below it. -/
theorem walk_case {E : List Ev} (hG : Good E) {sd : SD} {p : Pt} (h : LInv E p.1 sd) {n : Nat} {c : HE × PMap} (hc : sd[n]? = some c)
    (hn : ¬ Y c.1 p.1 < p.2) {r : Nat × PMap}
    (hr : r = match sd[walkDown sd p n]? with
      | none => (walkDown sd p n, [])
      | some b => if oab p b.1 ≠ 1 then (walkDown sd p n, []) else (walkDown sd p n + 1, b.2)) :
    Ok r.2 ∧ (∀ k, get r.2 k = Lsum E p k) ∧ ∀ i a, i < r.1 → sd[i]? = some a → Y a.1 p.1 < p.2 := by
  obtain ⟨w1, w2, w3⟩ := walkDown_spec sd p n
  have habove : ∀ i a, walkDown sd p n < i → sd[i]? = some a → ¬ Y a.1 p.1 < p.2 := by
    intro i a hi ha
    by_cases hin : i ≤ n
    · have := w2 i a hi hin ha
      rw [Ne, oab_one (h.mem a (List.mem_of_getElem? ha)).2.1.nv] at this
      exact this
    · intro hy
      exact hn (lt_of_le_of_lt (h.mono hG (by omega) hc ha) hy)
  have hlen : n < sd.length := (List.getElem?_eq_some_iff.1 hc).1
  have hsome : ∃ b, sd[walkDown sd p n]? = some b := ⟨_, List.getElem?_eq_getElem (by omega)⟩
  obtain ⟨b, hb⟩ := hsome
  have mb := List.mem_of_getElem? hb
  rw [hb] at hr
  dsimp only at hr
  by_cases ho : oab p b.1 = 1
  · rw [if_neg (not_not.2 ho)] at hr
    have hy := (oab_one (h.mem b mb).2.1.nv p).1 ho
    rw [hr]
    refine ⟨(h.mem b mb).2.2.1, below_val hG h hb hy habove, ?_⟩
    intro i a hi ha
    exact lt_of_le_of_lt (h.mono hG (by dsimp only at hi; omega) ha hb) hy
  · rw [if_pos ho] at hr
    have h0 : walkDown sd p n = 0 := by
      rcases w3 with w3 | w3
      · exact w3
      · exact absurd (w3 b hb) ho
    rw [hr]
    refine ⟨ok_nil, fun k => ?_, fun i a hi => by dsimp only at hi; omega⟩
    rw [get_nil]
    refine (below_none h ?_ k).symm
    intro i a ha
    rcases Nat.eq_zero_or_pos i with rfl | hi
    · rw [← h0, hb] at ha
      rw [← Option.some_inj.1 ha, ← oab_one (h.mem b mb).2.1.nv p]
      exact ho
    · exact habove i a (by omega) ha

theorem findBelow_spec {E : List Ev} (hG : Good E) {sd : SD} {p : Pt} (h : LInv E p.1 sd) (umax : Int) (cur : Nat)
    (hcur : ∀ i a, i < cur → sd[i]? = some a → Y a.1 p.1 < p.2) :
    Ok (findBelow umax sd p cur).2 ∧ (∀ k, get (findBelow umax sd p cur).2 k = Lsum E p k) ∧
    ∀ i a, i < (findBelow umax sd p cur).1 → sd[i]? = some a → Y a.1 p.1 < p.2 := by
  unfold findBelow
  rcases hs : sd[cur]? with _ | a
  · dsimp only
    have hl := List.getElem?_eq_none_iff.1 hs
    refine ⟨ok_nil, fun k => ?_, hcur⟩
    rw [get_nil, below_all hG h]
    intro i a ha
    have := (List.getElem?_eq_some_iff.1 ha).1
    exact hcur i a (by omega) ha
  · dsimp only
    have ma := List.mem_of_getElem? hs
    have na := (h.mem a ma).2.1.nv
    by_cases ho : oab p a.1 ≠ 0
    · rw [if_pos ho]
      have hq : ∀ b ∈ sd, (lessHE p.1 true b.1 (vhe umax p) = true ↔ Y b.1 p.1 < p.2) := by
        intro b hb
        have := (h.mem b hb).2.1
        exact lessHE_query p this.nv this.1 this.2
      have l1 := lb_lt (fun e => lessHE p.1 true e (vhe umax p)) sd
      have l2 := lb_at (fun e => lessHE p.1 true e (vhe umax p)) sd
      generalize lowerBound (fun e => lessHE p.1 true e (vhe umax p)) sd = n at l1 l2 ⊢
      by_cases hlt : n < sd.length
      · rw [if_pos hlt]
        have hc : sd[n]? = some sd[n] := List.getElem?_eq_getElem hlt
        have hnb : ¬ Y sd[n].1 p.1 < p.2 := by
          rw [← hq _ (List.getElem_mem hlt), l2 _ hc]; simp
        exact walk_case hG h hc hnb rfl
      · rw [if_neg hlt]
        have hall : ∀ i b, i < n → sd[i]? = some b → Y b.1 p.1 < p.2 := by
          intro i b hi hb
          exact (hq b (List.mem_of_getElem? hb)).1 (l1 i b hi hb)
        refine ⟨ok_nil, fun k => ?_, hall⟩
        rw [get_nil, below_all hG h]
        intro i b hb
        have := (List.getElem?_eq_some_iff.1 hb).1
        exact hall i b (by omega) hb
    · rw [if_neg ho, if_pos (List.getElem?_eq_some_iff.1 hs).1]
      refine walk_case hG h hs ?_ rfl
      have := (oab_zero na p).1 (not_not.1 ho)
      rw [this]; exact lt_irrefl' _
where
  lt_irrefl' (a : ℚ) : ¬ a < a := by simp

theorem skipOn_spec {E : List Ev} {sd : SD} {p : Pt} (h : LInv E p.1 sd) (cur : Nat)
    (hcur : ∀ i a, i < cur → sd[i]? = some a → Y a.1 p.1 < p.2) :
    ∀ i a, i < skipOn sd p cur → sd[i]? = some a → Y a.1 p.1 ≤ p.2 := by
  intro i a hi ha
  by_cases hc : i < cur
  · exact (hcur i a hc ha).le
  · unfold skipOn at hi
    have := tw_lt (fun a => oab p a.1 == 0) (sd.drop cur) (i - cur) a (by omega) (by
      rw [List.getElem?_drop, ← ha]; congr 1; omega)
    have := (oab_zero (h.mem a (List.mem_of_getElem? ha)).2.1.nv p).1 (by simpa using this)
    exact this.le

end Verif.Arb
