import Verif.Proofs.PolyTop
/-!
# One column of vertical edges
-/
namespace Verif.Proofs.PolyRound
open Verif.PolyForm Verif.Proofs.PolyGross Verif.Proofs.PolyPath Verif.Proofs.PolyLam Verif.Proofs.PolyWeb Verif.Proofs.PolyInv Verif.Proofs.PolyCol Verif.Proofs.PolyBottom Verif.Proofs.PolyTop Verif.Interval

/-- The edges of one kind: `e` is the depth on the left of them. -/
def Side (umax : Int) (fm fp : Int → Int) (e : Int) (l : List Ivl) : Prop :=
  (∀ d ∈ l, d.lo < d.hi ∧ d.lo < umax ∧ ∀ j, d.lo ≤ j → j < d.hi → fm j = e ∧ fp j = 1 - e) ∧ l.Pairwise (fun a b => a.hi < b.lo)

/-- The edges still to come describe what changes above `y`. -/
structure Col (umax : Int) (fm fp : Int → Int) (y : Int) (l r : List Ivl) : Prop where
  hl : Side umax fm fp 0 l
  hr : Side umax fm fp 1 r
  off : ∀ j, y ≤ j → (∀ d ∈ l ++ r, ¬ (d.lo ≤ j ∧ j < d.hi)) → fm j = fp j

theorem side_tail {umax : Int} {fm fp : Int → Int} {e : Int} {d : Ivl} {l : List Ivl} (h : Side umax fm fp e (d :: l)) : Side umax fm fp e l :=
  ⟨fun a ha => h.1 a (List.mem_cons_of_mem _ ha), (List.pairwise_cons.1 h.2).2⟩

theorem gap_es {fr : Bool} {X : Int} {fm fp : Int → Int} {base : Bs} {es es' : List Ivl} {y : Int} {D U : List (Int × Nat)} {Z : List Nat} {s : St}
    (h : Gap fr X fm fp base es y D U Z s) (he : ∀ d, d ∈ es' ↔ d ∈ es) : Gap fr X fm fp base es' y D U Z s where
  map := h.map
  srt := h.srt
  hD := h.hD
  hU := h.hU
  g := h.g
  ent := h.ent
  old := fun e hm => (h.old e hm).imp id (fun a => ⟨a.1, a.2.1, fun d hd => a.2.2.1 d ((he d).1 hd), a.2.2.2⟩)
  pend := fun c hc => ⟨fun e hm => let ⟨d, a, b⟩ := (h.pend c hc).1 e hm; ⟨d, (he d).2 a, b⟩, (h.pend c hc).2⟩
  hfp := h.hfp
  hfm := h.hfm
  nm := h.nm
  out := h.out
  tot := h.tot
  gr := h.gr

variable {fr : Bool} {X umax : Int} {fm fp : Int → Int} {base : Bs}

/-- What holds between two rounds. -/
def Rd (fr : Bool) (X : Int) (fm fp : Int → Int) (base : Bs) (y : Int) (l r : List Ivl) (bot : Bool) (s : St) : Prop :=
  if bot then (∃ d ∈ l ++ r, d.lo = y) ∧ (∀ d ∈ l ++ r, y ≤ d.lo) ∧ ∃ D U c Z, Mid fr X fm fp base y D U c Z s
  else (∀ d ∈ l ++ r, y < d.lo) ∧ ∃ D U Z, Gap fr X fm fp base (l ++ r) y D U Z s

/-- The bottom of the chosen edge is done. -/
theorem rd_bottom {y : Int} {l r : List Ivl} {bot : Bool} {s : St} (hc : Col umax fm fp y l r) (h : Rd fr X fm fp base y l r bot s)
    {e : Ivl} (he : e ∈ l ++ r) (hmin : ∀ d ∈ l ++ r, e.lo ≤ d.lo) :
    ∃ D U c Z s', (if bot then some s else bottomEnd fr X e.lo s) = some s' ∧ Mid fr X fm fp base e.lo D U c Z s' := by
  cases bot with
  | true =>
    obtain ⟨⟨d, hd, hdy⟩, hge, D, U, c, Z, hm⟩ := h
    have : e.lo = y := by have := hmin d hd; have := hge e he; omega
    rw [this]
    exact ⟨D, U, c, Z, s, rfl, hm⟩
  | false =>
    obtain ⟨hgt, D, U, Z, hg⟩ := h
    obtain ⟨D', U', hp⟩ := gap_pre hg (hgt e he) hmin ⟨e, he, rfl⟩ (fun j h1 h2 => hc.off j h1 (fun d hd hh => by have := hmin d hd; omega))
    obtain ⟨D'', U'', c, s', a, b⟩ := bottom_spec hp
    exact ⟨D'', U'', c, Z, s', by simp [a], b⟩

theorem side_above {e : Int} {d : Ivl} {l : List Ivl} (h : Side umax fm fp e (d :: l)) : ∀ a ∈ l, d.hi < a.lo := (List.pairwise_cons.1 h.2).1

/-- Edges of the other kind do not overlap. -/
theorem side_other {e e' : Int} (hee : e ≠ e') {d a : Ivl} (hd : d.lo < d.hi ∧ d.lo < umax ∧ ∀ j, d.lo ≤ j → j < d.hi → fm j = e ∧ fp j = 1 - e)
    (ha : a.lo < a.hi ∧ a.lo < umax ∧ ∀ j, a.lo ≤ j → j < a.hi → fm j = e' ∧ fp j = 1 - e') (hle : d.lo ≤ a.lo) : d.hi ≤ a.lo := by
  by_contra hlt
  have h1 := hd.2.2 a.lo hle (by omega)
  have h2 := ha.2.2 a.lo (le_refl _) (by omega)
  omega

/-- One round. -/
theorem round_spec {y : Int} {l r : List Ivl} {bot : Bool} {s : St} (hc : Col umax fm fp y l r) (h : Rd fr X fm fp base y l r bot s)
    (hfin : ∃ J, ∀ j, J ≤ j → fm j = 0) (hne : ¬ (l = [] ∧ r = [])) :
    ∃ s' bot' tr y', round fr umax X l r bot s = some (s', bot', tr) ∧
      (if tr then r ≠ [] ∧ Col umax fm fp y' l r.tail ∧ Rd fr X fm fp base y' l r.tail bot' s'
       else l ≠ [] ∧ Col umax fm fp y' l.tail r ∧ Rd fr X fm fp base y' l.tail r bot' s') := by
  obtain ⟨hl, hr, off⟩ := hc
  have hc : Col umax fm fp y l r := ⟨hl, hr, off⟩
  by_cases htr : (r.headD ⟨umax, umax⟩).lo < (l.headD ⟨umax, umax⟩).lo
  · -- a right edge
    cases r with
    | nil =>
      cases l with
      | nil => exact absurd ⟨rfl, rfl⟩ hne
      | cons d l => have := (hl.1 d (by simp)).2.1; simp only [List.headD_nil, List.headD_cons] at htr; omega
    | cons e r =>
      have he := hr.1 e (by simp)
      simp only [List.headD_cons] at htr
      have habove := side_above hr
      have hlow : ∀ d ∈ l, e.lo ≤ d.lo ∧ e.hi ≤ d.lo := by
        intro d hd
        have : e.lo ≤ d.lo := by
          cases l with
          | nil => simp at hd
          | cons a l =>
            simp only [List.headD_cons] at htr
            have h1 := side_above hl
            have h2 := hl.1 a (by simp)
            rcases List.mem_cons.1 hd with rfl | hd
            · omega
            · have := h1 d hd; omega
        exact ⟨this, side_other (by omega) he (hl.1 d hd) this⟩
      have hmin : ∀ d ∈ l ++ e :: r, e.lo ≤ d.lo := by
        intro d hd
        rcases List.mem_append.1 hd with a | a
        · exact (hlow d a).1
        · rcases List.mem_cons.1 a with rfl | a
          · exact le_refl _
          · have := habove d a; omega
      obtain ⟨D, U, c, Z, s1, b1, b2⟩ := rd_bottom hc h (e := e) (by simp) hmin
      have hcol : Col umax fm fp e.hi l r := by
        refine ⟨hl, side_tail hr, fun j hj ho => off j ?_ ?_⟩
        · have := h
          unfold Rd at this
          cases bot
          · have := this.1 e (by simp); omega
          · have := this.2.1 e (by simp); omega
        · intro d hd hh
          rcases List.mem_append.1 hd with a | a
          · exact ho d (by simp [a]) hh
          · rcases List.mem_cons.1 a with rfl | a
            · omega
            · exact ho d (by simp [a]) hh
      have hm : ∀ j, e.lo ≤ j → j < e.hi → fm j = (if true then 1 else 0) ∧ fp j = 1 - (if true then 1 else 0) := fun j a b => by
        simpa using he.2.2 j a b
      by_cases hsh : l ≠ [] ∧ e.hi = (l.headD ⟨umax, umax⟩).lo
      · obtain ⟨h1, h2⟩ := hsh
        cases l with
        | nil => exact absurd rfl h1
        | cons a l =>
          simp only [List.headD_cons] at h2 htr
          have ha := hl.1 a (by simp)
          obtain ⟨D', U', c', Z', s', p1, p2⟩ := shared_spec b2 (trailing := true) he.1 hm
            (by have := (ha.2.2 a.lo (le_refl _) ha.1).1; rw [h2, this]; simp)
          refine ⟨s', true, true, e.hi, ?_, ?_⟩
          · unfold round
            rw [h2] at p1
            cases bot <;> simp at b1 <;> simp [htr, b1, h2, p1]
          · refine ⟨by simp, hcol, ?_⟩
            refine ⟨⟨a, by simp, h2.symm⟩, fun d hd => ?_, D', U', c', Z', p2⟩
            rcases List.mem_append.1 hd with b | b
            · exact (hlow d b).2
            · have := habove d b; omega
      · have hgt : ∀ d ∈ l ++ r, e.hi < d.lo := by
          intro d hd
          rcases List.mem_append.1 hd with b | b
          · have h1 := (hlow d b).2
            cases l with
            | nil => simp at b
            | cons a l =>
              simp only [List.headD_cons, ne_eq, reduceCtorEq, not_false_eq_true, true_and] at hsh
              have h2 := (hlow a (by simp)).2
              rcases List.mem_cons.1 b with rfl | b
              · omega
              · have := side_above hl d b
                have := (hl.1 a (by simp)).1
                omega
          · exact habove d b
        obtain ⟨D', U', Z', s', p1, p2⟩ := top_spec (es := l ++ r) b2 (trailing := true) (haveNext := !l.isEmpty && !(e :: r).isEmpty)
          (umax := umax) (leftY := (l.tail.headD ⟨umax, umax⟩).lo) (rightY := (l.headD ⟨umax, umax⟩).lo) he.1 hm hfin hgt (by simp) (by simp)
        refine ⟨s', false, true, e.hi, ?_, ?_⟩
        · unfold round
          have hcond : (!l.isEmpty && !(e :: r).isEmpty && decide (e.hi = (l.headD ⟨umax, umax⟩).lo)) = false := by
            by_contra hh
            simp only [Bool.not_eq_false, Bool.and_eq_true, Bool.not_eq_true', List.isEmpty_eq_false_iff, decide_eq_true_eq] at hh
            exact hsh ⟨hh.1.1, hh.2⟩
          cases bot <;> simp only [Bool.false_eq_true, if_false, if_true, Option.some.injEq] at b1 <;>
            simp only [List.headD_cons, htr, decide_true, if_true, Option.bind_eq_bind, b1, Option.bind_some, hcond, Bool.false_eq_true, if_false, p1]
        · exact ⟨by simp, hcol, hgt, D', U', Z', p2⟩
  · -- a left edge
    cases l with
    | nil =>
      cases r with
      | nil => exact absurd ⟨rfl, rfl⟩ hne
      | cons d r => have := (hr.1 d (by simp)).2.1; simp only [List.headD_nil, List.headD_cons] at htr; omega
    | cons e l =>
      have he := hl.1 e (by simp)
      simp only [List.headD_cons] at htr
      have habove := side_above hl
      have hlow : ∀ d ∈ r, e.lo ≤ d.lo ∧ e.hi ≤ d.lo := by
        intro d hd
        have : e.lo ≤ d.lo := by
          cases r with
          | nil => simp at hd
          | cons a r =>
            simp only [List.headD_cons] at htr
            have h1 := side_above hr
            have h2 := hr.1 a (by simp)
            rcases List.mem_cons.1 hd with rfl | hd
            · omega
            · have := h1 d hd; omega
        exact ⟨this, side_other (by omega) he (hr.1 d hd) this⟩
      have hmin : ∀ d ∈ e :: l ++ r, e.lo ≤ d.lo := by
        intro d hd
        rcases List.mem_append.1 hd with a | a
        · rcases List.mem_cons.1 a with rfl | a
          · exact le_refl _
          · have := habove d a; omega
        · exact (hlow d a).1
      obtain ⟨D, U, c, Z, s1, b1, b2⟩ := rd_bottom hc h (e := e) (by simp) hmin
      have hcol : Col umax fm fp e.hi l r := by
        refine ⟨side_tail hl, hr, fun j hj ho => off j ?_ ?_⟩
        · have := h
          unfold Rd at this
          cases bot
          · have := this.1 e (by simp); omega
          · have := this.2.1 e (by simp); omega
        · intro d hd hh
          rcases List.mem_append.1 hd with a | a
          · rcases List.mem_cons.1 a with rfl | a
            · omega
            · exact ho d (by simp [a]) hh
          · exact ho d (by simp [a]) hh
      have hm : ∀ j, e.lo ≤ j → j < e.hi → fm j = (if false then 1 else 0) ∧ fp j = 1 - (if false then 1 else 0) := fun j a b => by
        simpa using he.2.2 j a b
      by_cases hsh : r ≠ [] ∧ e.hi = (r.headD ⟨umax, umax⟩).lo
      · obtain ⟨h1, h2⟩ := hsh
        cases r with
        | nil => exact absurd rfl h1
        | cons a r =>
          simp only [List.headD_cons] at h2 htr
          have ha := hr.1 a (by simp)
          obtain ⟨D', U', c', Z', s', p1, p2⟩ := shared_spec b2 (trailing := false) he.1 hm
            (by have := (ha.2.2 a.lo (le_refl _) ha.1).1; rw [h2, this]; simp)
          refine ⟨s', true, false, e.hi, ?_, ?_⟩
          · unfold round
            rw [h2] at p1
            cases bot <;> simp at b1 <;> simp [htr, b1, h2, p1]
          · refine ⟨by simp, hcol, ?_⟩
            refine ⟨⟨a, by simp, h2.symm⟩, fun d hd => ?_, D', U', c', Z', p2⟩
            rcases List.mem_append.1 hd with b | b
            · have := habove d b; omega
            · exact (hlow d b).2
      · have hgt : ∀ d ∈ l ++ r, e.hi < d.lo := by
          intro d hd
          rcases List.mem_append.1 hd with b | b
          · exact habove d b
          · have h1 := (hlow d b).2
            cases r with
            | nil => simp at b
            | cons a r =>
              simp only [List.headD_cons, ne_eq, reduceCtorEq, not_false_eq_true, true_and] at hsh
              have h2 := (hlow a (by simp)).2
              rcases List.mem_cons.1 b with rfl | b
              · omega
              · have := side_above hr d b
                have := (hr.1 a (by simp)).1
                omega
        have key := fun A B => top_spec (es := l ++ r) b2 (trailing := false) (haveNext := !(e :: l).isEmpty && !r.isEmpty)
          (umax := umax) (leftY := (l.headD ⟨umax, umax⟩).lo) (rightY := (r.headD ⟨umax, umax⟩).lo) he.1 hm hfin hgt A B
        have key2 := by
          refine key ?_ ?_
          · intro _ k hk hcond d hd
            by_contra hlt
            cases hr0 : r with
            | nil =>
              rw [hr0, List.append_nil] at hd
              have := hgt d (by simp [hd])
              have h1 := hk d.lo (by omega) (by omega)
              have h2 := hl.1 d (by simp [hd])
              have := h2.2.2 d.lo (le_refl _) h2.1
              omega
            | cons a r' =>
              rw [hr0] at hcond hd
              simp only [List.isEmpty_cons, Bool.not_false, Bool.and_self, Bool.not_true, Bool.false_or, Bool.and_eq_true, decide_eq_true_eq, List.headD_cons] at hcond
              have hc2 : k < a.lo := of_decide_eq_true hcond.2
              rcases List.mem_append.1 hd with b | b
              · cases hl0 : l with
                | nil => rw [hl0] at b; simp at b
                | cons a' l' =>
                  rw [hl0] at b hcond
                  simp only [List.headD_cons] at hcond
                  rcases List.mem_cons.1 b with rfl | b
                  · omega
                  · have hl' := side_tail hl
                    rw [hl0] at hl'
                    have := side_above hl' d b
                    have := (hl'.1 a' (by simp)).1
                    omega
              · rcases List.mem_cons.1 b with rfl | b
                · omega
                · rw [hr0] at hr
                  have := side_above hr d b
                  have := (hr.1 a (by simp)).1
                  omega
          · intro _ k hcond
            cases hr0 : r with
            | nil => rw [hr0] at hcond; simp at hcond
            | cons a r' =>
              rw [hr0] at hcond
              simp only [List.isEmpty_cons, Bool.not_false, Bool.and_self, Bool.not_true, Bool.false_or, Bool.and_eq_false_iff, decide_eq_false_iff_not, List.headD_cons] at hcond
              rw [hr0] at hr
              have ha := (hr.1 a (by simp)).2.1
              rcases hcond with b | b
              · cases hl0 : l with
                | nil =>
                  rw [hl0] at b; simp only [List.headD_nil] at b
                  exact ⟨a, by simp, by omega⟩
                | cons a' l' =>
                  rw [hl0] at b; simp only [List.headD_cons] at b
                  exact ⟨a', by simp, by omega⟩
              · have hc2 : ¬ k < a.lo := of_decide_eq_false b
                exact ⟨a, by simp, by omega⟩
        obtain ⟨D', U', Z', s', p1, p2⟩ := key2
        refine ⟨s', false, false, e.hi, ?_, ?_⟩
        · unfold round
          have hcond : (!(e :: l).isEmpty && !r.isEmpty && decide (e.hi = (r.headD ⟨umax, umax⟩).lo)) = false := by
            by_contra hh
            simp only [Bool.not_eq_false, Bool.and_eq_true, Bool.not_eq_true', List.isEmpty_eq_false_iff, decide_eq_true_eq] at hh
            exact hsh ⟨hh.1.2, hh.2⟩
          cases bot <;> simp only [Bool.false_eq_true, if_false, if_true, Option.some.injEq] at b1 <;>
            simp only [List.headD_cons, List.tail_cons, htr, decide_false, Bool.false_eq_true, if_false, if_true, Option.bind_eq_bind, b1, Option.bind_some, hcond, p1]
        · exact ⟨by simp, hcol, hgt, D', U', Z', p2⟩

/-- The whole column. -/
theorem procGo_spec (hfin : ∃ J, ∀ j, J ≤ j → fm j = 0) : ∀ (n : Nat) {y : Int} {l r : List Ivl} {bot : Bool} {s : St}, l.length + r.length = n →
    Col umax fm fp y l r → Rd fr X fm fp base y l r bot s →
    ∃ y' D U Z s', procGo fr umax X n l r bot s = some s' ∧ Gap fr X fm fp base [] y' D U Z s' ∧ ∀ j, y' ≤ j → fm j = fp j
  | 0, y, l, r, bot, s, hn, hc, h => by
    have hl : l = [] := List.eq_nil_of_length_eq_zero (by omega)
    have hr : r = [] := List.eq_nil_of_length_eq_zero (by omega)
    subst hl hr
    cases bot with
    | true => obtain ⟨⟨d, hd, _⟩, _⟩ := h; simp at hd
    | false =>
      obtain ⟨_, D, U, Z, hg⟩ := h
      exact ⟨y, D, U, Z, s, by simp [procGo], hg, fun j hj => hc.off j hj (by simp)⟩
  | n + 1, y, l, r, bot, s, hn, hc, h => by
    have hne : ¬ (l = [] ∧ r = []) := by rintro ⟨rfl, rfl⟩; simp at hn
    obtain ⟨s1, bot1, tr, y1, a, b⟩ := round_spec hc h hfin hne
    rw [procGo, if_neg hne]
    simp only [a, Option.bind_eq_bind, Option.bind_some]
    cases tr with
    | true =>
      simp only [if_true] at b ⊢
      obtain ⟨b1, b2, b3⟩ := b
      refine procGo_spec hfin n ?_ b2 b3
      have := List.length_pos_of_ne_nil b1
      rw [List.length_tail]; omega
    | false =>
      simp only [Bool.false_eq_true, if_false] at b ⊢
      obtain ⟨b1, b2, b3⟩ := b
      refine procGo_spec hfin n ?_ b2 b3
      have := List.length_pos_of_ne_nil b1
      rw [List.length_tail]; omega

end Verif.Proofs.PolyRound
