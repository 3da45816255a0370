import Verif.Proofs.FormLists
/-!
# One point of the sweep
-/
namespace Verif.ArbForm
open Verif.Arb Verif.Contains Verif.Spec Verif.Spec.Arb

/-! ### The queue -/

theorem mem_halves {D : List V} {h : V} : h ∈ halves D ↔ ∃ e ∈ D, h = (e.1, e.2) ∨ h = ((e.1.2, e.1.1), -1 * e.2) := by
  unfold halves
  rw [List.mem_flatMap]
  simp

theorem vertex_half {D : List V} {v : Pt} : Vertex (evs D) v ↔ ∃ h ∈ halves D, h.1.1 = v := by
  constructor
  · rintro ⟨g, hg, h⟩
    obtain ⟨w, hw⟩ := has_evs.1 hg
    rcases h with rfl | rfl
    · exact ⟨_, mem_halves.2 ⟨_, hw, Or.inl rfl⟩, rfl⟩
    · exact ⟨_, mem_halves.2 ⟨_, hw, Or.inr rfl⟩, rfl⟩
  · rintro ⟨h, hh, rfl⟩
    obtain ⟨e, he, rfl | rfl⟩ := mem_halves.1 hh
    · exact ⟨e.1, Has.evs he, Or.inl rfl⟩
    · exact ⟨e.1, Has.evs he, Or.inr rfl⟩

theorem vertex_1 {D : List V} {e : V} (h : e ∈ D) : Vertex (evs D) e.1.1 := ⟨e.1, Has.evs h, Or.inl rfl⟩
theorem vertex_2 {D : List V} {e : V} (h : e ∈ D) : Vertex (evs D) e.1.2 := ⟨e.1, Has.evs h, Or.inr rfl⟩

/-- The queue holds the half edges at the points that are not done, in order; the points done come first. -/
structure Events (D : List V) (dn : Pt → Bool) (L : List V) : Prop where
  perm : L.Perm ((halves D).filter (fun e => !dn e.1.1))
  srt : L.Pairwise (fun a b => lessPoint b.1.1 a.1.1 = false)
  sep : ∀ q r, Vertex (evs D) q → Vertex (evs D) r → dn q = true → dn r = false → plt q r

theorem not_less {a b : Pt} (h : lessPoint b a = false) : a = b ∨ plt a b := by
  rw [Bool.eq_false_iff, Ne, Contains.lessPoint_iff] at h
  by_cases c : a = b
  · exact Or.inl c
  · right
    have : ¬ (a.1 = b.1 ∧ a.2 = b.2) := fun hc => c (Prod.ext hc.1 hc.2)
    omega

theorem Events.todo {D : List V} {dn : Pt → Bool} {L : List V} (h : Events D dn L) {v : Pt} (hv : Vertex (evs D) v) (hd : dn v = false) : ∃ e ∈ L, e.1.1 = v := by
  obtain ⟨e, he, rfl⟩ := vertex_half.1 hv
  exact ⟨e, h.perm.mem_iff.2 (List.mem_filter.2 ⟨he, by rw [hd]; rfl⟩), rfl⟩

theorem Events.mem {D : List V} {dn : Pt → Bool} {L : List V} (h : Events D dn L) {e : V} (he : e ∈ L) : Vertex (evs D) e.1.1 ∧ dn e.1.1 = false := by
  obtain ⟨h1, h2⟩ := List.mem_filter.1 (h.perm.mem_iff.1 he)
  exact ⟨vertex_half.2 ⟨e, h1, rfl⟩, by simpa using h2⟩

theorem Events.first {D : List V} {dn : Pt → Bool} {ev : V} {r : List V} (h : Events D dn (ev :: r)) {v : Pt} (hv : Vertex (evs D) v) (hd : dn v = false) :
    v = ev.1.1 ∨ plt ev.1.1 v := by
  obtain ⟨e, he, rfl⟩ := h.todo hv hd
  rcases List.mem_cons.1 he with rfl | he
  · exact Or.inl rfl
  · rcases not_less ((List.pairwise_cons.1 h.srt).1 e he) with g | g
    · exact Or.inl g.symm
    · exact Or.inr g

theorem Events.next {D : List V} {dn : Pt → Bool} {ev : V} {r : List V} (h : Events D dn (ev :: r)) :
    ((ev :: r).takeWhile (fun e => decide (e.1.1 = ev.1.1))).Perm ((halves D).filter (fun e => decide (e.1.1 = ev.1.1))) ∧
    Events D (fun q => dn q || q == ev.1.1) ((ev :: r).dropWhile (fun e => decide (e.1.1 = ev.1.1))) ∧
    ((ev :: r).dropWhile (fun e => decide (e.1.1 = ev.1.1))).length < (ev :: r).length := by
  have hp := h.mem List.mem_cons_self
  have hsplit := sorted_split (fun e : V => decide (e.1.1 ≠ ev.1.1)) (ev :: r) h.srt (by
    intro a ha b hb hab ca
    simp only [decide_eq_true_eq] at ca ⊢
    intro cb
    rcases h.first (h.mem ha).1 (h.mem ha).2 with g | g
    · exact ca g
    · rcases not_less hab with k | k
      · exact ca (k.trans cb)
      · rw [cb] at k
        unfold plt at g k
        omega)
  have e1 : (fun e : V => !decide (e.1.1 ≠ ev.1.1)) = (fun e : V => decide (e.1.1 = ev.1.1)) := by funext e; simp
  rw [e1] at hsplit
  have ht := tw_append (q := fun e : V => decide (e.1.1 = ev.1.1)) (A := (ev :: r).filter (fun e => decide (e.1.1 = ev.1.1)))
    (B := (ev :: r).filter (fun e => decide (e.1.1 ≠ ev.1.1))) (fun a ha => (List.mem_filter.1 ha).2) (by
      intro a ha
      have := (List.mem_filter.1 ha).2
      simpa using this)
  rw [← hsplit] at ht
  rw [ht.1, ht.2]
  refine ⟨?_, ⟨?_, h.srt.sublist List.filter_sublist, ?_⟩, ?_⟩
  · refine (h.perm.filter _).trans ?_
    rw [List.filter_filter]
    refine List.Perm.of_eq (List.filter_congr ?_)
    intro a _
    by_cases c : a.1.1 = ev.1.1
    · simp [c, hp.2]
    · simp [c]
  · refine (h.perm.filter _).trans ?_
    rw [List.filter_filter]
    refine List.Perm.of_eq (List.filter_congr ?_)
    intro a _
    by_cases c : a.1.1 = ev.1.1
    · simp [c]
    · simp [c]
  · intro q s hq hs dq ds
    simp only [Bool.or_eq_false_iff, Bool.or_eq_true, beq_iff_eq, beq_eq_false_iff_ne] at dq ds
    rcases dq with dq | rfl
    · exact h.sep q s hq hs dq ds.1
    · rcases h.first hs ds.1 with g | g
      · exact absurd g ds.2
      · exact g
  · rw [List.filter_cons_of_neg (by simp)]
    exact Nat.lt_succ_of_le (List.length_filter_le _ _)

theorem Colors.signs {α β : Type} {s : α → Int} {s' : β → Int} : ∀ {L : List α} {L' : List β} {t b : Int}, L.map s = L'.map s' → Colors s t L b → Colors s' t L' b
  | [], [], _, _, _, h => h
  | [], _ :: _, _, _, e, _ => by simp at e
  | _ :: _, [], _, _, e, _ => by simp at e
  | a :: L, a' :: L', t, b, e, h => by
    rw [List.map_cons, List.map_cons, List.cons.injEq] at e
    obtain ⟨h1, h2, h3⟩ := h
    rw [e.1] at h2 h3
    exact ⟨h1, h2, Colors.signs e.2 h3⟩

theorem cl_solid {D : List V} (hd : ∀ e ∈ D, e.2 = 1 ∨ e.2 = -1) {e : V} (he : e ∈ D) {a : V × Nat} (ha : a.1 = (e.1, sg e)) : cl e.1.2 a = solidLeft e := by
  unfold cl dir solidLeft sg at *
  rw [ha]
  dsimp only
  rcases hd e he with h | h <;> by_cases c : e.1.1.1 = e.1.2.1 <;> simp [h, c]

/-- The scanline in front of a column. -/
structure Col (D : List V) (x : Int) (sd : List (V × Nat)) : Prop where
  keys : (sd.map Prod.fst).Perm (D.filter (fun e => decide (LSpan x e.1)))
  srt : sd.Pairwise (fun a b => Lt a.1.1 b.1.1)

theorem Col.mem {D : List V} {x : Int} {sd : List (V × Nat)} (h : Col D x sd) {a : V × Nat} (ha : a ∈ sd) : a.1 ∈ D ∧ LSpan x a.1.1 := by
  have := List.mem_filter.1 (h.keys.mem_iff.1 (List.mem_map.2 ⟨a, ha, rfl⟩))
  exact ⟨this.1, by simpa using this.2⟩

theorem Col.find {D : List V} {x : Int} {sd : List (V × Nat)} (h : Col D x sd) {e : V} (he : e ∈ D) (hs : LSpan x e.1) : ∃ a ∈ sd, a.1 = e := by
  have := h.keys.mem_iff.2 (List.mem_filter.2 ⟨he, by simpa using hs⟩)
  obtain ⟨a, ha, rfl⟩ := List.mem_map.1 this
  exact ⟨a, ha, rfl⟩

/-- The state between two points of a column, except for what is carried upwards. -/
structure MidC (D : List V) (x : Int) (sd : List (V × Nat)) (dn : Pt → Bool) (s : ES) (F : Option Nat) (W : Option (V × Nat)) : Prop where
  ev : Events D dn s.evs
  lo : ∀ q, Vertex (evs D) q → q.1 < x → dn q = true
  hi : ∀ q, Vertex (evs D) q → dn q = true → q.1 ≤ x
  rm : ∀ a ∈ sd, (a.1.1 ∈ s.rm ↔ dn a.1.1.2 = true)
  els : (s.els.map Prod.fst).Perm (D.filter (fun e => decide (e.1.1.1 = x ∧ e.1.2.1 ≠ x) && dn e.1.1))
  web : Web s.H ((sd.filter (fun a => !dn a.1.1.2)).map en ++ (s.els.map en ++ W.toList.map en)) F s.out ((D.filter (fun e => dn e.1.2)).map solidLeft)
  vert : ∀ e ∈ D, e.1.1.1 = x → e.1.2.1 = x → dn e.1.1 = true → dn e.1.2 = false → ∃ a, W = some a ∧ a.1.1 = e.1

/-- What is carried upwards: nothing, a vertical edge, or a closed hole. -/
def St (D : List V) (x : Int) (sd : List (V × Nat)) (dn : Pt → Bool) (s : ES) (F : Option Nat) (W : Option (V × Nat)) : Prop :=
  (W = none ∧ F = none ∧ s.vt = none) ∨
  (∃ a, W = some a ∧ F = none ∧ s.vt = some a.2 ∧ s.vc = (a.1.1.1, -a.1.2) ∧
    ∃ e ∈ D, a.1 = (e.1, sg e) ∧ e.1.1.1 = x ∧ e.1.2.1 = x ∧ dn e.1.1 = true ∧ dn e.1.2 = false) ∨
  (∃ h p0, W = none ∧ F = some h ∧ s.vt = some h ∧ s.vc = (p0, 0) ∧ p0.1 = x ∧
    ∃ ev r, s.evs = ev :: r ∧ ev.1.1.1 = x ∧ (∀ a ∈ sd, a.1.1.2 ≠ ev.1.1) ∧ tt D ev.1.1 = 1)

theorem filter_or_perm {α : Type} (l : List α) (P Q : α → Bool) (h : ∀ a ∈ l, P a = true → Q a = false) :
    (l.filter (fun a => P a || Q a)).Perm (l.filter P ++ l.filter Q) := by
  induction l with
  | nil => exact List.Perm.refl _
  | cons a r ih =>
    have ih := ih (fun b hb => h b (List.mem_cons_of_mem _ hb))
    have ha := h a List.mem_cons_self
    by_cases p : P a = true
    · rw [List.filter_cons_of_pos (by simp [p]), List.filter_cons_of_pos p, List.filter_cons_of_neg (by simp [ha p]), List.cons_append]
      exact ih.cons a
    · by_cases q : Q a = true
      · rw [List.filter_cons_of_pos (by simp [q]), List.filter_cons_of_neg p, List.filter_cons_of_pos q]
        exact (ih.cons a).trans List.perm_middle.symm
      · rw [List.filter_cons_of_neg (by simp [p, q]), List.filter_cons_of_neg p, List.filter_cons_of_neg q]
        exact ih

end Verif.ArbForm
