import Verif.Proofs.TouchEvent
/-! # Helper lemmas: the whole scan of the connectivity extraction -/
namespace Verif.Touch
open Verif.BooleanOp Verif.Set90

/-- Events that stand for the edges `L x i y`. -/
structure EvsOk (D : Events) (L : Int → Nat → Int → Prop) : Prop where
  srt : Sorted D
  ok : ∀ e ∈ D, EvOk e.2 (L e.1)
  ne : ∀ e ∈ D, ∃ i y, L e.1 i y
  sup : ∀ x i y, L x i y → ∃ e ∈ D, e.1 = x

theorem evsOk_nil : EvsOk [] (fun _ _ _ => False) := ⟨List.Pairwise.nil, by simp, by simp, by simp⟩

theorem evsOk_congr {D : Events} {L M : Int → Nat → Int → Prop} (h : EvsOk D L) (e : ∀ x i y, L x i y ↔ M x i y) : EvsOk D M := by
  have : L = M := funext fun x => funext fun i => funext fun y => propext (e x i y)
  rw [← this]; exact h

theorem add_keys (x lo hi : Int) (i : Nat) : ∀ {D : Events} {k : Int}, (∃ e ∈ D.add x lo hi i, e.1 = k) ↔ (∃ e ∈ D, e.1 = k) ∨ k = x := by
  intro D k
  induction D with
  | nil => simp [Events.add, eq_comm]
  | cons e r ih =>
    unfold Events.add
    by_cases c1 : x < e.1
    · rw [if_pos c1]
      simp only [List.mem_cons, exists_eq_or_imp]
      constructor
      · rintro (h | h | h)
        · exact Or.inr h.symm
        · exact Or.inl (Or.inl h)
        · exact Or.inl (Or.inr h)
      · rintro ((h | h) | h)
        · exact Or.inr (Or.inl h)
        · exact Or.inr (Or.inr h)
        · exact Or.inl h.symm
    · rw [if_neg c1]
      by_cases c2 : e.1 = x
      · rw [if_pos c2]
        simp only [List.mem_cons, exists_eq_or_imp, c2]
        constructor
        · rintro (h | h)
          · exact Or.inr h.symm
          · exact Or.inl (Or.inr h)
        · rintro ((h | h) | h)
          · exact Or.inl h
          · exact Or.inr h
          · exact Or.inl h.symm
      · rw [if_neg c2]
        simp only [List.mem_cons, exists_eq_or_imp, ih]
        rw [or_assoc]

theorem add_mem (x lo hi : Int) (i : Nat) : ∀ {D : Events}, Sorted D → ∀ e ∈ D.add x lo hi i,
    (e.1 ≠ x ∧ e ∈ D) ∨ (e.1 = x ∧ ((∃ E, (x, E) ∈ D ∧ e.2 = Event.insertIvl E lo hi i) ∨ ((∀ d ∈ D, d.1 ≠ x) ∧ e.2 = Event.insertIvl [] lo hi i))) := by
  intro D hs
  induction D with
  | nil => intro e he; simp only [Events.add, List.mem_cons, List.not_mem_nil, or_false] at he; subst he; right; simp
  | cons a r ih =>
    have hs' := sorted_cons.mp hs
    intro e he
    unfold Events.add at he
    by_cases c1 : x < a.1
    · rw [if_pos c1] at he
      rcases List.mem_cons.mp he with rfl | he
      · refine Or.inr ⟨rfl, Or.inr ⟨fun d hd => ?_, rfl⟩⟩
        rcases List.mem_cons.mp hd with rfl | hd
        · omega
        · have := hs'.1 d hd; omega
      · refine Or.inl ⟨?_, he⟩
        rcases List.mem_cons.mp he with rfl | he
        · omega
        · have := hs'.1 e he; omega
    · rw [if_neg c1] at he
      by_cases c2 : a.1 = x
      · rw [if_pos c2] at he
        rcases List.mem_cons.mp he with rfl | he
        · exact Or.inr ⟨rfl, Or.inl ⟨a.2, by rw [← c2]; simp, rfl⟩⟩
        · refine Or.inl ⟨?_, List.mem_cons_of_mem _ he⟩
          have := hs'.1 e he; omega
      · rw [if_neg c2] at he
        rcases List.mem_cons.mp he with rfl | he
        · exact Or.inl ⟨c2, by simp⟩
        · rcases ih hs'.2 e he with ⟨h1, h2⟩ | ⟨h1, h2⟩
          · exact Or.inl ⟨h1, List.mem_cons_of_mem _ h2⟩
          · refine Or.inr ⟨h1, ?_⟩
            rcases h2 with ⟨E, h2, h3⟩ | ⟨h2, h3⟩
            · exact Or.inl ⟨E, List.mem_cons_of_mem _ h2, h3⟩
            · refine Or.inr ⟨fun d hd => ?_, h3⟩
              rcases List.mem_cons.mp hd with rfl | hd
              · exact c2
              · exact h2 d hd

theorem add_sorted (x lo hi : Int) (i : Nat) : ∀ {D : Events}, Sorted D → Sorted (D.add x lo hi i) := by
  intro D hs
  induction D with
  | nil => simp [Events.add, Sorted]
  | cons a r ih =>
    have hs' := sorted_cons.mp hs
    unfold Events.add
    by_cases c1 : x < a.1
    · rw [if_pos c1]
      refine sorted_cons.mpr ⟨fun e he => ?_, hs⟩
      rcases List.mem_cons.mp he with rfl | he
      · exact c1
      · have := hs'.1 e he; simp only; omega
    · rw [if_neg c1]
      by_cases c2 : a.1 = x
      · rw [if_pos c2]
        exact sorted_cons.mpr ⟨fun e he => by have := hs'.1 e he; simp only; omega, hs'.2⟩
      · rw [if_neg c2]
        refine sorted_cons.mpr ⟨fun e he => ?_, ih hs'.2⟩
        rcases (add_keys x lo hi i).mp ⟨e, he, rfl⟩ with ⟨d, hd, h⟩ | h
        · have := hs'.1 d hd; omega
        · omega

theorem add_ok {D : Events} {L : Int → Nat → Int → Prop} (h : EvsOk D L) {x lo hi : Int} {i : Nat} (hlt : lo < hi)
    (hf : ∀ y, lo - 1 ≤ y → y ≤ hi → ¬ L x i y) :
    EvsOk (D.add x lo hi i) (fun x' j y => L x' j y ∨ (x' = x ∧ j = i ∧ lo ≤ y ∧ y < hi)) := by
  refine ⟨add_sorted x lo hi i h.srt, fun e he => ?_, fun e he => ?_, fun x' j y hL => ?_⟩
  · rcases add_mem x lo hi i h.srt e he with ⟨h1, h2⟩ | ⟨h1, ⟨E, h2, h3⟩ | ⟨h2, h3⟩⟩
    · exact evOk_congr (h.ok e h2) (fun j y => by simp [h1])
    · rw [h3, h1]
      exact evOk_congr (insertIvl_ok (h.ok _ h2) hlt hf) (fun j y => by simp)
    · rw [h3, h1]
      refine evOk_congr (insertIvl_ok evOk_nil hlt (by simp)) (fun j y => ?_)
      simp only [false_or, true_and]
      constructor
      · exact Or.inr
      · rintro (hL | hL)
        · obtain ⟨d, hd, hk⟩ := h.sup x j y hL
          exact absurd hk (h2 d hd)
        · exact hL
  · rcases add_mem x lo hi i h.srt e he with ⟨h1, h2⟩ | ⟨h1, -⟩
    · obtain ⟨j, y, hL⟩ := h.ne e h2
      exact ⟨j, y, Or.inl hL⟩
    · exact ⟨i, lo, Or.inr ⟨h1, rfl, le_refl _, hlt⟩⟩
  · rw [add_keys]
    rcases hL with hL | hL
    · exact Or.inl (h.sup x' j y hL)
    · exact Or.inr hL.1

theorem evsOk_tail {e : Int × Event} {D : Events} {L M : Int → Nat → Int → Prop} (h : EvsOk (e :: D) L)
    (hM : ∀ x i y, M x i y ↔ L x i y ∧ x ≠ e.1) : EvsOk D M := by
  have hs := sorted_cons.mp h.srt
  have key : ∀ d ∈ D, ∀ i y, M d.1 i y ↔ L d.1 i y := fun d hd i y => by
    rw [hM]
    have := hs.1 d hd
    constructor
    · exact And.left
    · exact fun h => ⟨h, by omega⟩
  refine ⟨hs.2, fun d hd => ?_, fun d hd => ?_, fun x i y hL => ?_⟩
  · exact evOk_congr (h.ok d (by simp [hd])) (fun i y => (key d hd i y).symm)
  · obtain ⟨i, y, hL⟩ := h.ne d (by simp [hd])
    exact ⟨i, y, (key d hd i y).mpr hL⟩
  · obtain ⟨hL, hx⟩ := (hM x i y).mp hL
    obtain ⟨d, hd, hk⟩ := h.sup x i y hL
    rcases List.mem_cons.mp hd with rfl | hd
    · exact absurd hk.symm hx
    · exact ⟨d, hd, hk⟩

/-! ### The sweep -/

/-- The pairs of sets that touch on or left of the line at abscissa `X`. -/
def Meets (f : Nat → Int → Int → Prop) (X : Int) (p : Nat × Nat) : Prop :=
  ∃ c d x y1 y2, x ≤ X ∧ (f c (x - 1) y1 ∨ f c x y1) ∧ (f d (x - 1) y2 ∨ f d x y2) ∧ y1 - 1 ≤ y2 ∧ y2 ≤ y1 + 1 ∧ Link c d p

theorem const_between {f : Nat → Int → Int → Prop} {X X' : Int}
    (h : ∀ x, X < x → x < X' → ∀ i y, f i x y ↔ f i (x - 1) y) : ∀ x, X ≤ x → x < X' → ∀ i y, f i x y ↔ f i X y := by
  have key : ∀ n : Nat, X + n < X' → ∀ i y, f i (X + n) y ↔ f i X y := by
    intro n
    induction n with
    | zero => intro _ i y; simp
    | succ n ih =>
      intro hn i y
      rw [h _ (by push_cast; omega) hn, ← ih (by push_cast at hn; omega) i y,
        show X + ((n + 1 : Nat) : Int) - 1 = X + n by push_cast; omega]
  intro x h1 h2 i y
  have := key (x - X).toNat (by omega) i y
  rwa [show X + ((x - X).toNat : Int) = x by omega] at this

theorem touchGo_spec {f : Nat → Int → Int → Prop} {B : Int} (hB : ∀ i x y, B ≤ x → ¬ f i x y) (n : Nat) :
    ∀ (ls rs : Events) (X : Int) (g : Graph) (s : State Ids), ls.length + rs.length = n →
    EvsOk ls (fun x i y => X < x ∧ f i x y ∧ ¬ f i (x - 1) y) →
    (∀ e ∈ rs, X ≤ e.1) →
    EvsOk rs (fun x i y => (X < x ∨ (x = X ∧ ∃ e ∈ rs, e.1 = X)) ∧ ¬ f i x y ∧ f i (x - 1) y) →
    Sorted s.scan → lastVal (0 : Ids) s.scan = 0 →
    (∀ i y, i ∈ valD (0 : Ids) s.scan y ↔ f i X y ∨ ((∃ e ∈ rs, e.1 = X) ∧ f i (X - 1) y)) →
    (∀ p, p ∈ g ↔ Meets f X p) →
    ∃ g', touchGo g s ls rs = some g' ∧ ∀ p, p ∈ g' ↔ ∃ X, Meets f X p := by
  induction n with
  | zero =>
    intro ls rs X g s hlen hls hrX hrs hs hz hS hg
    have h1 : ls = [] := List.eq_nil_of_length_eq_zero (by omega)
    have h2 : rs = [] := List.eq_nil_of_length_eq_zero (by omega)
    subst h1 h2
    refine ⟨g, by simp [touchGo], fun p => ⟨fun h => ⟨X, (hg p).mp h⟩, ?_⟩⟩
    rintro ⟨Y, c, d, x, y1, y2, hx, hc, hd, h1, h2, hk⟩
    have hstep : ∀ x, X < x → x < max X Y + 1 → ∀ i y, f i x y ↔ f i (x - 1) y := by
      intro x hx _ i y
      by_contra hn
      by_cases h : f i x y
      · obtain ⟨e, he, -⟩ := hls.sup x i y ⟨hx, h, fun h' => hn (iff_of_true h h')⟩
        simp at he
      · have h' : f i (x - 1) y := by by_contra h'; exact hn (iff_of_false h h')
        obtain ⟨e, he, -⟩ := hrs.sup x i y ⟨Or.inl hx, h, h'⟩
        simp at he
    have hcst := const_between hstep
    rw [hg]
    by_cases hxX : x ≤ X
    · exact ⟨c, d, x, y1, y2, hxX, hc, hd, h1, h2, hk⟩
    · rw [hcst x (by omega) (by omega), hcst (x - 1) (by omega) (by omega), or_self] at hc hd
      exact ⟨c, d, X, y1, y2, le_refl _, Or.inr hc, Or.inr hd, h1, h2, hk⟩
  | succ n ih =>
    -- a trailing event at `r.1`
    have right : ∀ (ls : Events) (r : Int × Event) (rs : Events) (X : Int) (g : Graph) (s : State Ids), ls.length + rs.length = n →
        (∀ l ∈ ls, r.1 < l.1) →
        EvsOk ls (fun x i y => X < x ∧ f i x y ∧ ¬ f i (x - 1) y) →
        (∀ e ∈ r :: rs, X ≤ e.1) →
        EvsOk (r :: rs) (fun x i y => (X < x ∨ (x = X ∧ ∃ e ∈ r :: rs, e.1 = X)) ∧ ¬ f i x y ∧ f i (x - 1) y) →
        Sorted s.scan → lastVal (0 : Ids) s.scan = 0 →
        (∀ i y, i ∈ valD (0 : Ids) s.scan y ↔ f i X y ∨ ((∃ e ∈ r :: rs, e.1 = X) ∧ f i (X - 1) y)) →
        (∀ p, p ∈ g ↔ Meets f X p) →
        ∃ g1 s1 g', processEvent false g s.advance r.2 = some (g1, s1) ∧ touchGo g1 s1 ls rs = some g' ∧ ∀ p, p ∈ g' ↔ ∃ X, Meets f X p := by
      intro ls r rs X g s hlen hlr hls hrX hrs hs hz hS hg
      have hsr := sorted_cons.mp hrs.srt
      have hrX0 := hrX r (by simp)
      have hnoL : ∀ x, X < x → x ≤ r.1 → ∀ i y, f i x y → f i (x - 1) y := by
        intro x h1 h2 i y h3
        by_contra h4
        obtain ⟨e, he, hk⟩ := hls.sup x i y ⟨h1, h3, h4⟩
        have := hlr e he; omega
      have hnoR : ∀ x, X < x → x < r.1 → ∀ i y, f i (x - 1) y → f i x y := by
        intro x h1 h2 i y h3
        by_contra h4
        obtain ⟨e, he, hk⟩ := hrs.sup x i y ⟨Or.inl h1, h4, h3⟩
        rcases List.mem_cons.mp he with rfl | he
        · omega
        · have := hsr.1 e he; omega
      have hcst := const_between (f := f) (X := X) (X' := r.1) (fun x h1 h2 i y => ⟨hnoL x h1 (by omega) i y, hnoR x h1 h2 i y⟩)
      have hok := hrs.ok r (by simp)
      -- the scan holds the column left of `r.1`, together with the one right of it
      have hS' : ∀ i y, i ∈ valD (0 : Ids) s.scan y ↔ f i r.1 y ∨ f i (r.1 - 1) y := by
        intro i y
        rw [hS]
        by_cases hr : r.1 = X
        · rw [hr]
          constructor
          · rintro (h | h)
            · exact Or.inl h
            · exact Or.inr h.2
          · rintro (h | h)
            · exact Or.inl h
            · exact Or.inr ⟨⟨r, by simp, hr⟩, h⟩
        · have hne : ¬ ∃ e ∈ r :: rs, e.1 = X := by
            rintro ⟨e, he, hk⟩
            rcases List.mem_cons.mp he with rfl | he
            · exact hr hk
            · have := hsr.1 e he; omega
          rw [← hcst (r.1 - 1) (by omega) (by omega)]
          constructor
          · rintro (h | h)
            · exact Or.inr h
            · exact absurd h.1 hne
          · rintro (h | h)
            · exact Or.inl (hnoL r.1 (by omega) (le_refl _) i y h)
            · exact Or.inl h
      obtain ⟨g1, s1, e1, e2, e3, e4, e5⟩ := processEvent_spec false hok g s hs hz (by simp) (fun _ i y hL => by
        rw [hS']; exact Or.inr hL.2.2)
      have hfr : ∀ i y, i ∈ valD (0 : Ids) s1.scan y ↔ f i r.1 y := by
        intro i y
        rw [e4, hS']
        simp only [Bool.false_eq_true, if_false]
        constructor
        · rintro ⟨h1 | h1, h2⟩
          · exact h1
          · by_contra h3
            refine h2 ⟨?_, h3, h1⟩
            by_cases hr : r.1 = X
            · exact Or.inr ⟨hr, r, by simp, hr⟩
            · exact Or.inl (by omega)
        · intro h
          exact ⟨Or.inl h, fun h' => h'.2.1 h⟩
      have hrs0 : ¬ ∃ e ∈ rs, e.1 = r.1 := by
        rintro ⟨e, he, hk⟩; have := hsr.1 e he; omega
      have hmeet : ∀ p, Meets f r.1 p ↔ Meets f X p := by
        intro p
        constructor
        · rintro ⟨c, d, x, y1, y2, hx, hc, hd, h1, h2, hk⟩
          by_cases hxX : x ≤ X
          · exact ⟨c, d, x, y1, y2, hxX, hc, hd, h1, h2, hk⟩
          · have hh : ∀ i y, f i (x - 1) y ∨ f i x y → f i X y := by
              intro i y h
              rw [← hcst (x - 1) (by omega) (by omega)]
              rcases h with h | h
              · exact h
              · exact hnoL x (by omega) (by omega) i y h
            exact ⟨c, d, X, y1, y2, le_refl _, Or.inr (hh _ _ hc), Or.inr (hh _ _ hd), h1, h2, hk⟩
        · rintro ⟨c, d, x, y1, y2, hx, h⟩
          exact ⟨c, d, x, y1, y2, by omega, h⟩
      obtain ⟨g', k1, k2⟩ := ih ls rs r.1 g1 s1 hlen
        (evsOk_congr hls (fun x i y => by
          constructor
          · rintro ⟨h1, h2, h3⟩
            refine ⟨?_, h2, h3⟩
            by_contra hc
            exact h3 (hnoL x h1 (by omega) i y h2)
          · rintro ⟨h1, h2⟩
            exact ⟨by omega, h2⟩))
        (fun e he => by have := hsr.1 e he; omega)
        (evsOk_tail hrs (fun x i y => by
          constructor
          · rintro ⟨h1 | h1, h2⟩
            · exact ⟨⟨Or.inl (by omega), h2⟩, by omega⟩
            · exact absurd h1.2 hrs0
          · rintro ⟨⟨h1, h2⟩, h3⟩
            refine ⟨Or.inl ?_, h2⟩
            obtain ⟨e, he, hk⟩ := hrs.sup x i y ⟨h1, h2⟩
            rcases List.mem_cons.mp he with rfl | he
            · exact absurd hk.symm h3
            · have := hsr.1 e he; omega))
        e2 e3
        (fun i y => by
          rw [hfr]
          constructor
          · exact Or.inl
          · rintro (h | h)
            · exact h
            · exact absurd h.1 hrs0)
        (fun p => by rw [e5, hmeet, ← hg]; simp)
      exact ⟨g1, s1, g', e1, k1, k2⟩
    intro ls rs X g s hlen hls hrX hrs hs hz hS hg
    cases ls with
    | nil =>
      cases rs with
      | nil => simp at hlen
      | cons r rs =>
        obtain ⟨g1, s1, g', k1, k2, k3⟩ := right [] r rs X g s (by simp at hlen ⊢; omega) (by simp) hls hrX hrs hs hz hS hg
        refine ⟨g', ?_, k3⟩
        rw [touchGo, k1]
        exact k2
    | cons l ls =>
      have hsl := sorted_cons.mp hls.srt
      obtain ⟨il, yl, hXl, hfl, hfl'⟩ := hls.ne l (by simp)
      cases rs with
      | nil =>
        -- left edges without right edges: the set would be unbounded
        exfalso
        have key : ∀ n : Nat, f il (l.1 + n) yl := by
          intro n
          induction n with
          | zero => simpa using hfl
          | succ n ihn =>
            by_contra h
            obtain ⟨e, he, -⟩ := hrs.sup (l.1 + ((n + 1 : Nat) : Int)) il yl ⟨Or.inl (by push_cast; omega), h, by
              rw [show l.1 + ((n + 1 : Nat) : Int) - 1 = l.1 + n by push_cast; omega]; exact ihn⟩
            simp at he
        exact hB il (l.1 + (B - l.1).toNat) yl (by omega) (key _)
      | cons r rs =>
        have hsr := sorted_cons.mp hrs.srt
        have hrX0 := hrX r (by simp)
        by_cases hlr : l.1 ≤ r.1
        · -- a leading event
          have hrs0 : ¬ ∃ e ∈ r :: rs, e.1 = X := by
            rintro ⟨e, he, hk⟩
            rcases List.mem_cons.mp he with rfl | he
            · omega
            · have := hsr.1 e he; omega
          have hnoL : ∀ x, X < x → x < l.1 → ∀ i y, f i x y → f i (x - 1) y := by
            intro x h1 h2 i y h3
            by_contra h4
            obtain ⟨e, he, hk⟩ := hls.sup x i y ⟨h1, h3, h4⟩
            rcases List.mem_cons.mp he with rfl | he
            · omega
            · have := hsl.1 e he; omega
          have hnoR : ∀ x, X < x → x < l.1 → ∀ i y, f i (x - 1) y → f i x y := by
            intro x h1 h2 i y h3
            by_contra h4
            obtain ⟨e, he, hk⟩ := hrs.sup x i y ⟨Or.inl h1, h4, h3⟩
            rcases List.mem_cons.mp he with rfl | he
            · omega
            · have := hsr.1 e he; omega
          have hcst := const_between (f := f) (X := X) (X' := l.1) (fun x h1 h2 i y => ⟨hnoL x h1 h2 i y, hnoR x h1 h2 i y⟩)
          have hS' : ∀ i y, i ∈ valD (0 : Ids) s.scan y ↔ f i (l.1 - 1) y := by
            intro i y
            rw [hS, hcst (l.1 - 1) (by omega) (by omega)]
            constructor
            · rintro (h | h)
              · exact h
              · exact absurd h.1 hrs0
            · exact Or.inl
          obtain ⟨g1, s1, e1, e2, e3, e4, e5⟩ := processEvent_spec true (hls.ok l (by simp)) g s hs hz (fun _ i y hL => by
            rw [hS']; exact hL.2.2) (by simp)
          have hfl2 : ∀ i y, i ∈ valD (0 : Ids) s1.scan y ↔ f i l.1 y ∨ f i (l.1 - 1) y := by
            intro i y
            rw [e4, hS']
            simp only [if_true]
            constructor
            · rintro (h | h)
              · exact Or.inr h
              · exact Or.inl h.2.1
            · rintro (h | h)
              · by_cases h' : f i (l.1 - 1) y
                · exact Or.inl h'
                · exact Or.inr ⟨hXl, h, h'⟩
              · exact Or.inl h
          have hmeet : ∀ p, p ∈ g1 ↔ Meets f l.1 p := by
            intro p
            rw [e5, hg]
            simp only [true_and, hS']
            constructor
            · rintro (⟨c, d, x, y1, y2, hx, h⟩ | ⟨c, d, y1, y2, hc, hd, h1, h2, hk⟩)
              · exact ⟨c, d, x, y1, y2, by omega, h⟩
              · refine ⟨c, d, l.1, y1, y2, le_refl _, Or.inr hc.2.1, ?_, h1, h2, hk⟩
                rcases hd with hd | hd
                · exact Or.inl hd
                · exact Or.inr hd.2.1
            · rintro ⟨c, d, x, y1, y2, hx, hc, hd, h1, h2, hk⟩
              by_cases hxX : x ≤ X
              · exact Or.inl ⟨c, d, x, y1, y2, hxX, hc, hd, h1, h2, hk⟩
              · by_cases hxl : x < l.1
                · left
                  rw [hcst x (by omega) (by omega), hcst (x - 1) (by omega) (by omega), or_self] at hc hd
                  exact ⟨c, d, X, y1, y2, le_refl _, Or.inr hc, Or.inr hd, h1, h2, hk⟩
                · have : x = l.1 := by omega
                  subst this
                  by_cases hc' : f c (l.1 - 1) y1
                  · by_cases hd' : f d (l.1 - 1) y2
                    · left
                      rw [hcst (l.1 - 1) (by omega) (by omega)] at hc' hd'
                      exact ⟨c, d, X, y1, y2, le_refl _, Or.inr hc', Or.inr hd', h1, h2, hk⟩
                    · right
                      exact ⟨d, c, y2, y1, ⟨hXl, hd.resolve_left hd', hd'⟩, Or.inl hc', by omega, by omega, hk.symm⟩
                  · right
                    refine ⟨c, d, y1, y2, ⟨hXl, hc.resolve_left hc', hc'⟩, ?_, h1, h2, hk⟩
                    by_cases hd' : f d (l.1 - 1) y2
                    · exact Or.inl hd'
                    · exact Or.inr ⟨hXl, hd.resolve_left hd', hd'⟩
          have hRl : ∀ i y, ¬ f i l.1 y → f i (l.1 - 1) y → ∃ e ∈ r :: rs, e.1 = l.1 := fun i y h1 h2 =>
            hrs.sup l.1 i y ⟨Or.inl hXl, h1, h2⟩
          obtain ⟨g', k1, k2⟩ := ih ls (r :: rs) l.1 g1 s1 (by simp at hlen ⊢; omega)
            (evsOk_tail hls (fun x i y => by
              constructor
              · rintro ⟨h1, h2⟩
                exact ⟨⟨by omega, h2⟩, by omega⟩
              · rintro ⟨⟨h1, h2⟩, h3⟩
                refine ⟨?_, h2⟩
                obtain ⟨e, he, hk⟩ := hls.sup x i y ⟨h1, h2⟩
                rcases List.mem_cons.mp he with rfl | he
                · exact absurd hk.symm h3
                · have := hsl.1 e he; omega))
            (fun e he => by
              rcases List.mem_cons.mp he with rfl | he
              · exact hlr
              · have := hsr.1 e he; omega)
            (evsOk_congr hrs (fun x i y => by
              constructor
              · rintro ⟨h1, h2⟩
                refine ⟨?_, h2⟩
                obtain ⟨e, he, hk⟩ := hrs.sup x i y ⟨h1, h2⟩
                have hel : l.1 ≤ e.1 := by
                  rcases List.mem_cons.mp he with rfl | he
                  · exact hlr
                  · have := hsr.1 e he; omega
                by_cases hxl : x = l.1
                · exact Or.inr ⟨hxl, e, he, by omega⟩
                · exact Or.inl (by omega)
              · rintro ⟨h1, h2⟩
                refine ⟨Or.inl ?_, h2⟩
                rcases h1 with h1 | h1 <;> omega))
            e2 e3
            (fun i y => by
              rw [hfl2]
              constructor
              · rintro (h | h)
                · exact Or.inl h
                · by_cases h' : f i l.1 y
                  · exact Or.inl h'
                  · exact Or.inr ⟨hRl i y h' h, h⟩
              · rintro (h | h)
                · exact Or.inl h
                · exact Or.inr h.2)
            hmeet
          refine ⟨g', ?_, k2⟩
          rw [touchGo, if_pos hlr, e1]
          exact k1
        · obtain ⟨g1, s1, g', k1, k2, k3⟩ := right (l :: ls) r rs X g s (by simp at hlen ⊢; omega) (fun e he => by
            rcases List.mem_cons.mp he with rfl | he
            · omega
            · have := hsl.1 e he; omega) hls hrX hrs hs hz hS hg
          refine ⟨g', ?_, k3⟩
          rw [touchGo, if_neg hlr, k1]
          exact k2

end Verif.Touch
