import Verif.Proofs.S45Scan
/-! # The calls that the 45-degree scanline makes in one column -/
namespace Verif.Deg45

variable {C : Type} [AddCommGroup C] [DecidableEq C]

/-- A call: the counts and the point. -/
abbrev CallG (C : Type) := (C × C) × P

/-- A functor that records its calls. -/
def recFn : Fn C (CallG C) := ⟨fun c1 c2 pt _ _ => [((c1, c2), pt)]⟩

/-- A count is in a call at a point. -/
def AtP (out : List (CallG C)) (p : P) (c : C) : Prop := ∃ k ∈ out, k.2 = p ∧ (k.1.1 = c ∨ k.1.2 = c)

/-- The counts next to a point of a scanline. -/
def vals (X : Int) (L : List (El C)) (y : Int) : List C := lastc 0 (ltAt X L y) :: (grpAt X L y).map El.count

/-- All counts other than zero are in calls at one point. -/
def Seen (out : List (CallG C)) (vs : List C) : Prop := ∃ p, ∀ c ∈ vs, c ≠ 0 → AtP out p c

/-- Every edge was told at its start, with the count below that it still has. -/
def Orig (out : List (CallG C)) : C → List (El C) → Prop
  | _, [] => True
  | b, e :: L => ((b, e.count), (e.x, e.y)) ∈ out ∧ Orig out e.count L

def lows (p : P) : C → List (El C) → List (CallG C)
  | _, [] => []
  | b, e :: L => ((b, e.count), p) :: lows p e.count L

def stc (p : P) (b c : C) : List (CallG C) := if c = b then [] else [((b, c), p)]

theorem AtP.mono {o o' : List (CallG C)} (h : ∀ k ∈ o, k ∈ o') {p : P} {c : C} (a : AtP o p c) : AtP o' p c := by
  obtain ⟨k, hk, h1⟩ := a
  exact ⟨k, h k hk, h1⟩

theorem Seen.mono {o o' : List (CallG C)} (h : ∀ k ∈ o, k ∈ o') {vs : List C} (s : Seen o vs) : Seen o' vs := by
  obtain ⟨p, hp⟩ := s
  exact ⟨p, fun c hc h0 => (hp c hc h0).mono h⟩

theorem Seen.sub {o : List (CallG C)} {vs ws : List C} (h : ∀ c ∈ ws, c ∈ vs) (s : Seen o vs) : Seen o ws := by
  obtain ⟨p, hp⟩ := s
  exact ⟨p, fun c hc h0 => hp c (h c hc) h0⟩

theorem Orig.mono {o o' : List (CallG C)} (h : ∀ k ∈ o, k ∈ o') : ∀ {L : List (El C)} {b : C}, Orig o b L → Orig o' b L
  | [], _, _ => trivial
  | _ :: _, _, ⟨h1, h2⟩ => ⟨h _ h1, h2.mono h⟩

theorem orig_append {o : List (CallG C)} : ∀ {L M : List (El C)} {b : C}, Orig o b (L ++ M) ↔ Orig o b L ∧ Orig o (lastc b L) M
  | [], M, b => by simp [Orig, lastc]
  | e :: L, M, b => by
    simp only [List.cons_append, Orig, lastc]
    rw [orig_append, and_assoc]

theorem emitLows_rec (p : P) : ∀ (L : List (El C)) (b : C) (out : List (CallG C)), emitLows recFn p b L out = out ++ lows p b L
  | [], b, out => by simp [emitLows, lows]
  | e :: L, b, out => by
    rw [emitLows, emitLows_rec p L]
    simp [emit, recFn, lows]

theorem stOut_rec (p : P) (r : Int) (b c : C) (out : List (CallG C)) : stOut recFn p r b c out = out ++ stc p b c := by
  unfold stOut stc
  by_cases h : c = b
  · simp [h]
  · simp [h, emit, recFn]

/-- The calls of one event. -/
def evc (X y : Int) (V : C) (prev : P) (b below : C) (grp : List (El C)) (c0 c1 c2 : C) : List (CallG C) :=
  (if V ≠ 0 then [((b, below), prev), ((b, below), (X, y))] else []) ++ lows (X, y) b grp ++ stc (X, y) below c0 ++ stc (X, y) c0 c1 ++ stc (X, y) c1 c2

theorem evOut_rec (X y : Int) (V : C) (prev : P) (b below : C) (grp : List (El C)) (c0 c1 c2 : C) (out : List (CallG C)) :
    evOut recFn X y V prev b below grp c0 c1 c2 out = out ++ evc X y V prev b below grp c0 c1 c2 := by
  unfold evOut evc
  rw [stOut_rec, stOut_rec, stOut_rec, emitLows_rec]
  by_cases h : V ≠ 0
  · rw [if_pos h, if_pos h]; simp [emit, recFn]
  · rw [if_neg h, if_neg h]; simp

theorem lastc_mem : ∀ (L : List (El C)) (b : C), lastc b L ∈ b :: L.map El.count
  | [], b => by simp [lastc]
  | e :: L, b => by
    have := lastc_mem L e.count
    simp only [lastc, List.map_cons]
    exact List.mem_cons_of_mem _ this

theorem lows_vals (p : P) : ∀ (L : List (El C)) (b : C), ∀ k ∈ lows p b L, k.2 = p ∧ k.1.1 ∈ b :: L.map El.count ∧ k.1.2 ∈ b :: L.map El.count
  | [], b, k, hk => by simp [lows] at hk
  | e :: L, b, k, hk => by
    simp only [lows] at hk
    rcases List.mem_cons.1 hk with rfl | hk
    · exact ⟨rfl, by simp, by simp⟩
    · obtain ⟨h1, h2, h3⟩ := lows_vals p L e.count k hk
      exact ⟨h1, List.mem_cons_of_mem _ (by simpa using h2), List.mem_cons_of_mem _ (by simpa using h3)⟩

theorem lows_at (p : P) : ∀ (L : List (El C)) (b : C), L ≠ [] → ∀ c ∈ b :: L.map El.count, AtP (lows p b L) p c
  | [], b, h, _, _ => absurd rfl h
  | e :: L, b, _, c, hc => by
    rcases List.mem_cons.1 hc with rfl | hc
    · exact ⟨((c, e.count), p), by simp [lows], rfl, Or.inl rfl⟩
    · simp only [List.map_cons] at hc
      rcases List.mem_cons.1 hc with rfl | hc'
      · exact ⟨((b, e.count), p), by simp [lows], rfl, Or.inr rfl⟩
      · have hL : L ≠ [] := by rintro rfl; simp at hc'
        exact (lows_at p L e.count hL c hc).mono (fun k hk => by simp only [lows]; exact List.mem_cons_of_mem _ hk)

theorem stc_at (p : P) {b c : C} (h : c ≠ b) : AtP (stc p b c) p b ∧ AtP (stc p b c) p c := by
  unfold stc
  rw [if_neg h]
  exact ⟨⟨_, List.mem_singleton_self _, rfl, Or.inl rfl⟩, ⟨_, List.mem_singleton_self _, rfl, Or.inr rfl⟩⟩

theorem stc_vals {p : P} {b c : C} {k : CallG C} (h : k ∈ stc p b c) : k = ((b, c), p) ∧ c ≠ b := by
  unfold stc at h
  by_cases e : c = b
  · rw [if_pos e] at h; simp at h
  · rw [if_neg e] at h; exact ⟨List.mem_singleton.1 h, e⟩

theorem news_orig {o : List (CallG C)} {X y : Int} {b c0 c1 c2 : C} (h0 : ∀ k ∈ stc (X, y) b c0, k ∈ o) (h1 : ∀ k ∈ stc (X, y) c0 c1, k ∈ o)
    (h2 : ∀ k ∈ stc (X, y) c1 c2, k ∈ o) : Orig o b (news X y b c0 c1 c2) := by
  have one : ∀ (r : Int) (a c : C), (∀ k ∈ stc (X, y) a c, k ∈ o) → Orig o a (newEl X y r a c) := by
    intro r a c h
    unfold newEl
    unfold stc at h
    by_cases e : c = a
    · rw [if_pos e]; trivial
    · rw [if_neg e] at h ⊢
      exact ⟨h _ (List.mem_singleton_self _), trivial⟩
  unfold news
  rw [orig_append, orig_append, lastc_append, lastc_newEl, lastc_newEl]
  exact ⟨⟨one _ _ _ h0, one _ _ _ h1⟩, one _ _ _ h2⟩

theorem news_vals (X y : Int) (b c0 c1 c2 : C) : c0 ∈ b :: (news X y b c0 c1 c2).map El.count ∧ c1 ∈ b :: (news X y b c0 c1 c2).map El.count ∧
    c2 ∈ b :: (news X y b c0 c1 c2).map El.count := by
  unfold news newEl
  by_cases h0 : c0 = b
  · by_cases h1 : c1 = c0 <;> by_cases h2 : c2 = c1 <;> simp [h0, h1, h2] <;> tauto
  · by_cases h1 : c1 = c0 <;> by_cases h2 : c2 = c1 <;> simp [h0, h1, h2] <;> tauto

theorem news_counts {X y : Int} {b c0 c1 c2 : C} {c : C} (h : c ∈ (news X y b c0 c1 c2).map El.count) : c = c0 ∨ c = c1 ∨ c = c2 := by
  obtain ⟨e, he, rfl⟩ := List.mem_map.1 h
  unfold news at he
  rcases List.mem_append.1 he with he | he
  · rcases List.mem_append.1 he with he | he
    · rw [(mem_newEl he).1]; exact Or.inl rfl
    · rw [(mem_newEl he).1]; exact Or.inr (Or.inl rfl)
  · rw [(mem_newEl he).1]; exact Or.inr (Or.inr rfl)

theorem evc_seen {X y : Int} {V b below : C} {prev : P} {grp g2 : List (El C)} {c0 c1 c2 : C} (hV : below - V = b) {o : List (CallG C)}
    (h : ∀ k ∈ evc X y V prev b below g2 c0 c1 c2, k ∈ o) (hg : ∀ k ∈ lows (X, y) b grp, k ∈ o) :
    (∀ c ∈ (b :: grp.map El.count) ++ (below :: (news X y below c0 c1 c2).map El.count), AtP o (X, y) c) ∨
    (grp = [] ∧ V = 0 ∧ c0 = below ∧ c1 = below ∧ c2 = below) := by
  have h0 : ∀ k ∈ stc (X, y) below c0, k ∈ o := fun k hk => h k (by unfold evc; simp [hk])
  have h1 : ∀ k ∈ stc (X, y) c0 c1, k ∈ o := fun k hk => h k (by unfold evc; simp [hk])
  have h2 : ∀ k ∈ stc (X, y) c1 c2, k ∈ o := fun k hk => h k (by unfold evc; simp [hk])
  have hc : AtP o (X, y) below → AtP o (X, y) c0 ∧ AtP o (X, y) c1 ∧ AtP o (X, y) c2 := by
    intro hb
    have a0 : AtP o (X, y) c0 := by
      by_cases e : c0 = below
      · rw [e]; exact hb
      · exact (stc_at _ e).2.mono h0
    have a1 : AtP o (X, y) c1 := by
      by_cases e : c1 = c0
      · rw [e]; exact a0
      · exact (stc_at _ e).2.mono h1
    refine ⟨a0, a1, ?_⟩
    by_cases e : c2 = c1
    · rw [e]; exact a1
    · exact (stc_at _ e).2.mono h2
  have fin : AtP o (X, y) below → AtP o (X, y) b →
      (∀ c ∈ (b :: grp.map El.count) ++ (below :: (news X y below c0 c1 c2).map El.count), AtP o (X, y) c) := by
    intro hb hb' c hcm
    rcases List.mem_append.1 hcm with hcm | hcm
    · rcases List.mem_cons.1 hcm with rfl | hcm'
      · exact hb'
      · have : grp ≠ [] := by rintro rfl; simp at hcm'
        exact (lows_at (X, y) grp b this c hcm).mono hg
    · rcases List.mem_cons.1 hcm with rfl | hcm'
      · exact hb
      · obtain ⟨a0, a1, a2⟩ := hc hb
        rcases news_counts hcm' with rfl | rfl | rfl
        · exact a0
        · exact a1
        · exact a2
  by_cases cV : V ≠ 0
  · left
    have hm : ((b, below), (X, y)) ∈ o := h _ (by unfold evc; rw [if_pos cV]; simp)
    exact fin ⟨_, hm, rfl, Or.inr rfl⟩ ⟨_, hm, rfl, Or.inl rfl⟩
  · push Not at cV
    rw [cV, sub_zero] at hV
    subst hV
    by_cases cg : grp = []
    · by_cases e0 : c0 = below
      · by_cases e1 : c1 = c0
        · by_cases e2 : c2 = c1
          · right; exact ⟨cg, cV, e0, e1.trans e0, e2.trans (e1.trans e0)⟩
          · left
            have := (stc_at (X, y) e2).1.mono h2
            rw [e1, e0] at this
            exact fin this this
        · left
          have := (stc_at (X, y) e1).1.mono h1
          rw [e0] at this
          exact fin this this
      · left
        have := (stc_at (X, y) e0).1.mono h0
        exact fin this this
    · left
      have := (lows_at (X, y) grp below cg below List.mem_cons_self).mono hg
      exact fin this this

/-- Where edges do not meet, the origin of the edge tells the counts on both sides. -/
theorem seen_orig {o : List (CallG C)} {X : Int} {L : List (El C)} (h : Orig o 0 L) (hs : L.Pairwise (fun a b => a.eval X ≤ b.eval X)) {y : Int}
    (hl : (grpAt X L y).length ≤ 1) : Seen o (vals X L y) := by
  have sp := split3 (fun e : El C => e.eval X) hs y
  have e1 : L.filter (fun e => decide (e.eval X < y)) = ltAt X L y := rfl
  have e2 : L.filter (fun e => decide (e.eval X = y)) = grpAt X L y := rfl
  rw [e1, e2] at sp
  unfold vals
  rw [sp, orig_append, orig_append] at h
  rcases hg : grpAt X L y with _ | ⟨e, _ | ⟨f, r⟩⟩
  · rcases (ltAt X L y).eq_nil_or_concat with hn | ⟨A, e, hn⟩
    · refine ⟨(0, 0), fun c hc h0 => ?_⟩
      rw [hn] at hc
      simp [lastc] at hc
      exact absurd hc h0
    · have h1 := h.1
      rw [hn, List.concat_eq_append, orig_append] at h1
      refine ⟨(e.x, e.y), fun c hc h0 => ⟨_, h1.2.1, rfl, Or.inr ?_⟩⟩
      rw [hn, List.concat_eq_append, lastc_append] at hc
      simp [lastc] at hc
      exact hc.symm
  · have h1 := h.2.1
    rw [hg] at h1
    refine ⟨(e.x, e.y), fun c hc h0 => ⟨_, h1.1, rfl, ?_⟩⟩
    simp only [List.map_cons, List.map_nil, List.mem_cons, List.not_mem_nil, or_false] at hc
    rcases hc with rfl | rfl
    · exact Or.inl rfl
    · exact Or.inr rfl
  · rw [hg] at hl; simp at hl

end Verif.Deg45
