import Verif.Proofs.BooleanScan
/-! `applyBooleanOr` and `applyBooleanBinaryOp` as instances of the generic column scan. -/
namespace Verif.BooleanOp

def toEv (v : V) : Ev Int := (v.x, v.y, v.c)

/-- Sorted by coordinate then position (the part of the sort order the scans rely on). -/
def SortedXY (L : List V) : Prop := L.Pairwise (fun a b => a.x < b.x ∨ (a.x = b.x ∧ a.y ≤ b.y))

/-- Every column of vertices sums to zero. -/
def ColClosed (L : List V) : Prop := ∀ a : Int, (L.map (fun v => if v.x = a then v.c else 0)).sum = 0

theorem orLoop_eq (pos : Int → Bool) (L : List V) (s : Loop Int) :
    orLoop pos L s = scanE pos (L.map toEv) s := by
  induction L generalizing s with
  | nil => rfl
  | cons v r ih =>
    simp only [orLoop, List.map_cons, scanE, toEv]
    cases scanBody pos s v.x v.y v.c with
    | none => rfl
    | some s' => exact ih s'

theorem S_map_toEv (p : Int → Int → Bool) (L : List V) :
    S p (L.map toEv) = (L.map (fun v => if p v.x v.y then v.c else 0)).sum := by
  rw [S, List.map_map]; rfl

theorem coverZ_eq_S (L : List V) (a y : Int) :
    coverZ L a y = S (fun x z => decide (x ≤ a) && decide (z ≤ y)) (L.map toEv) := by
  rw [S_map_toEv]; simp [coverZ]

theorem closed_toEv {L : List V} (h : ColClosed L) : ClosedE (L.map toEv) := by
  intro a
  rw [S_map_toEv]
  simpa using h a

theorem sorted_toEv {L : List V} (h : SortedXY L) : (L.map toEv).Pairwise ELe :=
  List.Pairwise.map _ (fun _ _ h => h) h

theorem applyBooleanOr_spec (pos : Int → Bool) (hp : pos 0 = false) (umax : Int) (L : List V)
    (hs : SortedXY L) (hc : ColClosed L) :
    ∃ out, applyBooleanOr pos umax L = some out ∧ Canon out ∧
      ∀ a y, coverZ out a y = ind (pos (coverZ L a y)) := by
  obtain ⟨s, e, h1, h2⟩ := scanE_cover hp (L.map toEv) (closed_toEv hc) (sorted_toEv hs) umax umax
  refine ⟨s.out.reverse, ?_, canon_reverse h1, ?_⟩
  · rw [applyBooleanOr, orLoop_eq, e]; rfl
  · intro a y; rw [coverZ_reverse, h2, coverZ_eq_S]

theorem scanE_safe_init {T : Type} [AddCommMonoid T] [DecidableEq T] (pos : T → Bool) (E : List (Ev T))
    (hs : E.Pairwise ELe) (p q : Int) : ∃ s, scanE pos E ⟨State.init, p, q, 0, []⟩ = some s := by
  cases E with
  | nil => exact ⟨_, rfl⟩
  | cons e R =>
    rw [scanE, scanBody_first]
    exact scanE_safe pos R _ (InvS.first _ _ _) (fun f hf => (List.pairwise_cons.mp hs).1 f hf)
      (List.pairwise_cons.mp hs).2

theorem applyBooleanOr_safe (pos : Int → Bool) (umax : Int) (L : List V) (hs : SortedXY L) :
    ∃ out, applyBooleanOr pos umax L = some out := by
  obtain ⟨s, e⟩ := scanE_safe_init pos (L.map toEv) (sorted_toEv hs) umax umax
  exact ⟨s.out.reverse, by rw [applyBooleanOr, orLoop_eq, e]; rfl⟩

/-! ### the two-stream merge -/

def Bounded (umax : Int) (L : List V) : Prop := ∀ v ∈ L, v.x ≤ umax ∧ v.y ≤ umax

theorem S_cons {T : Type} [AddCommMonoid T] (p : Int → Int → Bool) (e : Ev T) (E : List (Ev T)) :
    S p (e :: E) = (if p e.1 e.2.1 then e.2.2 else 0) + S p E := by simp [S]

theorem sortedXY_cons {v : V} {L : List V} : SortedXY (v :: L) ↔
    (∀ b ∈ L, v.x < b.x ∨ (v.x = b.x ∧ v.y ≤ b.y)) ∧ SortedXY L := List.pairwise_cons

/-- The choice of the next event: it is the least remaining one, and the counts split. -/
theorem nextEvent_spec {umax : Int} {l1 l2 : List V} (hs1 : SortedXY l1) (hs2 : SortedXY l2)
    (hb2 : Bounded umax l2) (hne : l1 ≠ [] ∨ l2 ≠ []) :
    ∃ e r1 r2, nextEvent umax l1 l2 = (e, r1, r2) ∧ r1.length + r2.length < l1.length + l2.length ∧
      (∀ v ∈ r1, e.1 < v.x ∨ (e.1 = v.x ∧ e.2.1 ≤ v.y)) ∧
      (∀ v ∈ r2, e.1 < v.x ∨ (e.1 = v.x ∧ e.2.1 ≤ v.y)) ∧
      SortedXY r1 ∧ SortedXY r2 ∧ Bounded umax r2 ∧
      (∃ v, (v ∈ l1 ∨ v ∈ l2) ∧ v.x = e.1 ∧ v.y = e.2.1) ∧
      (∀ v ∈ r1, v ∈ l1) ∧ (∀ v ∈ r2, v ∈ l2) ∧
      ∀ p, (if p e.1 e.2.1 then e.2.2 else 0) + ((S p (r1.map toEv), S p (r2.map toEv)) : Int × Int) =
        (S p (l1.map toEv), S p (l2.map toEv)) := by
  have fin1 : ∀ (p : Int → Int → Bool) (v : V) (x y : Int),
      (if p v.x v.y then ((0 + v.c, 0) : Int × Int) else 0) + (x, y) = ((if p v.x v.y then v.c else 0) + x, y) := by
    intro p v x y; split <;> simp
  have fin2 : ∀ (p : Int → Int → Bool) (v : V) (x y : Int),
      (if p v.x v.y then ((0, 0 + v.c) : Int × Int) else 0) + (x, y) = (x, (if p v.x v.y then v.c else 0) + y) := by
    intro p v x y; split <;> simp
  cases l1 with
  | nil =>
    cases l2 with
    | nil => simp at hne
    | cons b r2 =>
      have hb := hb2 b (by simp)
      have h2 := sortedXY_cons.mp hs2
      by_cases c1 : b.x < umax ∨ (b.x = umax ∧ b.y < umax)
      · refine ⟨(b.x, b.y, (0, 0 + b.c)), [], r2, by simp only [nextEvent, if_pos c1], by simp, by simp, h2.1, hs1, h2.2,
          fun v hv => hb2 v (by simp [hv]), ⟨b, by simp, rfl, rfl⟩, by simp, fun v hv => by simp [hv], ?_⟩
        intro p; simp only [List.map_cons, S_cons, toEv, fin2]
      · have c2 : b.x = umax ∧ b.y = umax := by omega
        refine ⟨(umax, umax, (0, 0 + b.c)), [], r2, by simp only [nextEvent, if_neg c1, if_pos c2], by simp, by simp, ?_, hs1, h2.2,
          fun v hv => hb2 v (by simp [hv]), ⟨b, by simp, c2.1, c2.2⟩, by simp, fun v hv => by simp [hv], ?_⟩
        · intro v hv; have := h2.1 v hv; simp only; omega
        · intro p
          have := fin2 p b
          rw [c2.1, c2.2] at this
          simp only [List.map_cons, S_cons, toEv, this, c2.1, c2.2]
  | cons a r1 =>
    have h1 := sortedXY_cons.mp hs1
    cases l2 with
    | nil =>
      refine ⟨(a.x, a.y, (0 + a.c, 0)), r1, [], rfl, by simp, h1.1, by simp, h1.2, hs2, hb2,
        ⟨a, by simp, rfl, rfl⟩, fun v hv => by simp [hv], by simp, ?_⟩
      intro p; simp only [List.map_cons, S_cons, toEv, fin1]
    | cons b r2 =>
      have h2 := sortedXY_cons.mp hs2
      have hb := fun v (hv : v ∈ r2) => hb2 v (by simp [hv])
      by_cases c1 : b.x < a.x ∨ (b.x = a.x ∧ b.y < a.y)
      · refine ⟨(b.x, b.y, (0, 0 + b.c)), a :: r1, r2, by simp only [nextEvent, if_pos c1], by simp, ?_, h2.1, hs1, h2.2,
          hb, ⟨b, by simp, rfl, rfl⟩, fun v hv => hv, fun v hv => by simp [hv], ?_⟩
        · intro v hv
          rcases List.mem_cons.mp hv with rfl | hv
          · simp only; omega
          · have := h1.1 v hv; simp only; omega
        · intro p; simp only [List.map_cons, S_cons, toEv, fin2]
      · by_cases c2 : b.x = a.x ∧ b.y = a.y
        · refine ⟨(a.x, a.y, (0 + a.c, 0 + b.c)), r1, r2, by simp only [nextEvent, if_neg c1, if_pos c2], by simp; omega, h1.1, ?_, h1.2, h2.2,
            hb, ⟨a, by simp, rfl, rfl⟩, fun v hv => by simp [hv], fun v hv => by simp [hv], ?_⟩
          · intro v hv; have := h2.1 v hv; simp only; omega
          · intro p
            simp only [List.map_cons, S_cons, toEv, c2.1, c2.2]
            split <;> simp
        · refine ⟨(a.x, a.y, (0 + a.c, 0)), r1, b :: r2, by simp only [nextEvent, if_neg c1, if_neg c2], by simp, h1.1, ?_, h1.2, hs2,
            hb2, ⟨a, by simp, rfl, rfl⟩, fun v hv => by simp [hv], fun v hv => hv, ?_⟩
          · intro v hv
            rcases List.mem_cons.mp hv with rfl | hv
            · simp only; omega
            · have := h2.1 v hv; simp only; omega
          · intro p; simp only [List.map_cons, S_cons, toEv, fin1]

theorem binLoop_eq (pos : Int × Int → Bool) (umax : Int) (fuel : Nat) :
    ∀ (l1 l2 : List V), l1.length + l2.length ≤ fuel → SortedXY l1 → SortedXY l2 →
    Bounded umax l2 →
    ∃ M : List (Ev (Int × Int)), (∀ s, binLoop pos umax fuel l1 l2 s = scanE pos M s) ∧ M.Pairwise ELe ∧
      (∀ e ∈ M, ∃ v, (v ∈ l1 ∨ v ∈ l2) ∧ v.x = e.1 ∧ v.y = e.2.1) ∧
      ∀ p, S p M = (S p (l1.map toEv), S p (l2.map toEv)) := by
  induction fuel with
  | zero =>
    intro l1 l2 hl h1 h2 hb
    have : l1 = [] ∧ l2 = [] := by
      constructor <;> apply List.eq_nil_of_length_eq_zero <;> omega
    obtain ⟨rfl, rfl⟩ := this
    exact ⟨[], fun s => rfl, List.Pairwise.nil, by simp, fun p => rfl⟩
  | succ fuel ih =>
    intro l1 l2 hl h1 h2 hb
    by_cases hne : l1 = [] ∧ l2 = []
    · obtain ⟨rfl, rfl⟩ := hne
      exact ⟨[], fun s => rfl, List.Pairwise.nil, by simp, fun p => rfl⟩
    · have hne' : l1 ≠ [] ∨ l2 ≠ [] := by
        by_cases h : l1 = []
        · exact Or.inr (fun h' => hne ⟨h, h'⟩)
        · exact Or.inl h
      obtain ⟨e, r1, r2, g0, g1, g2, g3, g4, g5, g6, g7, g8, g9, g10⟩ := nextEvent_spec h1 h2 hb hne'
      obtain ⟨M, m1, m2, m3, m4⟩ := ih r1 r2 (by omega) g4 g5 g6
      refine ⟨e :: M, ?_, ?_, ?_, ?_⟩
      · intro s
        rw [binLoop.eq_3 _ _ _ _ _ _ (by intro h h'; exact hne ⟨h, h'⟩), g0]
        simp only [scanE]
        cases scanBody pos s e.1 e.2.1 e.2.2 with
        | none => rfl
        | some s' => exact m1 s'
      · rw [List.pairwise_cons]
        refine ⟨fun f hf => ?_, m2⟩
        obtain ⟨v, hv, hx, hy⟩ := m3 f hf
        unfold ELe
        rw [← hx, ← hy]
        rcases hv with hv | hv
        · exact g2 v hv
        · exact g3 v hv
      · intro f hf
        rcases List.mem_cons.mp hf with rfl | hf
        · exact g7
        · obtain ⟨v, hv, hxy⟩ := m3 f hf
          refine ⟨v, ?_, hxy⟩
          rcases hv with hv | hv
          · exact Or.inl (g8 v hv)
          · exact Or.inr (g9 v hv)
      · intro p
        rw [S_cons, m4, g10]

theorem applyBooleanBinaryOp_eq (f : Int → Int → Bool) (umax : Int) (l1 l2 : List V)
    (h1 : SortedXY l1) (h2 : SortedXY l2) (hb : Bounded umax l2) :
    ∃ M : List (Ev (Int × Int)),
      (applyBooleanBinaryOp f umax l1 l2 = (scanE (posBinary f) M ⟨State.init, umax, umax, 0, []⟩).map
        (fun s => s.out.reverse)) ∧ M.Pairwise ELe ∧
      ∀ p, S p M = (S p (l1.map toEv), S p (l2.map toEv)) := by
  by_cases hne : l1 = [] ∧ l2 = []
  · obtain ⟨rfl, rfl⟩ := hne
    exact ⟨[], rfl, List.Pairwise.nil, fun p => rfl⟩
  · have hne' : l1 ≠ [] ∨ l2 ≠ [] := by
      by_cases h : l1 = []
      · exact Or.inr (fun h' => hne ⟨h, h'⟩)
      · exact Or.inl h
    obtain ⟨e, r1, r2, g0, g1, g2, g3, g4, g5, g6, g7, g8, g9, g10⟩ := nextEvent_spec h1 h2 hb hne'
    obtain ⟨M, m1, m2, m3, m4⟩ := binLoop_eq (posBinary f) umax (r1.length + r2.length) r1 r2 (le_refl _) g4 g5 g6
    refine ⟨e :: M, ?_, ?_, ?_⟩
    · rw [applyBooleanBinaryOp, g0, scanE, scanBody_first]
      simp only [m1, Option.bind_some]
      cases scanE (posBinary f) M ⟨State.init, e.1, e.2.1, e.2.2, []⟩ <;> rfl
    · rw [List.pairwise_cons]
      refine ⟨fun f hf => ?_, m2⟩
      obtain ⟨v, hv, hx, hy⟩ := m3 f hf
      unfold ELe
      rw [← hx, ← hy]
      rcases hv with hv | hv
      · exact g2 v hv
      · exact g3 v hv
    · intro p; rw [S_cons, m4, g10]

theorem applyBooleanBinaryOp_safe (f : Int → Int → Bool) (umax : Int) (l1 l2 : List V)
    (h1 : SortedXY l1) (h2 : SortedXY l2) (hb : Bounded umax l2) :
    ∃ out, applyBooleanBinaryOp f umax l1 l2 = some out := by
  obtain ⟨M, e, hs, -⟩ := applyBooleanBinaryOp_eq f umax l1 l2 h1 h2 hb
  obtain ⟨s, e2⟩ := scanE_safe_init (posBinary f) M hs umax umax
  exact ⟨_, by rw [e, e2]; rfl⟩

theorem applyBooleanBinaryOp_spec (f : Int → Int → Bool) (hf : f 0 0 = false) (umax : Int) (l1 l2 : List V)
    (h1 : SortedXY l1) (h2 : SortedXY l2) (hb : Bounded umax l2) (c1 : ColClosed l1) (c2 : ColClosed l2) :
    ∃ out, applyBooleanBinaryOp f umax l1 l2 = some out ∧ Canon out ∧
      ∀ a y, coverZ out a y = ind (f (coverZ l1 a y) (coverZ l2 a y)) := by
  obtain ⟨M, e, hs, hS⟩ := applyBooleanBinaryOp_eq f umax l1 l2 h1 h2 hb
  have hcl : ClosedE M := by
    intro a
    rw [hS, closed_toEv c1 a, closed_toEv c2 a]; rfl
  obtain ⟨s, e2, k1, k2⟩ := scanE_cover (pos := posBinary f) hf M hcl hs umax umax
  refine ⟨s.out.reverse, by rw [e, e2]; rfl, canon_reverse k1, ?_⟩
  intro a y
  rw [coverZ_reverse, k2, hS, coverZ_eq_S, coverZ_eq_S]
  rfl

/-! ### canonical lists are determined by their coverage -/

/-- Total count at a point. -/
def mass (L : List V) (a y : Int) : Int := (L.map (fun v => if v.x = a ∧ v.y = y then v.c else 0)).sum

theorem mass_cons (v : V) (L : List V) (a y : Int) :
    mass (v :: L) a y = (if v.x = a ∧ v.y = y then v.c else 0) + mass L a y := by simp [mass]

theorem mass_eq_cover (L : List V) (a y : Int) :
    mass L a y = coverZ L a y - coverZ L (a - 1) y - coverZ L a (y - 1) + coverZ L (a - 1) (y - 1) := by
  induction L with
  | nil => simp [mass, coverZ]
  | cons v L ih =>
    rw [mass_cons, coverZ_cons, coverZ_cons, coverZ_cons, coverZ_cons, ih]
    split_ifs <;> omega

theorem mass_zero {L : List V} {a y : Int} (h : ∀ v ∈ L, ¬ (v.x = a ∧ v.y = y)) : mass L a y = 0 := by
  induction L with
  | nil => rfl
  | cons v L ih =>
    rw [mass_cons, if_neg (h v (by simp)), ih (fun w hw => h w (by simp [hw]))]; rfl

theorem mass_sign {L : List V} {v : V} (h : ∀ w ∈ L, VLe v w) (h2 : ∀ w ∈ L, w.c = 1 ∨ w.c = -1)
    (hv : v.c = 1 ∨ v.c = -1) : 0 ≤ v.c * mass L v.x v.y := by
  induction L with
  | nil => simp [mass]
  | cons w L ih =>
    have i1 := ih (fun w hw => h w (by simp [hw])) (fun w hw => h2 w (by simp [hw]))
    have h3 := h w (by simp)
    rw [mass_cons]
    split_ifs with hc
    · have := h3.2 hc.1.symm hc.2.symm
      rw [← this]
      rcases hv with hv | hv <;> rw [hv] at i1 ⊢ <;> omega
    · simpa using i1

theorem canon_cons {v : V} {L : List V} (h : Canon (v :: L)) :
    Canon L ∧ (∀ w ∈ L, VLe v w) ∧ (v.c = 1 ∨ v.c = -1) :=
  ⟨⟨(List.pairwise_cons.mp h.1).2, fun w hw => h.2 w (by simp [hw])⟩,
    (List.pairwise_cons.mp h.1).1, h.2 v (by simp)⟩

theorem canon_unique_mass {L M : List V} (hL : Canon L) (hM : Canon M)
    (h : ∀ a y, mass L a y = mass M a y) : L = M := by
  induction L generalizing M with
  | nil =>
    cases M with
    | nil => rfl
    | cons w M =>
      obtain ⟨m1, m2, m3⟩ := canon_cons hM
      have h1 := h w.x w.y
      rw [mass_cons, if_pos ⟨rfl, rfl⟩] at h1
      have h2 := mass_sign m2 m1.2 m3
      simp only [mass, List.map_nil, List.sum_nil] at h1 h2
      rcases m3 with m3 | m3 <;> rw [m3] at h1 h2 <;> omega
  | cons v L ih =>
    obtain ⟨l1, l2, l3⟩ := canon_cons hL
    have s1 := mass_sign l2 l1.2 l3
    cases M with
    | nil =>
      have h1 := h v.x v.y
      rw [mass_cons, if_pos ⟨rfl, rfl⟩] at h1
      simp only [mass, List.map_nil, List.sum_nil] at h1 s1
      rcases l3 with l3 | l3 <;> rw [l3] at h1 s1 <;> omega
    | cons w M =>
      obtain ⟨m1, m2, m3⟩ := canon_cons hM
      have s2 := mass_sign m2 m1.2 m3
      have h1 := h v.x v.y
      have h2 := h w.x w.y
      have hxy : v.x = w.x ∧ v.y = w.y := by
        by_contra hc
        by_cases hlt : v.x < w.x ∨ (v.x = w.x ∧ v.y < w.y)
        · have : mass (w :: M) v.x v.y = 0 := by
            apply mass_zero
            intro u hu
            rcases List.mem_cons.mp hu with rfl | hu
            · omega
            · have := (m2 u hu).1; omega
          rw [this, mass_cons, if_pos ⟨rfl, rfl⟩] at h1
          rcases l3 with l3 | l3 <;> rw [l3] at h1 s1 <;> omega
        · have : mass (v :: L) w.x w.y = 0 := by
            apply mass_zero
            intro u hu
            rcases List.mem_cons.mp hu with rfl | hu
            · omega
            · have := (l2 u hu).1; omega
          rw [this, mass_cons, if_pos ⟨rfl, rfl⟩] at h2
          rcases m3 with m3 | m3 <;> rw [m3] at h2 s2 <;> omega
      rw [mass_cons, mass_cons, if_pos ⟨rfl, rfl⟩, if_pos ⟨hxy.1.symm, hxy.2.symm⟩] at h1
      rw [← hxy.1, ← hxy.2] at s2
      have hc : v.c = w.c := by
        rcases l3 with l3 | l3 <;> rcases m3 with m3 | m3 <;> rw [l3] at h1 s1 ⊢ <;> rw [m3] at h1 s2 ⊢ <;> omega
      have hvw : v = w := by
        cases v; cases w; simp only at hxy hc; simp [hxy.1, hxy.2, hc]
      subst hvw
      congr 1
      apply ih l1 m1
      intro a y
      have := h a y
      rw [mass_cons, mass_cons] at this
      omega

theorem canon_unique {L M : List V} (hL : Canon L) (hM : Canon M)
    (h : ∀ a y, coverZ L a y = coverZ M a y) : L = M :=
  canon_unique_mass hL hM (fun a y => by rw [mass_eq_cover, mass_eq_cover, h, h, h, h])

theorem canon_sorted {L : List V} (h : Canon L) : SortedXY L := h.1.imp (fun h => h.1)

/-- A list whose coverage vanishes for large `y` has closed columns. -/
theorem colClosed_of_cover {L : List V} (h : ∀ a, ∃ y0, ∀ y, y0 ≤ y → coverZ L a y = 0) : ColClosed L := by
  intro a
  obtain ⟨y1, h1⟩ := h a
  obtain ⟨y2, h2⟩ := h (a - 1)
  obtain ⟨y3, h3⟩ : ∃ y3 : Int, ∀ v ∈ L, v.y ≤ y3 := by
    clear h h1 h2
    induction L with
    | nil => exact ⟨0, by simp⟩
    | cons v L ih =>
      obtain ⟨y, hy⟩ := ih
      refine ⟨max y v.y, fun w hw => ?_⟩
      rcases List.mem_cons.mp hw with rfl | hw
      · omega
      · have := hy w hw; omega
  let Y := max y1 (max y2 y3)
  have e1 := h1 Y (by omega)
  have e2 := h2 Y (by omega)
  have key : ∀ M : List V, (∀ v ∈ M, v.y ≤ Y) →
      (M.map (fun v => if v.x = a then v.c else 0)).sum = coverZ M a Y - coverZ M (a - 1) Y := by
    intro M hM
    induction M with
    | nil => rfl
    | cons v M ih =>
      rw [coverZ_cons, coverZ_cons, List.map_cons, List.sum_cons, ih (fun w hw => hM w (by simp [hw]))]
      have := hM v (by simp)
      split_ifs <;> omega
  rw [key L (fun v hv => by have := h3 v hv; omega), e1, e2]; rfl

theorem cover_top_of_colClosed {L : List V} (h : ColClosed L) : ∃ y0, ∀ a y, y0 ≤ y → coverZ L a y = 0 := by
  obtain ⟨y3, h3⟩ : ∃ y3 : Int, ∀ v ∈ L, v.y ≤ y3 := by
    clear h
    induction L with
    | nil => exact ⟨0, by simp⟩
    | cons v L ih =>
      obtain ⟨y, hy⟩ := ih
      refine ⟨max y v.y, fun w hw => ?_⟩
      rcases List.mem_cons.mp hw with rfl | hw
      · omega
      · have := hy w hw; omega
  obtain ⟨x0, hx0⟩ : ∃ x0 : Int, ∀ v ∈ L, x0 < v.x := by
    clear h h3
    induction L with
    | nil => exact ⟨0, by simp⟩
    | cons v L ih =>
      obtain ⟨y, hy⟩ := ih
      refine ⟨min y (v.x - 1), fun w hw => ?_⟩
      rcases List.mem_cons.mp hw with rfl | hw
      · omega
      · have := hy w hw; omega
  refine ⟨y3, fun a y hy => ?_⟩
  have low : ∀ a, a ≤ x0 → coverZ L a y = 0 := by
    intro a ha
    have : ∀ M : List V, (∀ v ∈ M, x0 < v.x) → coverZ M a y = 0 := by
      intro M hM
      induction M with
      | nil => rfl
      | cons v M ih =>
        rw [coverZ_cons, ih (fun w hw => hM w (by simp [hw]))]
        have := hM v (by simp)
        rw [if_neg (by omega)]; rfl
    exact this L hx0
  have stepc : ∀ a, coverZ L a y = coverZ L (a - 1) y := by
    intro a
    have key : ∀ M : List V, (∀ v ∈ M, v.y ≤ y) →
        (M.map (fun v => if v.x = a then v.c else 0)).sum = coverZ M a y - coverZ M (a - 1) y := by
      intro M hM
      induction M with
      | nil => rfl
      | cons v M ih =>
        rw [coverZ_cons, coverZ_cons, List.map_cons, List.sum_cons, ih (fun w hw => hM w (by simp [hw]))]
        have := hM v (by simp)
        split_ifs <;> omega
    have := key L (fun v hv => by have := h3 v hv; omega)
    rw [h a] at this
    omega
  have : ∀ n : Nat, coverZ L (x0 + n) y = 0 := by
    intro n
    induction n with
    | zero => exact low _ (by omega)
    | succ n ih => rw [stepc]; rw [show x0 + ((n + 1 : Nat) : Int) - 1 = x0 + n by push_cast; ring]; exact ih
  by_cases ha : a ≤ x0
  · exact low a ha
  · have := this (a - x0).toNat
    rwa [show x0 + ((a - x0).toNat : Int) = a by omega] at this

theorem colClosed_out {L : List V} {g : Int → Int → Int}
    (h : ∀ a y, coverZ L a y = g a y) (hg : ∃ y0, ∀ a y, y0 ≤ y → g a y = 0) : ColClosed L := by
  obtain ⟨y0, hy⟩ := hg
  exact colClosed_of_cover (fun a => ⟨y0, fun y hy' => by rw [h]; exact hy a y hy'⟩)

end Verif.BooleanOp
