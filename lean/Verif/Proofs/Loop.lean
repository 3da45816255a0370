import Verif.Proofs.FormRing
import Mathlib.Tactic.FieldSimp
import Mathlib.Tactic.Linarith
import Mathlib.Tactic.Ring
/-!
# Closed curves that do not meet

Winding numbers change only across the curve; of two curves that do not meet at most one encloses the other.
-/
namespace Verif.Loop
open Verif.Spec Verif.Spec.Arb

/-- The point at parameter `t` of the way from `q` to `q'`. -/
def at' (q q' : ℚ × ℚ) (t : ℚ) : ℚ × ℚ := (q.1 + t * (q'.1 - q.1), q.2 + t * (q'.2 - q.2))

/-- The rational point lies on the closed segment. -/
def OnSeg (e : (ℚ × ℚ) × (ℚ × ℚ)) (q : ℚ × ℚ) : Prop := ∃ t : ℚ, 0 ≤ t ∧ t ≤ 1 ∧ q = at' e.1 e.2 t

/-- A curve with a number for every point. -/
structure Loop where
  pts : List (ℚ × ℚ)
  w : ℚ × ℚ → Int

def Loop.On (L : Loop) (q : ℚ × ℚ) : Prop := ∃ e ∈ L.pts.zip L.pts.tail, OnSeg e q

/-- The way from `q` to `q'` does not meet the curve. -/
def Loop.Avoids (L : Loop) (q q' : ℚ × ℚ) : Prop := ∀ t : ℚ, 0 ≤ t → t ≤ 1 → ¬ L.On (at' q q' t)

/-- The number changes only on the curve, the curve has an end on the right, and beyond it the number is zero. -/
structure Loop.Ok (L : Loop) : Prop where
  two : 2 ≤ L.pts.length
  const : ∀ q q', L.Avoids q q' → L.w q = L.w q'
  far : ∃ X, ∀ q : ℚ × ℚ, X < q.1 → L.w q = 0

def Disj (L M : Loop) : Prop := ∀ q, L.On q → ¬ M.On q

theorem Disj.symm {L M : Loop} (h : Disj L M) : Disj M L := fun q a b => h q b a

theorem at_zero (q q' : ℚ × ℚ) : at' q q' 0 = q := by simp [at']
theorem at_one (q q' : ℚ × ℚ) : at' q q' 1 = q' := by simp [at']

theorem at_at (q q' : ℚ × ℚ) (a b t : ℚ) : at' (at' q q' a) (at' q q' b) t = at' q q' (a + t * (b - a)) := by
  unfold at'; ext <;> simp only <;> ring

/-- A number that changes only on `L` is the same on the whole of a curve that does not meet `L`. -/
theorem same {L M : Loop} (hL : L.Ok) (hd : Disj L M) : ∀ {q q'}, M.On q → M.On q' → L.w q = L.w q' := by
  have seg : ∀ e ∈ M.pts.zip M.pts.tail, ∀ s t : ℚ, 0 ≤ s → s ≤ 1 → 0 ≤ t → t ≤ 1 → L.w (at' e.1 e.2 s) = L.w (at' e.1 e.2 t) := by
    intro e he s t hs hs' ht ht'
    apply hL.const
    intro r hr hr' hon
    rw [at_at] at hon
    exact hd _ hon ⟨e, he, s + r * (t - s), by nlinarith, by nlinarith, rfl⟩
  have key : ∀ (P : List (ℚ × ℚ)), (∀ e ∈ P.zip P.tail, ∀ s t : ℚ, 0 ≤ s → s ≤ 1 → 0 ≤ t → t ≤ 1 → L.w (at' e.1 e.2 s) = L.w (at' e.1 e.2 t)) →
      ∀ u ∈ P.head?, ∀ e ∈ P.zip P.tail, ∀ s : ℚ, 0 ≤ s → s ≤ 1 → L.w (at' e.1 e.2 s) = L.w u := by
    intro P
    induction P with
    | nil => intro _ u hu; simp at hu
    | cons a r ih =>
      intro h u hu e he s hs hs'
      obtain rfl : a = u := by simpa using hu
      cases r with
      | nil => simp at he
      | cons b r =>
        rw [List.tail_cons, List.zip_cons_cons, List.mem_cons] at he
        have h0 := h (a, b) (by simp) 0 1 (le_refl _) (by norm_num) (by norm_num) (le_refl _)
        simp only [at_zero, at_one] at h0
        rcases he with rfl | he
        · have := h (a, b) (by simp) s 0 hs hs' (le_refl _) (by norm_num)
          rw [this, at_zero]
        · rw [h0]
          exact ih (fun e he => h e (by rw [List.tail_cons, List.zip_cons_cons]; exact List.mem_cons_of_mem _ he)) b (by simp) e he s hs hs'
  rintro q q' ⟨e, he, s, s1, s2, rfl⟩ ⟨f, hf, t, t1, t2, rfl⟩
  cases hp : M.pts with
  | nil => rw [hp] at he; simp at he
  | cons u r =>
    have hu : u ∈ M.pts.head? := by rw [hp]; simp
    rw [key _ seg u hu e he s s1 s2, key _ seg u hu f hf t t1 t2]

/-- The first point of a list of segments to the right of a point. -/
theorem first_hit (a : ℚ × ℚ) : ∀ (S : List ((ℚ × ℚ) × (ℚ × ℚ))), (∀ x, a.1 ≤ x → ∀ e ∈ S, ¬ OnSeg e (x, a.2)) ∨
    ∃ x, a.1 ≤ x ∧ (∃ e ∈ S, OnSeg e (x, a.2)) ∧ ∀ z, a.1 ≤ z → z < x → ∀ e ∈ S, ¬ OnSeg e (z, a.2)
  | [] => Or.inl (by simp)
  | e :: S => by
    have one : (∀ x, a.1 ≤ x → ¬ OnSeg e (x, a.2)) ∨ ∃ x, a.1 ≤ x ∧ OnSeg e (x, a.2) ∧ ∀ z, a.1 ≤ z → z < x → ¬ OnSeg e (z, a.2) := by
      by_cases hh : ∃ x, a.1 ≤ x ∧ OnSeg e (x, a.2)
      · right
        obtain ⟨x, hx, t, t1, t2, ht⟩ := hh
        obtain ⟨ht1, ht2⟩ := Prod.ext_iff.1 ht
        simp only [at'] at ht1 ht2
        by_cases hy : e.1.2 = e.2.2
        · have hay : a.2 = e.1.2 := by rw [ht2, hy]; ring
          by_cases ha : OnSeg e a
          · exact ⟨a.1, le_refl _, ha, fun z z1 z2 => absurd z2 (not_lt.2 z1)⟩
          · -- the left end of the segment
            rcases le_total e.1.1 e.2.1 with hl | hl
            · have hge : a.1 ≤ e.1.1 := by
                by_contra hcon
                push Not at hcon
                apply ha
                have hpos : 0 < e.2.1 - e.1.1 := by nlinarith
                refine ⟨(a.1 - e.1.1) / (e.2.1 - e.1.1), by apply div_nonneg <;> linarith, by rw [div_le_one hpos]; nlinarith, ?_⟩
                unfold at'
                ext
                · simp only; field_simp; ring
                · simp only; rw [hay, hy]; ring
              refine ⟨e.1.1, hge, ⟨0, le_refl _, by norm_num, by rw [at_zero]; exact Prod.ext rfl hay⟩, ?_⟩
              rintro z z1 z2 ⟨s, s1, s2, hs⟩
              have := (Prod.ext_iff.1 hs).1
              simp only [at'] at this
              nlinarith
            · have hge : a.1 ≤ e.2.1 := by
                by_contra hcon
                push Not at hcon
                apply ha
                have hpos : 0 < e.1.1 - e.2.1 := by nlinarith
                refine ⟨(e.1.1 - a.1) / (e.1.1 - e.2.1), ?_, by rw [div_le_one hpos]; nlinarith, ?_⟩
                · apply div_nonneg _ hpos.le; nlinarith
                unfold at'
                ext
                · simp only; field_simp; ring
                · simp only; rw [hay, hy]; ring
              refine ⟨e.2.1, hge, ⟨1, by norm_num, le_refl _, by rw [at_one]; exact Prod.ext rfl (by rw [hay, hy])⟩, ?_⟩
              rintro z z1 z2 ⟨s, s1, s2, hs⟩
              have := (Prod.ext_iff.1 hs).1
              simp only [at'] at this
              nlinarith
        · refine ⟨x, hx, ⟨t, t1, t2, ht⟩, ?_⟩
          rintro z z1 z2 ⟨s, s1, s2, hs⟩
          obtain ⟨hs1, hs2⟩ := Prod.ext_iff.1 hs
          simp only [at'] at hs1 hs2
          have : s = t := by
            have hz : (s - t) * (e.2.2 - e.1.2) = 0 := by linarith
            rcases mul_eq_zero.1 hz with g | g
            · linarith
            · exact absurd (by linarith) hy
          rw [this] at hs1
          linarith
      · left; intro x hx ho; exact hh ⟨x, hx, ho⟩
    have rest := first_hit a S
    rcases one with h1 | ⟨x, x1, x2, x3⟩
    · rcases rest with h2 | ⟨y, y1, y2, y3⟩
      · left; intro z z1 f hf
        rcases List.mem_cons.1 hf with rfl | hf
        · exact h1 z z1
        · exact h2 z z1 f hf
      · right
        obtain ⟨f, hf, hf'⟩ := y2
        refine ⟨y, y1, ⟨f, List.mem_cons_of_mem _ hf, hf'⟩, fun z z1 z2 g hg => ?_⟩
        rcases List.mem_cons.1 hg with rfl | hg
        · exact h1 z z1
        · exact y3 z z1 z2 g hg
    · right
      rcases rest with h2 | ⟨y, y1, y2, y3⟩
      · refine ⟨x, x1, ⟨e, by simp, x2⟩, fun z z1 z2 g hg => ?_⟩
        rcases List.mem_cons.1 hg with rfl | hg
        · exact x3 z z1 z2
        · exact h2 z z1 g hg
      · rcases le_total x y with hxy | hxy
        · refine ⟨x, x1, ⟨e, by simp, x2⟩, fun z z1 z2 g hg => ?_⟩
          rcases List.mem_cons.1 hg with rfl | hg
          · exact x3 z z1 z2
          · exact y3 z z1 (by linarith) g hg
        · obtain ⟨f, hf, hf'⟩ := y2
          refine ⟨y, y1, ⟨f, List.mem_cons_of_mem _ hf, hf'⟩, fun z z1 z2 g hg => ?_⟩
          rcases List.mem_cons.1 hg with rfl | hg
          · exact x3 z z1 (by linarith)
          · exact y3 z z1 z2 g hg

theorem at_right (q : ℚ × ℚ) (x t : ℚ) : at' q (x, q.2) t = (q.1 + t * (x - q.1), q.2) := by unfold at'; simp

/-- From a point with a number other than zero a way to the right leads to the curve. -/
theorem hit {M : Loop} (hM : M.Ok) {a : ℚ × ℚ} (ha : M.w a ≠ 0) :
    ∃ x, a.1 ≤ x ∧ M.On (x, a.2) ∧ ∀ z, a.1 ≤ z → z < x → ¬ M.On (z, a.2) := by
  rcases first_hit a (M.pts.zip M.pts.tail) with h | ⟨x, x1, x2, x3⟩
  · exfalso
    obtain ⟨X, hX⟩ := hM.far
    apply ha
    rw [hM.const a (max X a.1 + 1, a.2) (fun t t1 t2 => ?_), hX _ (lt_of_le_of_lt (le_max_left _ _) (lt_add_one _))]
    rw [at_right]
    rintro ⟨e, he, ho⟩
    exact h _ (by have := le_max_right X a.1; nlinarith) e he ho
  · exact ⟨x, x1, x2, fun z z1 z2 => by rintro ⟨e, he, ho⟩; exact x3 z z1 z2 e he ho⟩

/-- If `M` encloses the point but nothing of `L`, the number of `L` at the point is that on `M`. -/
theorem transfer {L M : Loop} (hL : L.Ok) (hM : M.Ok) (hd : Disj L M) {a : ℚ × ℚ} (ha : M.w a ≠ 0) (h0 : ∀ q, L.On q → M.w q = 0) :
    ∃ q, M.On q ∧ L.w a = L.w q := by
  obtain ⟨x, x1, x2, x3⟩ := hit hM ha
  refine ⟨(x, a.2), x2, hL.const _ _ (fun t t1 t2 hon => ?_)⟩
  rw [at_right] at hon
  rcases lt_or_eq_of_le (show a.1 + t * (x - a.1) ≤ x by nlinarith) with hlt | heq
  · apply ha
    rw [hM.const a (a.1 + t * (x - a.1), a.2) (fun s s1 s2 => ?_), h0 _ hon]
    rw [at_right]
    have := mul_nonneg t1 (show 0 ≤ x - a.1 by linarith)
    exact x3 _ (by nlinarith) (by nlinarith)
  · rw [heq] at hon
    exact hd _ hon x2

/-- The rightmost point of a curve. -/
theorem rightmost {L : Loop} (h : L.Ok) : ∃ m, L.On m ∧ ∀ q, L.On q → q.1 ≤ m.1 := by
  have hne : L.pts.toFinset.Nonempty := by
    have := h.two
    cases hp : L.pts with
    | nil => rw [hp] at this; simp at this
    | cons a r => exact ⟨a, by simp⟩
  obtain ⟨m, hm, hmax⟩ := Finset.exists_max_image L.pts.toFinset Prod.fst hne
  refine ⟨m, ?_, ?_⟩
  · have key : ∀ P : List (ℚ × ℚ), 2 ≤ P.length → m ∈ P → ∃ e ∈ P.zip P.tail, OnSeg e m := by
      intro P
      induction P with
      | nil => intro _ hm; simp at hm
      | cons a r ih =>
        intro h2 hm
        cases r with
        | nil => simp at h2
        | cons b r =>
          rcases List.mem_cons.1 hm with rfl | hm
          · exact ⟨(m, b), by simp, 0, le_refl _, by norm_num, (at_zero _ _).symm⟩
          · cases r with
            | nil =>
              obtain rfl : m = b := by simpa using hm
              exact ⟨(a, m), by simp, 1, by norm_num, le_refl _, (at_one _ _).symm⟩
            | cons c r =>
              obtain ⟨e, he, ho⟩ := ih (by simp) hm
              exact ⟨e, by rw [List.tail_cons, List.zip_cons_cons]; exact List.mem_cons_of_mem _ he, ho⟩
    exact key _ h.two (List.mem_toFinset.1 hm)
  · rintro q ⟨e, he, t, t1, t2, rfl⟩
    have h1 := hmax e.1 (List.mem_toFinset.2 (List.of_mem_zip he).1)
    have h2 := hmax e.2 (List.mem_toFinset.2 (List.mem_of_mem_tail (List.of_mem_zip he).2))
    simp only [at']
    nlinarith

/-- Of two curves that do not meet at most one encloses the other. -/
theorem outside {L M : Loop} (hL : L.Ok) (hM : M.Ok) (hd : Disj L M) : (∀ q, L.On q → M.w q = 0) ∨ ∀ q, M.On q → L.w q = 0 := by
  have half : ∀ {L M : Loop}, L.Ok → M.Ok → Disj L M → ∀ {m n : ℚ × ℚ}, L.On m → (∀ q, M.On q → q.1 ≤ n.1) → n.1 ≤ m.1 → ∀ q, L.On q → M.w q = 0 := by
    intro L M hL hM hd m n hm hn hnm q hq
    rw [same hM hd.symm hq hm]
    obtain ⟨X, hX⟩ := hM.far
    rw [hM.const m (max X m.1 + 1, m.2) (fun t t1 t2 hon => ?_), hX _ (lt_of_le_of_lt (le_max_left _ _) (lt_add_one _))]
    rw [at_right] at hon
    have h1 := hn _ hon
    simp only at h1
    have h2 := le_max_right X m.1
    have h3 : t * (max X m.1 + 1 - m.1) = 0 := le_antisymm (by linarith) (mul_nonneg t1 (by linarith))
    rw [h3, add_zero] at hon
    exact hd _ hm hon
  obtain ⟨m, m1, m2⟩ := rightmost hL
  obtain ⟨n, n1, n2⟩ := rightmost hM
  rcases le_total n.1 m.1 with h | h
  · exact Or.inl (half hL hM hd m1 n2 h)
  · exact Or.inr (half hM hL hd.symm n1 m2 h)

/-- A point lies inside an outline and in none of its holes, and likewise for a second outline with holes that does not meet the first: then one
outline lies entirely inside the other one and in none of the holes of that. -/
theorem inside {O O' : Loop} {H H' : List Loop} (hO : O.Ok) (hO' : O'.Ok) (hH : ∀ h ∈ H, h.Ok) (hH' : ∀ h ∈ H', h.Ok)
    (hd : ∀ L ∈ O :: H, ∀ M ∈ O' :: H', Disj L M) {a : ℚ × ℚ} (a1 : O.w a ≠ 0) (a2 : ∀ h ∈ H, h.w a = 0) (b1 : O'.w a ≠ 0) (b2 : ∀ h ∈ H', h.w a = 0) :
    (∀ q, O'.On q → O.w q ≠ 0 ∧ ∀ h ∈ H, h.w q = 0) ∨ ∀ q, O.On q → O'.w q ≠ 0 ∧ ∀ h ∈ H', h.w q = 0 := by
  have half : ∀ {O O' : Loop} {H' : List Loop}, O.Ok → O'.Ok → (∀ h ∈ H', h.Ok) → (∀ M ∈ O' :: H', Disj O M) → O.w a ≠ 0 → O'.w a ≠ 0 → (∀ h ∈ H', h.w a = 0) →
      (∀ q, O'.On q → O.w q = 0) → ∀ q, O.On q → O'.w q ≠ 0 ∧ ∀ h ∈ H', h.w q = 0 := by
    intro O O' H' hO hO' hH' hd a1 b1 b2 h0 q hq
    constructor
    · obtain ⟨p, p1, p2⟩ := transfer hO' hO (hd O' (by simp)).symm a1 h0
      rw [same hO' (hd O' (by simp)).symm hq p1, ← p2]
      exact b1
    · intro h hh
      have hdh := hd h (List.mem_cons_of_mem _ hh)
      by_contra hne
      rcases outside hO (hH' h hh) hdh with g | g
      · exact hne (g q hq)
      · obtain ⟨p, p1, p2⟩ := transfer (hH' h hh) hO hdh.symm a1 g
        apply hne
        rw [same (hH' h hh) hdh.symm hq p1, ← p2, b2 h hh]
  have hdO := hd O (by simp) O' (by simp)
  rcases outside hO hO' hdO with h | h
  · exact Or.inl (half hO' hO hH (fun M hM => (hd M hM O' (by simp)).symm) b1 a1 a2 h)
  · exact Or.inr (half hO hO' hH' (fun M hM => hd O (by simp) M hM) a1 b1 b2 h)

end Verif.Loop
