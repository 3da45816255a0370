import Verif.Proofs.FormOpen
import Verif.Proofs.ArbOrder
/-!
# What is covered between the edges around a point
-/
namespace Verif.ArbForm
open Verif.Arb Verif.Contains Verif.Spec Verif.Spec.Arb

/-! ### Sorting -/

theorem insSort_perm {α : Type} (lt : α → α → Bool) (a : α) : ∀ l, (insSort lt a l).Perm (a :: l)
  | [] => List.Perm.refl _
  | b :: r => by
    unfold insSort
    split_ifs
    · exact ((insSort_perm lt a r).cons b).trans (List.Perm.swap a b r)
    · exact List.Perm.refl _

theorem isort_perm {α : Type} (lt : α → α → Bool) : ∀ l, (isort lt l).Perm l
  | [] => List.Perm.refl _
  | a :: r => (insSort_perm lt a _).trans ((isort_perm lt r).cons a)

theorem insSort_sorted {α β : Type} [LinearOrder β] {lt : α → α → Bool} (k : α → β) (a : α) : ∀ l : List α, (∀ b ∈ l, (lt b a = true ↔ k b < k a)) →
    l.Pairwise (fun a b => k a ≤ k b) → (insSort lt a l).Pairwise (fun a b => k a ≤ k b)
  | [], _, _ => by simp [insSort]
  | b :: r, h, hp => by
    obtain ⟨h1, h2⟩ := List.pairwise_cons.1 hp
    unfold insSort
    by_cases c : lt b a = true
    · rw [if_pos c]
      refine List.pairwise_cons.2 ⟨?_, insSort_sorted k a r (fun d hd => h d (List.mem_cons_of_mem _ hd)) h2⟩
      intro d hd
      rcases List.mem_cons.1 ((insSort_perm lt a r).mem_iff.1 hd) with rfl | hd
      · exact ((h b List.mem_cons_self).1 c).le
      · exact h1 d hd
    · rw [if_neg c]
      have : k a ≤ k b := not_lt.1 (fun hc => c ((h b List.mem_cons_self).2 hc))
      refine List.pairwise_cons.2 ⟨?_, hp⟩
      intro d hd
      rcases List.mem_cons.1 hd with rfl | hd
      · exact this
      · exact this.trans (h1 d hd)

theorem isort_sorted {α β : Type} [LinearOrder β] {lt : α → α → Bool} (k : α → β) : ∀ l : List α, (∀ a ∈ l, ∀ b ∈ l, (lt a b = true ↔ k a < k b)) →
    (isort lt l).Pairwise (fun a b => k a ≤ k b)
  | [], _ => List.Pairwise.nil
  | a :: r, h => by
    unfold isort
    refine insSort_sorted k a _ ?_ (isort_sorted k r (fun b hb c hc => h b (List.mem_cons_of_mem _ hb) c (List.mem_cons_of_mem _ hc)))
    intro b hb
    exact h b (List.mem_cons_of_mem _ ((isort_perm lt r).mem_iff.1 hb)) a List.mem_cons_self

/-- The slope; vertical is more than every other one. -/
def sl (dx dy : Int) : WithTop ℚ := if dx = 0 then ⊤ else (((dy : ℚ) / dx : ℚ) : WithTop ℚ)

theorem lessSlopeD_sl (dx1 dy1 dx2 dy2 : Int) : Arb.lessSlopeD dx1 dy1 dx2 dy2 = true ↔ sl dx1 dy1 < sl dx2 dy2 := by
  rw [Arb.lessSlopeD_iff]
  unfold sl
  by_cases h1 : dx1 = 0
  · simp [h1]
  · rw [if_neg h1]
    by_cases h2 : dx2 = 0
    · simp [h1, h2]
    · rw [if_neg h2, WithTop.coe_lt_coe]
      have q1 : (dx1 : ℚ) ≠ 0 := by exact_mod_cast h1
      have q2 : (dx2 : ℚ) ≠ 0 := by exact_mod_cast h2
      rw [← sub_neg (a := (dy1 : ℚ) / dx1), div_sub_div _ _ q1 q2]
      have : ((dx2 * dy1 - dx1 * dy2) * (dx1 * dx2) < 0) ↔ (((dx2 : ℚ) * dy1 - dx1 * dy2) * (dx1 * dx2) < 0) := by
        rw [← Int.cast_lt (R := ℚ)]; push_cast; rfl
      rw [this, mul_neg_iff, div_neg_iff, show (dy1 : ℚ) * dx2 - dx1 * dy2 = dx2 * dy1 - dx1 * dy2 by ring]
      simp [h1, h2]

/-- The slope of an edge. -/
def slope (e : HE) : ℚ := ((e.2.2 : ℚ) - e.1.2) / (e.2.1 - e.1.1)

theorem sl_out {e : HE} (h : NV e) : sl (e.2.1 - e.1.1) (e.2.2 - e.1.2) = (slope e : WithTop ℚ) := by
  unfold sl slope
  have : e.1.1 < e.2.1 := h
  rw [if_neg (by omega)]
  push_cast; rfl

theorem sl_in {e : HE} (h : NV e) : sl (e.1.1 - e.2.1) (e.1.2 - e.2.2) = (slope e : WithTop ℚ) := by
  unfold sl slope
  have : e.1.1 < e.2.1 := h
  rw [if_neg (by omega)]
  push_cast
  rw [← neg_sub (e.2.2 : ℚ), ← neg_sub (e.2.1 : ℚ), neg_div_neg_eq]

theorem lt_start {e f : HE} (h1 : NV e) (h2 : NV f) (h : e.1 = f.1) (hl : Lt e f) : slope e < slope f := by
  obtain ⟨t, t1, _, _, _, hl⟩ := hl
  have k1 : Y e t = e.1.2 + (t - e.1.1) * slope e := by unfold Y lineY slope; ring
  have k2 : Y f t = e.1.2 + (t - e.1.1) * slope f := by unfold Y lineY slope; rw [h]; ring
  rw [k1, k2] at hl
  have : (t - e.1.1) * slope e < (t - e.1.1) * slope f := by linarith
  exact lt_of_mul_lt_mul_left this (by linarith)

theorem lt_end {e f : HE} (h1 : NV e) (h2 : NV f) (h : e.2 = f.2) (hl : Lt e f) : slope f < slope e := by
  obtain ⟨t, _, t2, _, _, hl⟩ := hl
  have key : ∀ g : HE, NV g → Y g t = g.2.2 - (g.2.1 - t) * slope g := by
    intro g hg
    have : (g.2.1 : ℚ) - g.1.1 ≠ 0 := by
      have : (g.1.1 : ℚ) < g.2.1 := by exact_mod_cast hg
      linarith
    unfold Y lineY slope
    field_simp
    ring
  rw [key e h1, key f h2, ← h] at hl
  have : ((e.2.1 : ℚ) - t) * slope f < ((e.2.1 : ℚ) - t) * slope e := by linarith
  exact lt_of_mul_lt_mul_left this (by linarith)

/-! ### Sums over a clean set -/

/-- The edges as events of one layer. -/
def evs (D : List V) : List Ev := D.map (fun e => (e.1, (0, e.2)))

/-- What `clean` leaves: every edge once with count 1 or -1, edges that meet only in common end points, closed curves
and a depth of 0 or 1 everywhere. -/
structure Clean (D : List V) : Prop where
  nd : (D.map Prod.fst).Nodup
  unit : ∀ e ∈ D, e.2 = 1 ∨ e.2 = -1
  good : Good (evs D)
  d01 : ∀ q, depth D q = 0 ∨ depth D q = 1

theorem layer_evs (D : List V) : layer (evs D) 0 = D := by
  unfold layer evs
  rw [List.filter_eq_self.2 (by intro a ha; obtain ⟨e, _, rfl⟩ := List.mem_map.1 ha; rfl), List.map_map]
  exact List.map_id _

theorem has_evs {D : List V} {e : HE} : Has (evs D) e ↔ ∃ w, (e, w) ∈ D := by
  unfold Has evs
  rw [List.map_map, List.mem_map]
  constructor
  · rintro ⟨a, ha, rfl⟩; exact ⟨a.2, ha⟩
  · rintro ⟨w, hw⟩; exact ⟨_, hw, rfl⟩

theorem Has.evs {D : List V} {a : V} (h : a ∈ D) : Has (evs D) a.1 := has_evs.2 ⟨a.2, h⟩

theorem mem_evs {D : List V} {ev : Ev} (h : ev ∈ evs D) : Has (evs D) ev.1 := Arb.Has.of h

open Classical in
theorem S_sum (D : List V) (P : HE → Prop) : S (evs D) 0 P = (D.map (fun e => if P e.1 then e.2 else 0)).sum := by
  unfold S T evs
  rw [List.map_map]
  congr 1
  apply List.map_congr_left
  intro e _
  simp

theorem Clean.key {D : List V} (c : Clean D) {a b : V} (ha : a ∈ D) (hb : b ∈ D) (h : a.1 = b.1) : a = b :=
  List.inj_on_of_nodup_map c.nd ha hb h

theorem Clean.S_key {D : List V} (c : Clean D) {a : V} (ha : a ∈ D) : S (evs D) 0 (· = a.1) = a.2 := by
  have hnd := c.nd
  rw [S_sum]
  clear c
  induction D with
  | nil => simp at ha
  | cons b r ih =>
    rw [List.map_cons, List.nodup_cons] at hnd
    rw [List.map_cons, List.sum_cons]
    rcases List.mem_cons.1 ha with rfl | ha
    · rw [if_pos rfl]
      rw [List.sum_eq_zero, add_zero]
      intro z hz
      obtain ⟨e, he, rfl⟩ := List.mem_map.1 hz
      rw [if_neg]
      intro hc
      exact hnd.1 (List.mem_map.2 ⟨e, he, hc⟩)
    · rw [if_neg (fun hc => hnd.1 (List.mem_map.2 ⟨a, ha, hc.symm⟩)), zero_add]
      exact ih ha hnd.2

theorem mid {x : Int} {a : HE} (ha : RSpan x a) : (a.1.1 : ℚ) < (x : ℚ) + 1 / 2 ∧ (x : ℚ) + 1 / 2 < a.2.1 := by
  have q1 : (a.1.1 : ℚ) ≤ x := by exact_mod_cast ha.1
  have q2 : (x : ℚ) + 1 ≤ a.2.1 := by exact_mod_cast ha.2
  constructor <;> linarith

/-- The sum over what lies below a cut is 0 or 1. -/
theorem Clean.color {D : List V} (c : Clean D) {x : Int} {C : HE → Prop}
    (hC : ∀ e f, Has (evs D) e → Has (evs D) f → RSpan x e → RSpan x f → Lt f e → C e → C f) :
    S (evs D) 0 (fun e => RSpan x e ∧ C e) = 0 ∨ S (evs D) 0 (fun e => RSpan x e ∧ C e) = 1 := by
  classical
  by_cases hne : ((U (evs D)).filter (fun e => RSpan x e ∧ C e)).Nonempty
  · obtain ⟨m, hm, hmax⟩ := Finset.exists_max_image _ (fun e : HE => Y e ((x : ℚ) + 1 / 2)) hne
    rw [Finset.mem_filter, mem_U] at hm
    obtain ⟨hm, sm, cm⟩ := hm
    have := c.d01 ((x : ℚ) + 1 / 2, Y m ((x : ℚ) + 1 / 2))
    have hfl : ⌊(x : ℚ) + 1 / 2⌋ = x := by
      rw [Int.floor_eq_iff]
      constructor <;> norm_num
    have key : S (evs D) 0 (fun e => RSpan x e ∧ C e) = depth D ((x : ℚ) + 1 / 2, Y m ((x : ℚ) + 1 / 2)) := by
      conv_rhs => rw [← layer_evs D, depth_layer]
      dsimp only
      rw [hfl]
      apply S_congr
      intro ev hev
      refine and_congr_right fun se => ?_
      have he := mem_evs hev
      constructor
      · intro ce
        exact hmax ev.1 (by rw [Finset.mem_filter, mem_U]; exact ⟨he, se, ce⟩)
      · intro hle
        by_cases h : ev.1 = m
        · rw [h]; exact cm
        · obtain ⟨a1, a2⟩ := mid se
          obtain ⟨b1, b2⟩ := mid sm
          have hs := c.good.sep he hm h se.nv sm.nv
          have hlt := lt_of_le_of_ne hle (hs _ a1 a2 b1 b2)
          exact hC m ev.1 hm he sm se ⟨_, a1, a2, b1, b2, hlt⟩ cm
    rw [key]
    exact this
  · left
    apply S_zero
    intro ev hev hc
    exact hne ⟨ev.1, by rw [Finset.mem_filter, mem_U]; exact ⟨mem_evs hev, hc⟩⟩

theorem Colors.map {α β : Type} {s : β → Int} (g : α → β) : ∀ {L : List α} {t b : Int}, Colors s t (L.map g) b ↔ Colors (fun a => s (g a)) t L b
  | [], _, _ => Iff.rfl
  | a :: r, t, b => by
    rw [List.map_cons]
    unfold Colors
    rw [Colors.map g]

theorem Colors.congr {α : Type} {s s' : α → Int} : ∀ {L : List α} {t b : Int}, (∀ a ∈ L, s a = s' a) → Colors s t L b → Colors s' t L b
  | [], _, _, _, h => h
  | a :: r, t, b, hs, h => by
    obtain ⟨h1, h2, h3⟩ := h
    rw [hs a List.mem_cons_self] at h2 h3
    exact ⟨h1, h2, Colors.congr (fun a ha => hs a (List.mem_cons_of_mem _ ha)) h3⟩

theorem Colors.append {α : Type} {s : α → Int} : ∀ {L M : List α} {t m b : Int}, Colors s t L m → Colors s m M b → Colors s t (L ++ M) b
  | [], M, t, m, b, h1, h2 => by rw [h1.1]; exact h2
  | a :: r, M, t, m, b, h1, h2 => ⟨h1.1, h1.2.1, Colors.append h1.2.2 h2⟩

theorem Clean.colors_of {D : List V} (c : Clean D) {x : Int} {C : HE → Prop}
    (hC : ∀ e f, Has (evs D) e → Has (evs D) f → RSpan x e → RSpan x f → Lt f e → C e → C f) : ∀ L : List V,
    (∀ a ∈ L, a ∈ D ∧ RSpan x a.1 ∧ ¬ C a.1) → L.Pairwise (fun a b => Lt b.1 a.1) →
    (∀ a ∈ L, ∀ f, Has (evs D) f → RSpan x f → Lt f a.1 → C f ∨ f ∈ L.map Prod.fst) →
    Colors (fun a : V => a.2) (S (evs D) 0 (fun e => RSpan x e ∧ (C e ∨ e ∈ L.map Prod.fst))) L (S (evs D) 0 (fun e => RSpan x e ∧ C e))
  | [], _, _, _ => by
    have : S (evs D) 0 (fun e => RSpan x e ∧ (C e ∨ e ∈ ([] : List V).map Prod.fst)) = S (evs D) 0 (fun e => RSpan x e ∧ C e) := by
      apply S_congr; intro ev _; simp
    rw [this]
    exact ⟨rfl, c.color hC⟩
  | a :: L, h1, h2, h3 => by
    obtain ⟨p1, p2⟩ := List.pairwise_cons.1 h2
    obtain ⟨aD, sa, ca⟩ := h1 a List.mem_cons_self
    have hna : a.1 ∉ L.map Prod.fst := by
      intro hc
      obtain ⟨b, hb, e⟩ := List.mem_map.1 hc
      have := p1 b hb
      rw [e] at this
      exact Arb.lt_irrefl _ this
    have ih := Clean.colors_of c hC L (fun b hb => h1 b (List.mem_cons_of_mem _ hb)) p2 (by
      intro b hb f hf sf hl
      rcases h3 b (List.mem_cons_of_mem _ hb) f hf sf hl with h | h
      · exact Or.inl h
      · rw [List.map_cons, List.mem_cons] at h
        rcases h with rfl | h
        · obtain ⟨bD, sb, _⟩ := h1 b (List.mem_cons_of_mem _ hb)
          have := p1 b hb
          exact absurd this (Arb.lt_asymm (c.good.sep (Has.evs aD) (Has.evs bD) (lt_ne hl) sa.nv sb.nv) hl)
        · exact Or.inr h)
    refine ⟨?_, ?_, ?_⟩
    · refine c.color ?_
      intro e f he hf se sf hl hce
      rcases hce with h | h
      · exact Or.inl (hC e f he hf se sf hl h)
      · obtain ⟨b, hb, rfl⟩ := List.mem_map.1 h
        exact h3 b hb f hf sf hl
    · have := c.unit a aD
      show a.2 ≠ 0
      omega
    · have : S (evs D) 0 (fun e => RSpan x e ∧ (C e ∨ e ∈ (a :: L).map Prod.fst)) - a.2 =
          S (evs D) 0 (fun e => RSpan x e ∧ (C e ∨ e ∈ L.map Prod.fst)) := by
        rw [← c.S_key aD]
        have := S_add (E := evs D) (k := 0) (P := fun e => RSpan x e ∧ (C e ∨ e ∈ (a :: L).map Prod.fst)) (Q := fun e => RSpan x e ∧ (C e ∨ e ∈ L.map Prod.fst))
          (R := (· = a.1)) (by
            intro ev _
            rw [List.map_cons, List.mem_cons]
            constructor
            · rintro ⟨h1, h | h | h⟩
              exacts [Or.inl ⟨h1, Or.inl h⟩, Or.inr h, Or.inl ⟨h1, Or.inr h⟩]
            · rintro (⟨h1, h | h⟩ | h)
              exacts [⟨h1, Or.inl h⟩, ⟨h1, Or.inr (Or.inr h)⟩, ⟨h ▸ sa, Or.inr (Or.inl h)⟩]) (by
            rintro ev _ ⟨⟨_, h⟩, e⟩
            rw [e] at h
            rcases h with h | h
            exacts [ca h, hna h])
        omega
      show Colors _ (_ - a.2) L _
      rw [this]
      exact ih

/-! ### Around a point -/

/-- The sign under which an edge is met from below upwards. -/
def sg (e : V) : Int := if e.1.1.1 = e.1.2.1 then -e.2 else e.2

/-- Is the left side just above a point covered? -/
noncomputable abbrev tt (D : List V) (p : Pt) : Int := S (evs D) 0 (fun e => LSpan p.1 e ∧ Y e p.1 ≤ p.2)
/-- Is the right side just below a point covered? -/
noncomputable abbrev bb (D : List V) (p : Pt) : Int := Rsum (evs D) p 0

theorem sg_nv {e : V} (h : NV e.1) : sg e = e.2 := by
  have : e.1.1.1 < e.1.2.1 := h
  unfold sg; rw [if_neg (by omega)]

theorem end_at {E : List Ev} (hG : Good E) {p : Pt} (hv : Vertex E p) {f : HE} (hf : Has E f) (sf : LSpan p.1 f) : Y f p.1 = p.2 ↔ f.2 = p := by
  constructor
  · intro h
    rcases eq_or_lt_of_le sf.2 with g | g
    · have := Y_right sf.nv
      rw [← g, h] at this
      exact Prod.ext g.symm (by exact_mod_cast this.symm)
    · exact (vertex_nv hG hv hf sf.1 g h).elim
  · intro h; have := Y_right sf.nv; rw [h] at this; exact this

theorem start_at {E : List Ev} (hG : Good E) {p : Pt} (hv : Vertex E p) {f : HE} (hf : Has E f) (sf : RSpan p.1 f) : Y f p.1 = p.2 ↔ f.1 = p := by
  constructor
  · intro h
    rcases eq_or_lt_of_le sf.1 with g | g
    · have := Y_left sf.nv
      rw [g, h] at this
      exact Prod.ext g (by exact_mod_cast this.symm)
    · exact (vertex_nv hG hv hf g sf.2 h).elim
  · intro h; have := Y_left sf.nv; rw [h] at this; exact this

theorem Clean.left_colors {D : List V} (c : Clean D) {p : Pt} (hv : Vertex (evs D) p) {L : List V} (hs : L.Pairwise (fun a b => Lt b.1 a.1))
    (hL : ∀ a, a ∈ L ↔ a ∈ D ∧ LSpan p.1 a.1 ∧ a.1.2 = p) : Colors (fun a : V => a.2) (tt D p) L (Lsum (evs D) p 0) := by
  have hC : ∀ e f, Has (evs D) e → Has (evs D) f → RSpan (p.1 - 1) e → RSpan (p.1 - 1) f → Lt f e → Y e p.1 < p.2 → Y f p.1 < p.2 := by
    intro e f he hf se sf hl h
    rw [span_iff] at se sf
    exact lt_of_le_of_lt (lt_le_l c.good he hf se sf hl) h
  have := c.colors_of (x := p.1 - 1) (C := fun e => Y e p.1 < p.2) hC L (by
    intro a ha
    obtain ⟨h1, h2, h3⟩ := (hL a).1 ha
    refine ⟨h1, (span_iff _ _).2 h2, ?_⟩
    rw [(end_at c.good hv (Has.evs h1) h2).2 h3]
    exact _root_.lt_irrefl _) hs (by
    intro a ha f hf sf hl
    obtain ⟨h1, h2, h3⟩ := (hL a).1 ha
    rw [span_iff] at sf
    have hle := lt_le_l c.good (Has.evs h1) hf h2 sf hl
    rw [(end_at c.good hv (Has.evs h1) h2).2 h3] at hle
    rcases lt_or_eq_of_le hle with g | g
    · exact Or.inl g
    · right
      obtain ⟨w, hw⟩ := has_evs.1 hf
      exact List.mem_map.2 ⟨(f, w), (hL _).2 ⟨hw, sf, (end_at c.good hv hf sf).1 g⟩, rfl⟩)
  have e1 : S (evs D) 0 (fun e => RSpan (p.1 - 1) e ∧ (Y e p.1 < p.2 ∨ e ∈ L.map Prod.fst)) = tt D p := by
    apply S_congr
    intro ev hev
    rw [span_iff]
    refine and_congr_right fun se => ?_
    have he := mem_evs hev
    constructor
    · rintro (h | h)
      · exact h.le
      · obtain ⟨b, hb, e⟩ := List.mem_map.1 h
        obtain ⟨h1, h2, h3⟩ := (hL b).1 hb
        rw [e] at h3
        exact ((end_at c.good hv he se).2 h3).le
    · intro h
      rcases lt_or_eq_of_le h with g | g
      · exact Or.inl g
      · right
        obtain ⟨w, hw⟩ := has_evs.1 he
        exact List.mem_map.2 ⟨(ev.1, w), (hL _).2 ⟨hw, se, (end_at c.good hv he se).1 g⟩, rfl⟩
  have e2 : S (evs D) 0 (fun e => RSpan (p.1 - 1) e ∧ Y e p.1 < p.2) = Lsum (evs D) p 0 := by
    apply S_congr
    intro ev hev
    rw [span_iff]
  rw [← e1, ← e2]
  exact this

theorem Clean.right_colors {D : List V} (c : Clean D) {p : Pt} (hv : Vertex (evs D) p) {L : List V} (hs : L.Pairwise (fun a b => Lt b.1 a.1))
    (hL : ∀ a, a ∈ L ↔ a ∈ D ∧ NV a.1 ∧ a.1.1 = p) :
    Colors (fun a : V => a.2) (S (evs D) 0 (fun e => RSpan p.1 e ∧ Y e p.1 ≤ p.2)) L (bb D p) := by
  have hsp : ∀ a : V, NV a.1 → a.1.1 = p → RSpan p.1 a.1 := by
    intro a h1 h2
    have : a.1.1.1 < a.1.2.1 := h1
    rw [h2] at this
    exact ⟨by rw [h2], this⟩
  have hC : ∀ e f, Has (evs D) e → Has (evs D) f → RSpan p.1 e → RSpan p.1 f → Lt f e → Y e p.1 < p.2 → Y f p.1 < p.2 := by
    intro e f he hf se sf hl h
    exact lt_of_le_of_lt (lt_le_r c.good he hf se sf hl) h
  have := c.colors_of (x := p.1) (C := fun e => Y e p.1 < p.2) hC L (by
    intro a ha
    obtain ⟨h1, h2, h3⟩ := (hL a).1 ha
    refine ⟨h1, hsp a h2 h3, ?_⟩
    rw [(start_at c.good hv (Has.evs h1) (hsp a h2 h3)).2 h3]
    exact _root_.lt_irrefl _) hs (by
    intro a ha f hf sf hl
    obtain ⟨h1, h2, h3⟩ := (hL a).1 ha
    have hle := lt_le_r c.good (Has.evs h1) hf (hsp a h2 h3) sf hl
    rw [(start_at c.good hv (Has.evs h1) (hsp a h2 h3)).2 h3] at hle
    rcases lt_or_eq_of_le hle with g | g
    · exact Or.inl g
    · right
      obtain ⟨w, hw⟩ := has_evs.1 hf
      exact List.mem_map.2 ⟨(f, w), (hL _).2 ⟨hw, sf.nv, (start_at c.good hv hf sf).1 g⟩, rfl⟩)
  have e1 : S (evs D) 0 (fun e => RSpan p.1 e ∧ (Y e p.1 < p.2 ∨ e ∈ L.map Prod.fst)) = S (evs D) 0 (fun e => RSpan p.1 e ∧ Y e p.1 ≤ p.2) := by
    apply S_congr
    intro ev hev
    refine and_congr_right fun se => ?_
    have he := mem_evs hev
    constructor
    · rintro (h | h)
      · exact h.le
      · obtain ⟨b, hb, e⟩ := List.mem_map.1 h
        obtain ⟨h1, h2, h3⟩ := (hL b).1 hb
        rw [e] at h3
        exact ((start_at c.good hv he se).2 h3).le
    · intro h
      rcases lt_or_eq_of_le h with g | g
      · exact Or.inl g
      · right
        obtain ⟨w, hw⟩ := has_evs.1 he
        exact List.mem_map.2 ⟨(ev.1, w), (hL _).2 ⟨hw, se.nv, (start_at c.good hv he se).1 g⟩, rfl⟩
  rw [← e1]
  exact this

/-- The edges that end at a point, from the top to the bottom. -/
theorem Clean.from_colors {D : List V} (c : Clean D) {p : Pt} (hv : Vertex (evs D) p) {L : List V} (hs : L.Pairwise (fun a b => Lt b.1 a.1))
    (hL : ∀ a, a ∈ L ↔ a ∈ D ∧ LSpan p.1 a.1 ∧ a.1.2 = p) {W : Option V} (hW : ∀ a, W = some a ↔ a ∈ D ∧ a.1.1.1 = a.1.2.1 ∧ a.1.2 = p) :
    Colors sg (tt D p) (L ++ W.toList) (bb D p) := by
  have h1 : Colors sg (tt D p) L (Lsum (evs D) p 0) := (c.left_colors hv hs hL).congr (fun a ha => (sg_nv ((hL a).1 ha).2.1.nv).symm)
  refine h1.append ?_
  have hb := h1.bounds.2
  have hw := lwr c.good p 0
  have hbb : bb D p = 0 ∨ bb D p = 1 := c.color (C := fun e => Y e p.1 < p.2) (by
    intro e f he hf se sf hl h
    exact lt_of_le_of_lt (lt_le_r c.good he hf se sf hl) h)
  cases W with
  | none =>
    have : Wsum (evs D) p 0 = 0 := by
      apply S_zero
      rintro ev hev ⟨⟨h1, h2⟩, h3, h4⟩
      obtain ⟨w, hw⟩ := has_evs.1 (mem_evs hev)
      rcases eq_or_lt_of_le h4 with g | g
      · have := (hW (ev.1, w)).2 ⟨hw, by rw [h1, h2], Prod.ext h2 g.symm⟩
        simp at this
      · exact vertex_vert c.good hv (mem_evs hev) h1 h2 h3 g
    have e : Lsum (evs D) p 0 = bb D p := by linarith
    exact ⟨e, hb⟩
  | some a =>
    obtain ⟨k1, k2, k3⟩ := (hW a).1 rfl
    have := wsum_top c.good (Has.evs k1) k2 0
    rw [c.S_key k1, k3] at this
    have hu := c.unit a k1
    have hsg : sg a = -a.2 := by unfold sg; rw [if_pos k2]
    refine ⟨hb, by rw [hsg]; omega, ?_⟩
    rw [hsg]
    have e : Lsum (evs D) p 0 - -a.2 = bb D p := by linarith
    rw [e]
    exact ⟨rfl, hbb⟩

/-- The edges that start at a point, from the top to the bottom. -/
theorem Clean.inc_colors {D : List V} (c : Clean D) {p : Pt} (hv : Vertex (evs D) p) {L : List V} (hs : L.Pairwise (fun a b => Lt b.1 a.1))
    (hL : ∀ a, a ∈ L ↔ a ∈ D ∧ NV a.1 ∧ a.1.1 = p) {W : Option V} (hW : ∀ a, W = some a ↔ a ∈ D ∧ a.1.1.1 = a.1.2.1 ∧ a.1.1 = p) :
    Colors sg (tt D p) (W.toList ++ L) (bb D p) := by
  have h1 : Colors sg _ L (bb D p) := (c.right_colors hv hs hL).congr (fun a ha => (sg_nv ((hL a).1 ha).2.1).symm)
  refine Colors.append ?_ h1
  have hb := h1.bounds.1
  have hw := column c.good 0 p.1 (fun t => t ≤ (p.2 : ℚ)) (fun a b hab hb => le_trans hab.le hb)
  have htt : tt D p = 0 ∨ tt D p = 1 := by
    have := c.color (x := p.1 - 1) (C := fun e => Y e p.1 ≤ p.2) (by
      intro e f he hf se sf hl h
      rw [span_iff] at se sf
      exact le_trans (lt_le_l c.good he hf se sf hl) h)
    have e : S (evs D) 0 (fun e => RSpan (p.1 - 1) e ∧ Y e p.1 ≤ p.2) = tt D p := by
      apply S_congr
      intro ev hev
      rw [span_iff]
    rw [e] at this
    exact this
  have hev : ∀ e : HE, Has (evs D) e → (e.1.1 = p.1 ∧ e.2.1 = p.1) → (e.1.2 : ℚ) ≤ p.2 → ¬ (e.2.2 : ℚ) ≤ p.2 → e.1 = p := by
    intro e he h1 h2 h3
    have h2' : e.1.2 ≤ p.2 := by exact_mod_cast h2
    have h3' : p.2 < e.2.2 := by exact_mod_cast not_le.1 h3
    rcases eq_or_lt_of_le h2' with g | g
    · exact Prod.ext h1.1 g
    · exact (vertex_vert c.good hv he h1.1 h1.2 g h3').elim
  cases W with
  | none =>
    have : S (evs D) 0 (fun e => (e.1.1 = p.1 ∧ e.2.1 = p.1) ∧ (e.1.2 : ℚ) ≤ p.2 ∧ ¬ (e.2.2 : ℚ) ≤ p.2) = 0 := by
      apply S_zero
      rintro ev hm ⟨h1, h3, h4⟩
      obtain ⟨w, hw⟩ := has_evs.1 (mem_evs hm)
      have := (hW (ev.1, w)).2 ⟨hw, by rw [h1.1, h1.2], hev _ (mem_evs hm) h1 h3 h4⟩
      simp at this
    refine ⟨?_, htt⟩
    rw [this] at hw
    linarith
  | some a =>
    obtain ⟨k1, k2, k3⟩ := (hW a).1 rfl
    have k4 : a.1.1.2 < a.1.2.2 := by rcases c.good.dirE (Has.evs k1) with h | h <;> omega
    have : S (evs D) 0 (fun e => (e.1.1 = p.1 ∧ e.2.1 = p.1) ∧ (e.1.2 : ℚ) ≤ p.2 ∧ ¬ (e.2.2 : ℚ) ≤ p.2) = a.2 := by
      rw [← c.S_key k1]
      apply S_congr
      intro ev hm
      constructor
      · rintro ⟨h1, h3, h4⟩
        exact vert_start c.good (mem_evs hm) (Has.evs k1) (x := p.1) (y := p.2) (hev _ (mem_evs hm) h1 h3 h4) h1.2 k3 (by rw [← k2, k3])
      · intro h
        rw [h]
        refine ⟨⟨by rw [k3], by rw [← k2, k3]⟩, by rw [k3], ?_⟩
        rw [k3] at k4
        exact not_le.2 (by exact_mod_cast k4)
    have hu := c.unit a k1
    have hsg : sg a = -a.2 := by unfold sg; rw [if_pos k2]
    refine ⟨htt, by rw [hsg]; omega, ?_⟩
    rw [hsg]
    rw [this] at hw
    have e : tt D p - -a.2 = S (evs D) 0 (fun e => RSpan p.1 e ∧ Y e p.1 ≤ p.2) := by linarith
    rw [e]
    exact ⟨rfl, hb⟩

end Verif.ArbForm
