import Verif.Model.Cut
import Verif.Proofs.PolySet
/-! Cutting an edge at points of its bounding box conserves what it carries. -/
namespace Verif.Cut
open Verif Verif.Arb Verif.Contains Verif.PolySet Verif.Spec Verif.Spec.Arb

/-- The points at which an edge is cut. -/
structure OK (e : HE) (L : List Pt) : Prop where
  srt : L.Pairwise plt
  fst : e.1 ∈ L
  snd : e.2 ∈ L
  box : ∀ p ∈ L, inBox e p = true

theorem inBox_iff (e : HE) (p : Pt) : inBox e p = true ↔ min e.1.1 e.2.1 ≤ p.1 ∧ p.1 ≤ max e.1.1 e.2.1 ∧
    min e.1.2 e.2.2 ≤ p.2 ∧ p.2 ≤ max e.1.2 e.2.2 := by
  simp [inBox, and_assoc]

def dlt (a b : Pt) : Prop := a.1 < b.1 ∨ (a.1 = b.1 ∧ b.2 < a.2)

theorem lessDown_iff (a b : Pt) : lessDown a b = true ↔ dlt a b := by
  unfold lessDown dlt
  by_cases h1 : a.1 < b.1
  · simp [h1]
  · by_cases h2 : a.1 = b.1
    · simp [h2]
    · simp [h1, h2]

/-! ### Sorting down -/

theorem insertDown_mem (a p : Pt) (L : List Pt) : p ∈ insertDown a L ↔ p = a ∨ p ∈ L := by
  induction L with
  | nil => simp [insertDown]
  | cons b r ih =>
    rw [insertDown]
    by_cases c : lessDown b a = true
    · rw [if_pos c, List.mem_cons, ih, List.mem_cons]; tauto
    · rw [if_neg c, List.mem_cons]

theorem insertDown_srt (a : Pt) (L : List Pt) (h : L.Pairwise dlt) (ha : a ∉ L) : (insertDown a L).Pairwise dlt := by
  induction L with
  | nil => simp [insertDown]
  | cons b r ih =>
    rw [insertDown]
    rw [List.pairwise_cons] at h
    rw [List.mem_cons, not_or] at ha
    by_cases c : lessDown b a = true
    · rw [if_pos c, List.pairwise_cons]
      refine ⟨fun p hp => ?_, ih h.2 ha.2⟩
      rcases (insertDown_mem a p r).1 hp with rfl | hp
      · exact (lessDown_iff _ _).1 c
      · exact h.1 p hp
    · rw [if_neg c, List.pairwise_cons, List.pairwise_cons]
      have hab : dlt a b := by
        rw [lessDown_iff] at c
        have : ¬ (a.1 = b.1 ∧ a.2 = b.2) := fun hc => ha.1 (Prod.ext hc.1 hc.2)
        unfold dlt at c ⊢; omega
      refine ⟨fun p hp => ?_, h⟩
      rcases List.mem_cons.1 hp with rfl | hp
      · exact hab
      · have := h.1 p hp; unfold dlt at *; omega

theorem sortDown_spec (L : List Pt) (h : L.Nodup) : (sortDown L).Pairwise dlt ∧ ∀ p, p ∈ sortDown L ↔ p ∈ L := by
  induction L with
  | nil => simp [sortDown]
  | cons a r ih =>
    rw [List.nodup_cons] at h
    obtain ⟨h1, h2⟩ := ih h.2
    refine ⟨insertDown_srt a _ h1 (by rw [h2]; exact h.1), fun p => ?_⟩
    rw [sortDown, insertDown_mem, h2, List.mem_cons]

/-! ### Chains -/

theorem chain_pairwise {R : Pt → Pt → Prop} : ∀ (L : List Pt), L.Pairwise R → ∀ p ∈ chain L, R p.1 p.2 ∧ p.1 ∈ L ∧ p.2 ∈ L
  | [], _, p, hp => by simp [chain] at hp
  | [a], _, p, hp => by simp [chain] at hp
  | a :: b :: r, h, p, hp => by
    rw [List.pairwise_cons] at h
    rcases List.mem_cons.1 hp with rfl | hp
    · exact ⟨h.1 b (List.mem_cons_self ..), by simp⟩
    · obtain ⟨h1, h2, h3⟩ := chain_pairwise (b :: r) h.2 p hp
      exact ⟨h1, List.mem_cons_of_mem _ h2, List.mem_cons_of_mem _ h3⟩

theorem chain_sum (g : Pt → Int) : ∀ (a : Pt) (L : List Pt),
    ((chain (a :: L)).map (fun p => g p.2 - g p.1)).sum = g ((a :: L).getLast (by simp)) - g a
  | a, [] => by simp [chain]
  | a, b :: r => by
    have ih := chain_sum g b r
    show (g b - g a) + ((chain (b :: r)).map (fun p => g p.2 - g p.1)).sum = _
    have : (a :: b :: r).getLast (by simp) = (b :: r).getLast (by simp) := List.getLast_cons _
    rw [ih, this]; ring

theorem head_of_min {R : Pt → Pt → Prop} (hR : ∀ a b, R a b → ¬ R b a) {a m : Pt} {L : List Pt} (h : (a :: L).Pairwise R) (hm : m ∈ a :: L)
    (hle : ∀ p ∈ a :: L, p = m ∨ R m p) : a = m := by
  rcases List.mem_cons.1 hm with rfl | hm
  · rfl
  · rcases hle a (List.mem_cons_self ..) with g | g
    · exact g
    · exact absurd ((List.pairwise_cons.1 h).1 m hm) (hR _ _ g)

theorem last_of_max {R : Pt → Pt → Prop} (hR : ∀ a b, R a b → ¬ R b a) {m : Pt} {L : List Pt} (hL : L ≠ []) (h : L.Pairwise R) (hm : m ∈ L)
    (hle : ∀ p ∈ L, p = m ∨ R p m) : L.getLast hL = m := by
  have hl : L.getLast hL ∈ L := List.getLast_mem hL
  rcases hle _ hl with g | g
  · exact g
  · have hd : L.dropLast ++ [L.getLast hL] = L := List.dropLast_append_getLast hL
    rw [← hd] at hm h
    rcases List.mem_append.1 hm with k | k
    · exact absurd g (hR _ _ ((List.pairwise_append.1 h).2.2 m k _ (by simp)))
    · simpa using (List.mem_singleton.1 k).symm

theorem plt_asymm (a b : Pt) (h : plt a b) : ¬ plt b a := by unfold plt at *; omega
theorem dlt_asymm (a b : Pt) (h : dlt a b) : ¬ dlt b a := by unfold dlt at *; omega

/-! ### One edge -/

/-- The edge falls from left to right. -/
def Falls (e : HE) : Prop := (e.1.1 < e.2.1 ∧ e.2.2 < e.1.2) ∨ (e.2.1 < e.1.1 ∧ e.1.2 < e.2.2)

theorem down_iff (e : HE) : (!isVertical e && lessSlope e.1 e.2 (e.1.1 + 1, e.1.2)) = true ↔ Falls e := by
  rw [Bool.and_eq_true, Arb.lessSlope, lessSlopeD_iff]
  simp only [isVertical, Bool.not_eq_true', beq_eq_false_iff_ne, ne_eq]
  unfold Falls
  rw [show e.1.1 + 1 - e.1.1 = 1 by ring, show e.1.2 - e.1.2 = 0 by ring]
  constructor
  · rintro ⟨h1, h2, h3⟩
    have h3 : (e.2.2 - e.1.2) * (e.2.1 - e.1.1) < 0 := by
      rcases h3 with h3 | h3
      · omega
      · nlinarith
    rcases lt_or_gt_of_ne h1 with g | g
    · left; refine ⟨g, ?_⟩; by_contra hc; nlinarith
    · right; refine ⟨g, ?_⟩; by_contra hc; nlinarith
  · intro h
    refine ⟨by omega, by omega, Or.inr ?_⟩
    rcases h with ⟨h1, h2⟩ | ⟨h1, h2⟩ <;> nlinarith

/-- The list of points in the order of the chain. -/
def ord (e : HE) (L : List Pt) : List Pt := if (!isVertical e && lessSlope e.1 e.2 (e.1.1 + 1, e.1.2)) = true then sortDown L else L

theorem pieces_eq (e : HE) (L : List Pt) : pieces e L = chain (ord e L) := by
  unfold pieces ord; split_ifs <;> rfl

def lo (e : HE) : Pt := if lessPoint e.2 e.1 then e.2 else e.1
def hi (e : HE) : Pt := if lessPoint e.2 e.1 then e.1 else e.2

/-- The order along the edge. -/
def along (e : HE) (a b : Pt) : Prop := (Falls e ∧ dlt a b) ∨ (¬ Falls e ∧ plt a b)

theorem along_asymm (e : HE) (a b : Pt) (h : along e a b) : ¬ along e b a := by
  unfold along at *
  rcases h with ⟨h1, h2⟩ | ⟨h1, h2⟩
  · rintro (⟨_, h3⟩ | ⟨h3, _⟩)
    · exact dlt_asymm _ _ h2 h3
    · exact h3 h1
  · rintro (⟨h3, _⟩ | ⟨_, h3⟩)
    · exact h1 h3
    · exact plt_asymm _ _ h2 h3

theorem ord_spec {e : HE} {L : List Pt} (h : L.Pairwise plt) : (ord e L).Pairwise (along e) ∧ ∀ p, p ∈ ord e L ↔ p ∈ L := by
  unfold ord
  by_cases c : Falls e
  · rw [if_pos ((down_iff e).2 c)]
    obtain ⟨h1, h2⟩ := sortDown_spec L (h.imp (fun {a b} hab hc => by rw [hc] at hab; exact plt_asymm _ _ hab hab))
    exact ⟨h1.imp (fun hab => Or.inl ⟨c, hab⟩), h2⟩
  · rw [if_neg (fun hc => c ((down_iff e).1 hc))]
    exact ⟨h.imp (fun hab => Or.inr ⟨c, hab⟩), fun p => Iff.rfl⟩

theorem lo_le {e : HE} {p : Pt} (h : inBox e p = true) : p = lo e ∨ along e (lo e) p := by
  rw [inBox_iff] at h
  by_cases hp : p = lo e
  · exact Or.inl hp
  · right
    have hn : ¬ (p.1 = (lo e).1 ∧ p.2 = (lo e).2) := fun hc => hp (Prod.ext hc.1 hc.2)
    unfold along
    by_cases c : Falls e
    · left; refine ⟨c, ?_⟩
      unfold Falls at c; unfold dlt
      by_cases g : lessPoint e.2 e.1 = true
      · simp only [lo, if_pos g] at hn ⊢; rw [Contains.lessPoint_iff] at g; omega
      · simp only [lo, if_neg g] at hn ⊢; rw [Contains.lessPoint_iff] at g; omega
    · right; refine ⟨c, ?_⟩
      unfold Falls at c; unfold plt
      by_cases g : lessPoint e.2 e.1 = true
      · simp only [lo, if_pos g] at hn ⊢; rw [Contains.lessPoint_iff] at g; omega
      · simp only [lo, if_neg g] at hn ⊢; rw [Contains.lessPoint_iff] at g; omega

theorem hi_ge {e : HE} {p : Pt} (h : inBox e p = true) : p = hi e ∨ along e p (hi e) := by
  rw [inBox_iff] at h
  by_cases hp : p = hi e
  · exact Or.inl hp
  · right
    have hn : ¬ (p.1 = (hi e).1 ∧ p.2 = (hi e).2) := fun hc => hp (Prod.ext hc.1 hc.2)
    unfold along
    by_cases c : Falls e
    · left; refine ⟨c, ?_⟩
      unfold Falls at c; unfold dlt
      by_cases g : lessPoint e.2 e.1 = true
      · simp only [hi, if_pos g] at hn ⊢; rw [Contains.lessPoint_iff] at g; omega
      · simp only [hi, if_neg g] at hn ⊢; rw [Contains.lessPoint_iff] at g; omega
    · right; refine ⟨c, ?_⟩
      unfold Falls at c; unfold plt
      by_cases g : lessPoint e.2 e.1 = true
      · simp only [hi, if_pos g] at hn ⊢; rw [Contains.lessPoint_iff] at g; omega
      · simp only [hi, if_neg g] at hn ⊢; rw [Contains.lessPoint_iff] at g; omega

/-- The chain goes from the lower end to the upper end. -/
theorem ord_ends {e : HE} {L : List Pt} (h : OK e L) :
    ∃ r, ord e L = lo e :: r ∧ (lo e :: r).getLast (by simp) = hi e := by
  obtain ⟨h1, h2⟩ := ord_spec (e := e) h.srt
  have hlo : lo e ∈ ord e L := by rw [h2]; unfold lo; split_ifs; exacts [h.snd, h.fst]
  have hhi : hi e ∈ ord e L := by rw [h2]; unfold hi; split_ifs; exacts [h.fst, h.snd]
  match hL : ord e L with
  | [] => rw [hL] at hlo; simp at hlo
  | a :: r =>
    rw [hL] at h1 hlo hhi
    have ha : a = lo e := head_of_min (along_asymm e) h1 hlo (fun p hp => lo_le (h.box p ((h2 p).1 (hL ▸ hp))))
    subst ha
    exact ⟨r, rfl, last_of_max (along_asymm e) (by simp) h1 hhi (fun p hp => hi_ge (h.box p ((h2 p).1 (hL ▸ hp))))⟩

/-- The stored count of an event. -/
def evC (ev : Ev) : Edge × Int := (ev.1, ev.2.2)

theorem finish_spec {ev : Ev} {p : HE} (ha : along ev.1 p.1 p.2) (hv : ev.1.1.1 = ev.1.2.1 → p.1.1 = p.2.1) :
    Directed (finish ev p).1 ∧ (finish ev p).2.1 = ev.2.1 ∧ ((finish ev p).1 = p ∨ (finish ev p).1 = p.swap) ∧
    ∀ v, inflow (evC (finish ev p)) v =
      carry (evC ev) * (if lessPoint ev.1.1 ev.1.2 then 1 else -1) * ((if p.2 = v then 1 else 0) - (if p.1 = v then 1 else 0)) := by
  obtain ⟨⟨a, b⟩, k, c⟩ := ev
  obtain ⟨u, w⟩ := p
  unfold along at ha
  simp only at ha hv
  have key : (plt u w) ∨ (u.1 = w.1 ∧ w.2 < u.2 ∧ a.1 ≠ b.1) := by
    rcases ha with ⟨h1, h2⟩ | ⟨_, h2⟩
    · unfold Falls at h1; unfold dlt at h2; unfold plt; simp only at h1; omega
    · exact Or.inl h2
  unfold finish evC
  dsimp only
  rcases key with h | ⟨h1, h2, h3⟩
  · have l1 : lessPoint u w = true := (Contains.lessPoint_iff _ _).2 h
    have l2 : ¬ lessPoint w u = true := by rw [Contains.lessPoint_iff]; unfold plt at h; omega
    rw [if_neg l2, l1]
    refine ⟨?_, rfl, Or.inl rfl, fun v => ?_⟩
    · unfold plt at h; unfold Spec.Arb.Directed; dsimp only; omega
    · unfold inflow carry isVertical
      dsimp only
      by_cases e1 : a.1 = b.1
      · have e2 := hv e1
        simp only [e1, e2]
        by_cases e3 : lessPoint a b = true
        · simp [e3]
        · simp [e3]
      · by_cases e2 : u.1 = w.1
        · simp only [e1, e2]
          by_cases e3 : lessPoint a b = true
          · simp [e3, e1]
          · simp [e3, e1]
        · simp only [e1, e2]
          by_cases e3 : lessPoint a b = true
          · simp [e3, e2]
          · simp [e3, e2]
  · have l1 : lessPoint u w = false := by
      rw [Bool.eq_false_iff, ne_eq, Contains.lessPoint_iff]; omega
    have l2 : lessPoint w u = true := by rw [Contains.lessPoint_iff]; omega
    rw [if_pos l2, l1]
    refine ⟨?_, rfl, Or.inr rfl, fun v => ?_⟩
    · unfold Spec.Arb.Directed; dsimp only; omega
    · unfold inflow carry isVertical
      dsimp only
      simp only [h1, h3]
      by_cases e3 : lessPoint a b = true
      · simp [e3, h3]; split_ifs <;> ring
      · simp [e3, h3]; split_ifs <;> ring

theorem pieces_flow {ev : Ev} {L : List Pt} (h : OK ev.1 L) (v : Pt) :
    (((pieces ev.1 L).map (finish ev)).map (fun e => inflow (evC e) v)).sum = inflow (evC ev) v := by
  obtain ⟨r, h1, h2⟩ := ord_ends h
  obtain ⟨s1, s2⟩ := ord_spec (e := ev.1) h.srt
  rw [pieces_eq, List.map_map]
  have hc := chain_pairwise _ s1
  have : (chain (ord ev.1 L)).map ((fun e => inflow (evC e) v) ∘ finish ev) =
      (chain (ord ev.1 L)).map (fun p => (fun x => carry (evC ev) * (if lessPoint ev.1.1 ev.1.2 then 1 else -1) * (if x = v then 1 else 0)) p.2
        - (fun x => carry (evC ev) * (if lessPoint ev.1.1 ev.1.2 then 1 else -1) * (if x = v then 1 else 0)) p.1) := by
    apply List.map_congr_left
    intro p hp
    obtain ⟨g1, g2, g3⟩ := hc p hp
    rw [Function.comp, (finish_spec g1 ?_).2.2.2 v]
    · ring
    · intro hv
      have b1 := (inBox_iff _ _).1 (h.box _ ((s2 _).1 g2))
      have b2 := (inBox_iff _ _).1 (h.box _ ((s2 _).1 g3))
      omega
  rw [this, h1, chain_sum (fun x => carry (evC ev) * (if lessPoint ev.1.1 ev.1.2 then 1 else -1) * (if x = v then 1 else 0)), h2]
  rw [inflow_carry]
  unfold lo hi evC
  by_cases c : lessPoint ev.1.2 ev.1.1 = true
  · have c' : ¬ lessPoint ev.1.1 ev.1.2 = true := by rw [Contains.lessPoint_iff] at *; omega
    simp only [if_pos c, if_neg c']; ring
  · by_cases c' : lessPoint ev.1.1 ev.1.2 = true
    · simp only [if_neg c, if_pos c']; ring
    · have : ev.1.1 = ev.1.2 := by
        rw [Contains.lessPoint_iff] at c c'
        exact Prod.ext (by omega) (by omega)
      simp only [if_neg c, if_neg c', this]; ring

theorem pieces_dir {ev : Ev} {L : List Pt} (h : OK ev.1 L) : ∀ e ∈ (pieces ev.1 L).map (finish ev),
    Directed e.1 ∧ e.2.1 = ev.2.1 ∧ inBox ev.1 e.1.1 = true ∧ inBox ev.1 e.1.2 = true ∧ e.1.1 ∈ L ∧ e.1.2 ∈ L := by
  obtain ⟨s1, s2⟩ := ord_spec (e := ev.1) h.srt
  intro e he
  obtain ⟨p, hp, rfl⟩ := List.mem_map.1 he
  rw [pieces_eq] at hp
  obtain ⟨g1, g2, g3⟩ := chain_pairwise _ s1 p hp
  have b1 := h.box _ ((s2 _).1 g2)
  have b2 := h.box _ ((s2 _).1 g3)
  have hv : ev.1.1.1 = ev.1.2.1 → p.1.1 = p.2.1 := by
    intro hv
    rw [inBox_iff] at b1 b2; omega
  obtain ⟨f1, f2, f3, _⟩ := finish_spec g1 hv
  refine ⟨f1, f2, ?_⟩
  rcases f3 with f3 | f3
  · rw [f3]; exact ⟨b1, b2, (s2 _).1 g2, (s2 _).1 g3⟩
  · rw [f3]; exact ⟨b2, b1, (s2 _).1 g3, (s2 _).1 g2⟩

/-! ### All edges -/

theorem cutGo_flow (ip : Pts) : ∀ (E : List Ev) (i : Nat), (∀ j ev, E[j]? = some ev → OK ev.1 (ip (i + j))) → ∀ k v,
    ((layer (cutGo ip i E) k).map (fun e => inflow e v)).sum = ((layer E k).map (fun e => inflow e v)).sum
  | [], _, _, _, _ => rfl
  | ev :: r, i, h, k, v => by
    have h0 := h 0 ev rfl
    have ih := cutGo_flow ip r (i + 1) (fun j e he => by rw [show i + 1 + j = i + (j + 1) by ring]; exact h (j + 1) e he) k v
    have key : ∀ A B : List Ev, layer (A ++ B) k = layer A k ++ layer B k := by
      intro A B; simp [layer]
    rw [cutGo, key, List.map_append, List.sum_append, ih, show ev :: r = [ev] ++ r from rfl, key, List.map_append, List.sum_append]
    congr 1
    have hk : ∀ e ∈ (pieces ev.1 (ip i)).map (finish ev), e.2.1 = ev.2.1 := fun e he => (pieces_dir h0 e he).2.1
    have hf := pieces_flow h0 v
    rw [Nat.add_zero] at hf
    by_cases c : ev.2.1 = k
    · have l1 : layer ((pieces ev.1 (ip i)).map (finish ev)) k = ((pieces ev.1 (ip i)).map (finish ev)).map evC := by
        unfold layer; rw [List.filter_eq_self.2]
        · rfl
        · intro e he; rw [hk e he, c]; simp
      have l2 : layer [ev] k = [evC ev] := by simp [layer, c, evC]
      rw [l1, l2, List.map_map]
      simpa [Function.comp_def] using hf
    · have l1 : layer ((pieces ev.1 (ip i)).map (finish ev)) k = [] := by
        unfold layer; rw [List.filter_eq_nil_iff.2, List.map_nil]
        intro e he; rw [hk e he]; simpa using c
      have l2 : layer [ev] k = [] := by simp [layer, c]
      rw [l1, l2]

theorem cutGo_mem (ip : Pts) : ∀ (E : List Ev) (i : Nat) (e : Ev), e ∈ cutGo ip i E ↔
    ∃ j ev, E[j]? = some ev ∧ e ∈ (pieces ev.1 (ip (i + j))).map (finish ev)
  | [], _, e => by simp [cutGo]
  | ev :: r, i, e => by
    rw [cutGo, List.mem_append, cutGo_mem ip r (i + 1)]
    constructor
    · rintro (h | ⟨j, ev', h1, h2⟩)
      · exact ⟨0, ev, rfl, h⟩
      · exact ⟨j + 1, ev', h1, by rwa [show i + (j + 1) = i + 1 + j by ring]⟩
    · rintro ⟨j, ev', h1, h2⟩
      cases j with
      | zero => left; simp only [List.getElem?_cons_zero, Option.some.injEq] at h1; subst h1; exact h2
      | succ j => right; exact ⟨j, ev', h1, by rwa [show i + 1 + j = i + (j + 1) by ring]⟩

end Verif.Cut
