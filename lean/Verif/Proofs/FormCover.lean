import Verif.Proofs.FormRow
import Verif.Proofs.FormScan
import Verif.Proofs.FormRing
/-!
# What each polygon covers
-/
namespace Verif.ArbForm
open Verif.Arb Verif.Contains Verif.Spec Verif.Spec.Arb
open Verif.Proofs.PolyLam Verif.Proofs.FormLay
open Verif.Proofs.PolyWeb (ps)

/-- The ends between two columns. -/
structure SO (ω : Edge → Int) (H : Heap) (sd : List (V × Nat)) (out : List Poly) : Prop where
  fit : Fit ω H sd none 0
  col : Colors (fun a : V × Nat => a.1.2) 0 sd.reverse 0
  good : ∀ P ∈ out, GoodP ω P

theorem SInv.mem {D : List V} {dn : Pt → Bool} {L : List V} {sd : List (V × Nat)} {H : Heap} {out : List Poly} (h : SInv D dn L sd H out) {a : V × Nat} (ha : a ∈ sd) :
    a.1 ∈ D ∧ dn a.1.1.1 = true ∧ dn a.1.1.2 = false := by
  have := List.mem_filter.1 (h.keys.mem_iff.1 (List.mem_map.2 ⟨a, ha, rfl⟩))
  simpa using this

theorem event_ord {ω : Edge → Int} {D : List V} (c : Clean D) {dn : Pt → Bool} {ev : V} {r : List V} {sd : List (V × Nat)} {H : Heap} {out : List Poly}
    (h : SInv D dn (ev :: r) sd H out) (so : SO ω H sd out) (h0 : ∀ p : Pt, ω (p, p) = 0) (hq : ∀ e ∈ D, e.1.1.1 = ev.1.1.1 → ∀ σ, ω (dir e.1.1 e.1.2 σ) = 0) :
    ∃ L' sd' H' out' dn', processEvent ev.1.1.1 (ev :: r) sd H out = some (L', sd', H', out') ∧ L'.length < (ev :: r).length ∧ SInv D dn' L' sd' H' out' ∧
      SO ω H' sd' out' ∧ ∀ q, Vertex (evs D) q → (dn' q = true ↔ q.1 ≤ ev.1.1.1) := by
  have hev := h.ev.mem (e := ev) List.mem_cons_self
  have hhi : ∀ q, Vertex (evs D) q → dn q = true → q.1 < ev.1.1.1 := fun q hq hd => h.col q _ hq hev.1 hd hev.2
  obtain ⟨L', sd', H', out', dn', e1, e2, h', s', ⟨lo, hi, sd0, o⟩, rfl, rfl, hp, hdn⟩ := event_gen c h
    (I := fun dn s F W => ∃ lo hi sd0, Ord ω D ev.1.1.1 sd dn s F W lo hi sd0)
    (fun hc dn s F W ev' r m st hev hx ⟨lo, hi, sd0, o⟩ => onePoint_ord c hc m st hev hx o (h0 _) (fun e he hep => hq e he (by rw [hep]; exact hx)))
    ⟨[], sd, [], rfl, by
        rw [List.filter_eq_self.2 (by intro a ha; rw [(h.mem ha).2.2]; rfl)]; simp, List.Pairwise.nil, by simp, by
        intro a _ v v1 v2 v3
        have := hhi v v1 v3
        omega, by simp, by simp, so.col, so.fit, so.good⟩
  refine ⟨L', sd', s'.H, s'.out, dn', e1, e2, h', ?_, hdn⟩
  have hm : ∀ a ∈ sd', Has (evs D) a.1.1 ∧ RSpan ev.1.1.1 a.1.1 := by
    intro a ha
    obtain ⟨g1, g2, g3⟩ := h'.mem ha
    refine ⟨Has.evs g1, (hdn _ (vertex_1 g1)).1 g2, ?_⟩
    by_contra hn
    rw [(hdn _ (vertex_2 g1)).2 (by omega)] at g3
    simp at g3
  have hpl : (lo ++ hi).Perm sd' := o.perm.trans hp.symm
  have hm' : ∀ a ∈ lo ++ hi, Has (evs D) a.1.1 ∧ RSpan ev.1.1.1 a.1.1 := fun a ha => hm a (hpl.mem_iff.1 ha)
  have heq : lo ++ hi = sd' := by
    refine srt_eq c.good ?_ h'.srt hpl (fun a ha => ⟨(hm' a ha).1, (hm' a ha).2.nv⟩)
    rw [List.pairwise_append]
    refine ⟨o.srt, ?_, ?_⟩
    · have := h.srt
      rw [o.split] at this
      exact this.sublist (List.sublist_append_right _ _)
    · intro a ha b hb
      obtain ⟨g1, g2, v, v1, v2, v3, v4⟩ := o.low a ha
      have := o.high b hb v v1 v2 v3
      exact lt_at c.good g1 (hm' b (by simp [hb])).1 g2 (hm' b (by simp [hb])).2 (by linarith)
  have hf := o.fit
  have hcol := o.col
  simp only [Option.toList_none, List.nil_append] at hf hcol
  rw [heq] at hf hcol
  exact ⟨hf.gap, hcol, o.good⟩

/-! ### The query point passes -/

theorem lw_zero {ω : Edge → Int} {l : List Pt} (h : ∀ e ∈ sides l, ω e = 0) : lw ω l = 0 := by
  unfold lw
  rw [List.map_congr_left (g := fun _ => (0 : Int)) h]
  simp

theorem web_zero {ω : Edge → Int} {H : Heap} {S : List (V × Nat)} {out : List Poly} {X : List Edge} (w : Web H (S.map en) none out X) (hX : ∀ e ∈ X, ω e = 0) :
    (∀ a ∈ S, lw ω (H.line (H.tail a.2).line) = 0) ∧ (∀ a ∈ S, ∀ h ∈ (H.tail a.2).holes, lw ω (H.ring h) = 0) ∧ ∀ P ∈ out, GoodP ω P := by
  obtain ⟨C, w, hp⟩ := w
  have find : ∀ a ∈ S, ∃ c ∈ C, IsEnd H c a.2 a.1.2 a.1.1.1 := by
    intro a ha
    obtain ⟨c, hc, hm⟩ := List.mem_flatMap.1 (hp.mem_iff.1 (List.mem_map.2 ⟨a, ha, rfl⟩))
    exact ⟨c, hc, (mem_ends (w.ne c hc)).1 hm⟩
  have hX' : ∀ e, e ∈ C.flatMap (fun c => sides (H.line c.l)) ++ (closedHoles H C none).flatMap (fun h => sides (H.ring h)) ++ out.flatMap Poly.sides → ω e = 0 :=
    fun e he => hX e (w.acc.mem_iff.1 he)
  refine ⟨?_, ?_, ?_⟩
  · intro a ha
    obtain ⟨c, hc, he⟩ := find a ha
    have : (H.tail a.2).line = c.l := by
      rcases he with ⟨_, e, _⟩ | ⟨_, e, _⟩ <;> rw [e]
      · exact (w.fr c hc).1
      · exact (w.bk c hc).1
    rw [this]
    exact lw_zero (fun e he => hX' e (List.mem_append_left _ (List.mem_append_left _ (List.mem_flatMap.2 ⟨c, hc, he⟩))))
  · intro a ha h hh
    obtain ⟨c, hc, he⟩ := find a ha
    have hm : h ∈ closedHoles H C none := by
      refine List.mem_append_left _ (List.mem_flatMap.2 ⟨c, hc, ?_⟩)
      unfold Chain.holes
      rcases he with ⟨_, e, _⟩ | ⟨_, e, _⟩ <;> rw [e] at hh <;> simp [hh]
    exact lw_zero (fun e he => hX' e (List.mem_append_left _ (List.mem_append_right _ (List.mem_flatMap.2 ⟨h, hm, he⟩))))
  · intro P hP
    have h1 : ∀ e ∈ Poly.sides P, ω e = 0 := fun e he => hX' e (List.mem_append_right _ (List.mem_flatMap.2 ⟨P, hP, he⟩))
    have h2 : lw ω P.outer = 0 := lw_zero (fun e he => h1 e (List.mem_append_left _ he))
    have h3 : ∀ h ∈ P.holes, lw ω h = 0 := fun h hh => lw_zero (fun e he => h1 e (List.mem_append_right _ (List.mem_flatMap.2 ⟨h, hh, he⟩)))
    refine ⟨Or.inl h2, fun h hh => Or.inl (h3 h hh), ?_⟩
    rw [h2, List.map_congr_left (g := fun _ => (0 : Int)) h3]
    simp

theorem ps_rel {R : (V × Nat) → (V × Nat) → Prop} : ∀ {sd : List (V × Nat)}, (sd.map Prod.snd).Nodup → sd.Pairwise R → ∀ {a b : V × Nat}, a ∈ sd → b ∈ sd →
    ps (sd.map Prod.snd) a.2 < ps (sd.map Prod.snd) b.2 → R a b
  | [], _, _, _, _, ha, _, _ => by simp at ha
  | c :: r, hn, hp, a, b, ha, hb, h => by
    rw [List.map_cons] at hn h
    rw [List.nodup_cons] at hn
    rw [List.pairwise_cons] at hp
    unfold ps at h
    have hr : ∀ x ∈ r, x.2 ≠ c.2 := fun x hx e => hn.1 (by rw [← e]; exact List.mem_map.2 ⟨x, hx, rfl⟩)
    rcases List.mem_cons.1 ha with rfl | ha
    · rcases List.mem_cons.1 hb with rfl | hb
      · omega
      · exact hp.1 b hb
    · rcases List.mem_cons.1 hb with rfl | hb
      · rw [List.idxOf_cons_self] at h; omega
      · rw [List.idxOf_cons_ne _ (hr a ha).symm, List.idxOf_cons_ne _ (hr b hb).symm] at h
        exact ps_rel hn.2 hp.2 ha hb (by unfold ps; push_cast at h; omega)

theorem switch {D : List V} (c : Clean D) {dn : Pt → Bool} {L : List V} {sd : List (V × Nat)} {H : Heap} {out : List Poly} (h : SInv D dn L sd H out)
    (so : SO (fun _ => 0) H sd out) {q : ℚ × ℚ} (h1 : ∀ v, Vertex (evs D) v → dn v = true → (v.1 : ℚ) ≤ q.1) (h2 : ∀ v, Vertex (evs D) v → dn v = false → q.1 < v.1) :
    SO (crossing q) H sd out := by
  classical
  have hX : ∀ e ∈ (D.filter (fun e => dn e.1.2)).map solidLeft, crossing q e = 0 := by
    intro e he
    obtain ⟨f, hf, rfl⟩ := List.mem_map.1 he
    obtain ⟨hD, hd⟩ := List.mem_filter.1 hf
    rw [crossing_solid (c.good.dirE (Has.evs hD)) (c.unit f hD), if_neg]
    rintro ⟨-, g, -⟩
    have := h1 _ (vertex_2 hD) hd
    linarith
  obtain ⟨z1, z2, z3⟩ := web_zero h.web hX
  obtain ⟨F0, lay, -⟩ := so.fit
  refine ⟨?_, so.col, z3⟩
  obtain ⟨I, hI⟩ : ∃ I : Nat → Int, ∀ t, I t = if ∃ a ∈ sd, a.2 = t ∧ PassesBelow a.1.1 q then 1 else 0 := ⟨_, fun _ => rfl⟩
  have ef := h.web.ef
  have hIa : ∀ a ∈ sd, I a.2 = if PassesBelow a.1.1 q then 1 else 0 := by
    intro a ha
    rw [hI]
    by_cases g : PassesBelow a.1.1 q
    · rw [if_pos ⟨a, ha, rfl, g⟩, if_pos g]
    · rw [if_neg, if_neg g]
      rintro ⟨b, hb, e, g'⟩
      have : b = a := List.inj_on_of_nodup_map ef.nd hb ha e
      exact g (this ▸ g')
  have hI01 : ∀ t, I t = 0 ∨ I t = 1 := by
    intro t
    rw [hI]
    split_ifs
    · exact Or.inr rfl
    · exact Or.inl rfl
  have hmono : ∀ t u, t ∈ sd.map Prod.snd → u ∈ sd.map Prod.snd → ps (sd.map Prod.snd) t < ps (sd.map Prod.snd) u → I u ≤ I t := by
    intro t u ht hu hlt
    obtain ⟨a, ha, rfl⟩ := List.mem_map.1 ht
    obtain ⟨b, hb, rfl⟩ := List.mem_map.1 hu
    have hR := ps_rel ef.nd h.srt ha hb hlt
    rw [hIa a ha, hIa b hb]
    by_cases g : PassesBelow b.1.1 q
    · rw [if_pos g, if_pos]
      obtain ⟨a1, a2, a3⟩ := h.mem ha
      obtain ⟨b1, b2, b3⟩ := h.mem hb
      have a4 := h1 _ (vertex_1 a1) a2
      have a5 := h2 _ (vertex_2 a1) a3
      have na : NV a.1.1 := by unfold NV; have := lt_of_le_of_lt a4 a5; exact_mod_cast this
      have nb : NV b.1.1 := by unfold NV; have := lt_of_le_of_lt g.1 g.2.1; exact_mod_cast this
      refine ⟨a4, a5, ?_⟩
      have := lt_le (c.good.sep (Has.evs a1) (Has.evs b1) (lt_ne hR) na nb) hR a4 a5.le g.1 g.2.1.le
      unfold Y at this
      exact this.trans g.2.2
    · rw [if_neg g]
      split_ifs <;> omega
  have om : ∀ t ∈ sd.map Prod.snd, oth H t ∈ sd.map Prod.snd := lay.prd.om
  have oo : ∀ t ∈ sd.map Prod.snd, oth H (oth H t) = t := lay.prd.oo
  have hlam : Lam (ps (sd.map Prod.snd)) (· ∈ sd.map Prod.snd) (oth H) (fun t => I (oth H t) - I t) := by
    refine ⟨?_, ?_⟩
    · intro a ha hlt
      have g1 := hmono a (oth H a) ha (om a ha) hlt
      have g2 := hI01 a
      have g3 := hI01 (oth H a)
      rw [oo a ha]
      omega
    · intro a b ha hb la lb lab
      have i1 := hmono a (oth H a) ha (om a ha) la
      have i2 := hmono b (oth H b) hb (om b hb) lb
      have j1 := hI01 a
      have j2 := hI01 b
      have j3 := hI01 (oth H a)
      have j4 := hI01 (oth H b)
      rw [oo a ha, oo b hb]
      rcases lay.lam.lam a b ha hb la lb lab with ⟨g, -⟩ | ⟨g, -⟩
      · have i3 := hmono (oth H a) b (om a ha) hb g
        exact Or.inl ⟨g, by omega⟩
      · have i3 := hmono a b ha hb lab
        have i4 := hmono (oth H b) (oth H a) (om b hb) (om a ha) g
        exact Or.inr ⟨g, by omega⟩
  have hhs : ∀ t ∈ sd.map Prod.snd, ∀ v ∈ hwt (crossing q) H t, v = 0 := by
    intro t ht v hv
    obtain ⟨a, ha, rfl⟩ := List.mem_map.1 ht
    obtain ⟨k, hk, rfl⟩ := List.mem_map.1 hv
    rw [z2 a ha k hk]; rfl
  refine ⟨fun t => I (oth H t) - I t, ⟨lay.nd, hlam, ⟨lay.prd.inj, om, lay.prd.one, oo, ?_⟩, lay.par, ?_, ?_, by simp [flt, float], by simp [flt, float], ?_⟩, ?_⟩
  · intro t ht
    rw [oo t ht]; omega
  · intro t ht v hv
    exact Or.inl (hhs t ht v hv)
  · intro t ht v hv
    rw [hhs t ht v hv]
    exact hr_zero hlam _
  · have h4 : (sd.map Prod.snd).map (fun t => (hwt (crossing q) H t).sum) = (sd.map Prod.snd).map (fun _ => 0) :=
      List.map_congr_left (fun t ht => List.sum_eq_zero (hhs t ht))
    rw [h4, List.sum_eq_zero (by rintro x hx; obtain ⟨_, _, rfl⟩ := List.mem_map.1 hx; rfl)]
    simp [flt, float]
  · intro a ha hs b hb hab
    rw [z1 a ha]
    show I (oth H a.2) - I a.2 = _
    rw [← hab, hIa a ha, hIa b hb]
    obtain ⟨b', hb', e1, e2, -⟩ := ef.ot a ha
    have : b' = b := List.inj_on_of_nodup_map ef.nd hb' hb (e1.trans hab.symm)
    subst this
    rw [hs] at e2
    have hcr : ∀ e : Edge, Arb.Directed e → crossing q e = if PassesBelow e q then 1 else 0 := by
      intro e hd
      by_cases g : e.1.1 = e.2.1
      · rw [show crossing q e = 0 from PolySet.crossing_vert g q, if_neg (PolySet.not_passes_vert g q)]
      · have := crossing_solid (e := (e, 1)) hd (Or.inl rfl) q
        unfold solidLeft at this
        dsimp only at this
        rw [if_neg g] at this
        simpa using this
    have d1 := c.good.dirE (Has.evs (h.mem ha).1)
    have d2 := c.good.dirE (Has.evs (h.mem hb).1)
    have w1 : we (crossing q) a = - crossing q a.1.1 := by
      unfold we dir
      rw [hs, if_neg (by decide)]
      exact PolySet.crossing_swap q a.1.1
    have w2 : we (crossing q) b' = crossing q b'.1.1 := by
      unfold we dir
      rw [e2, if_pos (by decide)]
    rw [w1, w2, hcr _ d1, hcr _ d2]
    omega

/-! ### The whole sweep -/

theorem crossing_right {q : ℚ × ℚ} {e : Edge} (h1 : q.1 < e.1.1) (h2 : q.1 < e.2.1) : crossing q e = 0 := by
  unfold crossing
  rw [if_neg, if_neg]
  · rintro ⟨a, b, -⟩; linarith
  · rintro ⟨a, b, -⟩; linarith

theorem scan_ord {D : List V} (c : Clean D) {q : ℚ × ℚ} : ∀ (n : Nat) (dn : Pt → Bool) (L : List V) (sd : List (V × Nat)) (H : Heap) (out : List Poly), SInv D dn L sd H out →
    (SO (fun _ => 0) H sd out ∧ (∀ v, Vertex (evs D) v → dn v = true → (v.1 : ℚ) ≤ q.1)) ∨ (SO (crossing q) H sd out ∧ ∀ v, Vertex (evs D) v → dn v = false → q.1 < v.1) →
    L.length ≤ n → ∃ out', scan n L sd H out = some out' ∧ ∀ P ∈ out', GoodP (crossing q) P := by
  intro n
  have sw : ∀ (dn : Pt → Bool) (L : List V) (sd : List (V × Nat)) (H : Heap) (out : List Poly), SInv D dn L sd H out →
      (SO (fun _ => 0) H sd out ∧ (∀ v, Vertex (evs D) v → dn v = true → (v.1 : ℚ) ≤ q.1)) ∨ (SO (crossing q) H sd out ∧ ∀ v, Vertex (evs D) v → dn v = false → q.1 < v.1) →
      (∀ ev r, L = ev :: r → q.1 < ev.1.1.1) → SO (crossing q) H sd out ∧ ∀ v, Vertex (evs D) v → dn v = false → q.1 < v.1 := by
    rintro dn L sd H out h (⟨h1, h2⟩ | h1) h3
    · have h4 : ∀ v, Vertex (evs D) v → dn v = false → q.1 < v.1 := by
        intro v hv hd
        rcases L with _ | ⟨ev, r⟩
        · obtain ⟨e, he, _⟩ := h.ev.todo hv hd
          simp at he
        · have h5 := h3 ev r rfl
          have h6 : ev.1.1.1 ≤ v.1 := by
            rcases h.ev.first hv hd with g | g
            · rw [g]
            · unfold plt at g; omega
          have : (ev.1.1.1 : ℚ) ≤ v.1 := by exact_mod_cast h6
          linarith
      exact ⟨switch c h h1 h2 h4, h4⟩
    · exact h1
  induction n with
  | zero =>
    intro dn L sd H out h ho hl
    have hL : L = [] := List.length_eq_zero_iff.1 (by omega)
    subst hL
    exact ⟨out, by rw [scan], (sw dn [] sd H out h ho (by simp)).1.good⟩
  | succ n ih =>
    intro dn L sd H out h ho hl
    rcases L with _ | ⟨ev, r⟩
    · exact ⟨out, by rw [scan], (sw dn [] sd H out h ho (by simp)).1.good⟩
    · have hfirst : ∀ v, Vertex (evs D) v → dn v = false → ev.1.1.1 ≤ v.1 := by
        intro v hv hd
        rcases h.ev.first hv hd with g | g
        · rw [g]
        · unfold plt at g; omega
      by_cases hx : q.1 < ev.1.1.1
      · obtain ⟨so, hr⟩ := sw dn _ sd H out h ho (by rintro _ _ ⟨rfl, rfl⟩; exact hx)
        obtain ⟨L', sd', H', out', dn', e1, hlt, h', so', hdn⟩ := event_ord c h so (crossing_same q) (by
          intro e he hex σ
          have g1 : q.1 < e.1.1.1 := by rw [hex]; exact hx
          have g2 : (e.1.1.1 : ℚ) ≤ e.1.2.1 := by
            have : e.1.1.1 ≤ e.1.2.1 := by rcases c.good.dirE (Has.evs he) with g | g <;> omega
            exact_mod_cast this
          have g3 : q.1 < e.1.2.1 := by linarith
          unfold dir
          split_ifs
          · exact crossing_right g1 g3
          · exact crossing_right g3 g1)
        rw [scan, e1]
        refine ih dn' L' sd' H' out' h' (Or.inr ⟨so', ?_⟩) (by omega)
        intro v hv hd
        have : ¬ v.1 ≤ ev.1.1.1 := by rw [← hdn v hv, hd]; simp
        have : (ev.1.1.1 : ℚ) ≤ v.1 := by exact_mod_cast (by omega : ev.1.1.1 ≤ v.1)
        linarith
      · push Not at hx
        have so : SO (fun _ => 0) H sd out := by
          rcases ho with ho | ho
          · exact ho.1
          · exfalso
            have := h.ev.mem (e := ev) List.mem_cons_self
            have := ho.2 _ this.1 this.2
            linarith
        obtain ⟨L', sd', H', out', dn', e1, hlt, h', so', hdn⟩ := event_ord c h so (fun _ => rfl) (fun _ _ _ _ => rfl)
        rw [scan, e1]
        refine ih dn' L' sd' H' out' h' (Or.inl ⟨so', ?_⟩) (by omega)
        intro v hv hd
        have : (v.1 : ℚ) ≤ ev.1.1.1 := by exact_mod_cast (hdn v hv).1 hd
        linarith

/-- Each polygon covers a point once or not, and its holes lie inside it and apart from each other. -/
theorem form_good {D : List V} (c : Clean D) {out : List Poly} (ho : form D = some out) : ∀ P ∈ out, ∀ q, GoodP (crossing q) P := by
  intro P hP q
  have hw : Web Heap.init (([] : List (V × Nat)).map en) none [] [] := by
    refine ⟨[], ?_, by simp⟩
    refine ⟨List.nodup_nil, List.nodup_nil, by simp, by simp, by simp, by simp, by simp, ?_, ?_, by simp⟩
    · simp [closedHoles, float]
    · simp [closedHoles, float]
  have h0 : SInv D (fun _ => false) (isort lessV (halves D)) [] Heap.init [] := by
    refine ⟨⟨?_, ?_, ?_⟩, ?_, ?_, List.Pairwise.nil, ?_⟩
    · rw [List.filter_eq_self.2 (by simp)]
      exact isort_perm _ _
    · refine (isort_sorted vkey _ (fun a _ b _ => lessV_key a b)).imp ?_
      intro a b h
      unfold vkey at h
      rw [Prod.Lex.toLex_le_toLex, Prod.Lex.toLex_le_toLex] at h
      dsimp only at h
      rw [← Bool.not_eq_true, Contains.lessPoint_iff]
      omega
    · simp
    · simp
    · simp
    · simpa using hw
  have hso : SO (fun _ => 0) Heap.init [] [] := by
    refine ⟨⟨fun _ => 0, ⟨List.nodup_nil, ⟨by simp, by simp⟩, ⟨by simp, by simp, by simp, by simp, by simp⟩, by simp, by simp, by simp, by simp [flt, float], by simp [flt, float],
      by simp [flt, float]⟩, by simp⟩, ⟨rfl, Or.inl rfl⟩, by simp⟩
  obtain ⟨out', e, hg⟩ := scan_ord c (q := q) _ _ _ _ _ _ h0 (Or.inl ⟨hso, by simp⟩) le_rfl
  have : out' = out := by
    have ho' : scan (isort lessV (halves D)).length (isort lessV (halves D)) [] Heap.init [] = some out := ho
    rw [e] at ho'
    exact Option.some_inj.1 ho'
  rw [this] at hg
  exact hg P hP

end Verif.ArbForm
