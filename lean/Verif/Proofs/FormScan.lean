import Verif.Proofs.FormAfter
import Mathlib.Data.List.TakeWhile
import Mathlib.Data.Prod.Lex
/-!
# A whole column, and the whole sweep
-/
namespace Verif.ArbForm
open Verif.Arb Verif.Contains Verif.Spec Verif.Spec.Arb

/-- One point of the column keeps `I`. -/
def Keeps (D : List V) (x : Int) (sd : List (V × Nat)) (I : (Pt → Bool) → ES → Option Nat → Option (V × Nat) → Prop) : Prop :=
  ∀ dn s F W ev r, MidC D x sd dn s F W → St D x sd dn s F W → s.evs = ev :: r → ev.1.1.1 = x → I dn s F W →
    ∃ s' F' W', onePoint x sd s = some s' ∧ s'.evs.length < s.evs.length ∧ MidC D x sd (fun q => dn q || q == ev.1.1) s' F' W' ∧
      St D x sd (fun q => dn q || q == ev.1.1) s' F' W' ∧ I (fun q => dn q || q == ev.1.1) s' F' W'

/-- All points of a column, with something that each of them keeps. -/
theorem points_gen {D : List V} {x : Int} {sd : List (V × Nat)} {I : (Pt → Bool) → ES → Option Nat → Option (V × Nat) → Prop} (step : Keeps D x sd I) :
    ∀ (n : Nat) (dn : Pt → Bool) (s : ES) (F : Option Nat) (W : Option (V × Nat)), MidC D x sd dn s F W → St D x sd dn s F W → I dn s F W → s.evs.length < n →
      ∃ s' dn', points x sd n s = some s' ∧ MidC D x sd dn' s' none none ∧ I dn' s' none none ∧ (∀ q, Vertex (evs D) q → q.1 = x → dn' q = true) ∧ s'.evs.length ≤ s.evs.length ∧
        (∀ ev r, s.evs = ev :: r → ev.1.1.1 = x → s'.evs.length < s.evs.length)
  | 0, _, _, _, _, _, _, _, h => by omega
  | n + 1, dn, s, F, W, m, st, i, h => by
    have hdone : (∀ q, Vertex (evs D) q → q.1 = x → dn q = true) → F = none ∧ W = none := by
      intro hd
      rcases st with ⟨h1, h2, _⟩ | ⟨a, _, _, _, _, e, he, _, _, h2, _, h3⟩ | ⟨g, p0, _, _, _, _, _, ev, r, h1, h2, _⟩
      · exact ⟨h2, h1⟩
      · rw [hd e.1.2 (vertex_2 he) h2] at h3; simp at h3
      · have := m.ev.mem (e := ev) (by rw [h1]; exact List.mem_cons_self)
        rw [hd _ this.1 h2] at this
        simp at this
    unfold points
    rcases hev : s.evs with _ | ⟨ev, r⟩
    · have hd : ∀ q, Vertex (evs D) q → q.1 = x → dn q = true := by
        intro q hq _
        by_contra hn
        obtain ⟨e, he, _⟩ := m.ev.todo hq (by simpa using hn)
        rw [hev] at he
        simp at he
      obtain ⟨rfl, rfl⟩ := hdone hd
      exact ⟨s, dn, rfl, m, i, hd, by rw [hev], by simp⟩
    · dsimp only
      by_cases hx : ev.1.1.1 = x
      · rw [if_pos hx]
        obtain ⟨s1, F', W', e1, hl, m', st', i'⟩ := step dn s F W ev r m st hev hx i
        rw [e1]
        obtain ⟨s', dn', e2, k1, k0, k2, k3, _⟩ := points_gen step n _ s1 F' W' m' st' i' (by omega)
        rw [hev] at hl
        exact ⟨s', dn', e2, k1, k0, k2, by omega, fun _ _ _ _ => by omega⟩
      · rw [if_neg hx]
        have hE : Events D dn (ev :: r) := hev ▸ m.ev
        have hd : ∀ q, Vertex (evs D) q → q.1 = x → dn q = true := by
          intro q hq hqx
          by_contra hn
          have hev' := hE.mem (e := ev) List.mem_cons_self
          have h1 : x ≤ ev.1.1.1 := by
            by_contra hlt
            have := m.lo _ hev'.1 (by omega)
            rw [hev'.2] at this
            simp at this
          rcases hE.first hq (by simpa using hn) with g | g
          · rw [g] at hqx; exact hx hqx
          · unfold plt at g; omega
        obtain ⟨rfl, rfl⟩ := hdone hd
        refine ⟨s, dn, rfl, m, i, hd, by rw [hev], ?_⟩
        intro ev' r' he hx'
        simp only [List.cons.injEq] at he
        rw [← he.1] at hx'
        exact absurd hx' hx

theorem insertEl_spec {E : List Ev} (hG : Good E) {x : Int} {sd : List (V × Nat)} {a : V × Nat} (hsrt : sd.Pairwise (fun a b => Lt a.1.1 b.1.1))
    (hm : ∀ b ∈ sd, Has E b.1.1 ∧ RSpan x b.1.1) (ha : Has E a.1.1) (sa : RSpan x a.1.1) (hx : a.1.1.1.1 = x) (hnot : ∀ b ∈ sd, b.1.1 ≠ a.1.1) :
    (insertEl x sd a).Pairwise (fun a b => Lt a.1.1 b.1.1) ∧ (insertEl x sd a).Perm (a :: sd) := by
  have hless : ∀ b ∈ sd, (lessHE x false b.1.1 a.1.1 = true ↔ Lt b.1.1 a.1.1) ∧ (lessHE x false a.1.1 b.1.1 = true ↔ Lt a.1.1 b.1.1) := fun b hb =>
    less_ins hG ha (hm b hb).1 (Ne.symm (hnot b hb)) sa (hm b hb).2 hx
  have hor : ∀ b ∈ sd, ¬ Lt b.1.1 a.1.1 → Lt a.1.1 b.1.1 := by
    intro b hb hn
    have sb := (hm b hb).2
    exact (lt_or (hG.sep ha (hm b hb).1 (Ne.symm (hnot b hb)) sa.nv sb.nv) sa.nv sb.nv (lt_of_le_of_lt sa.1 sb.2)
      (lt_of_le_of_lt sb.1 sa.2)).resolve_right hn
  obtain ⟨A, B, hAB, hA, hB⟩ : ∃ A B, sd = A ++ B ∧ sd.takeWhile (fun e => lessHE x false e.1.1 a.1.1) = A ∧ ∀ b B', B = b :: B' → lessHE x false b.1.1 a.1.1 = false := by
    refine ⟨_, sd.dropWhile (fun e => lessHE x false e.1.1 a.1.1), (List.takeWhile_append_dropWhile).symm, rfl, ?_⟩
    intro b B' h
    have := List.head?_dropWhile_not (p := fun e : V × Nat => lessHE x false e.1.1 a.1.1) (l := sd)
    rw [h] at this
    simpa using this
  have hlow : ∀ b ∈ A, Lt b.1.1 a.1.1 := by
    intro b hb
    have hbs : b ∈ sd := by rw [hAB]; exact List.mem_append_left _ hb
    rw [← hA] at hb
    exact (hless b hbs).1.1 (List.mem_takeWhile_imp (p := fun e : V × Nat => lessHE x false e.1.1 a.1.1) hb)
  have heq : insertEl x sd a = A ++ a :: B := by
    unfold insertEl
    dsimp only
    rw [hA]
    rcases B with _ | ⟨b, B⟩
    · rw [hAB]; simp
    · have hb : b ∈ sd := by rw [hAB]; simp
      have h1 : sd[A.length]? = some b := by rw [hAB]; simp
      rw [h1]
      dsimp only
      have h2 : ¬ Lt b.1.1 a.1.1 := by rw [← (hless b hb).1, hB b B rfl]; simp
      rw [if_pos ((hless b hb).2.2 (hor b hb h2)), hAB]
      simp
  have hhigh : ∀ b ∈ B, Lt a.1.1 b.1.1 := by
    rcases B with _ | ⟨d, B⟩
    · simp
    · have hcm : d ∈ sd := by rw [hAB]; simp
      have hac : Lt a.1.1 d.1.1 := by
        apply hor d hcm
        rw [← (hless d hcm).1, hB d B rfl]; simp
      intro b hb
      rcases List.mem_cons.1 hb with rfl | hb'
      · exact hac
      · have hp := hsrt
        rw [hAB, List.pairwise_append, List.pairwise_cons] at hp
        have hbm : b ∈ sd := by rw [hAB]; simp [hb']
        exact lt_trans_at hG ha (hm d hcm).1 (hm b hbm).1 sa (hm d hcm).2 (hm b hbm).2 hac (hp.2.1.1 b hb')
  rw [heq]
  constructor
  · rw [hAB, List.pairwise_append] at hsrt
    rw [List.pairwise_append]
    refine ⟨hsrt.1, List.pairwise_cons.2 ⟨hhigh, hsrt.2.1⟩, ?_⟩
    intro b hb d hd
    rcases List.mem_cons.1 hd with rfl | hd
    · exact hlow b hb
    · exact hsrt.2.2 b hb d hd
  · rw [hAB]; exact List.perm_middle

theorem foldEl {E : List Ev} (hG : Good E) {x : Int} : ∀ (ins : List (V × Nat)) (sd : List (V × Nat)), sd.Pairwise (fun a b => Lt a.1.1 b.1.1) →
    (∀ b ∈ sd, Has E b.1.1 ∧ RSpan x b.1.1) → (∀ a ∈ ins, Has E a.1.1 ∧ RSpan x a.1.1 ∧ a.1.1.1.1 = x) → (ins.map (fun a => a.1.1)).Nodup →
    (∀ b ∈ sd, b.1.1 ∉ ins.map (fun a => a.1.1)) →
    (ins.foldl (insertEl x) sd).Pairwise (fun a b => Lt a.1.1 b.1.1) ∧ (ins.foldl (insertEl x) sd).Perm (ins ++ sd)
  | [], sd, h, _, _, _, _ => ⟨h, List.Perm.refl _⟩
  | a :: ins, sd, h, hm, hi, hnd, hnot => by
    obtain ⟨ha, sa, hx⟩ := hi a List.mem_cons_self
    have hnd' := List.nodup_cons.1 (by simpa only [List.map_cons] using hnd)
    obtain ⟨s1, s2⟩ := insertEl_spec hG h hm ha sa hx (fun b hb hc => hnot b hb (by rw [hc]; simp))
    have hmem : ∀ b ∈ insertEl x sd a, b = a ∨ b ∈ sd := fun b hb => List.mem_cons.1 (s2.mem_iff.1 hb)
    have ih := foldEl hG ins (insertEl x sd a) s1 (by
      intro b hb
      rcases hmem b hb with rfl | hb
      · exact ⟨ha, sa⟩
      · exact hm b hb) (fun b hb => hi b (List.mem_cons_of_mem _ hb)) hnd'.2 (by
      intro b hb
      rcases hmem b hb with rfl | hb
      · exact hnd'.1
      · intro hc; exact hnot b hb (by rw [List.map_cons]; exact List.mem_cons_of_mem _ hc))
    rw [List.foldl_cons]
    refine ⟨ih.1, ih.2.trans ?_⟩
    exact (List.Perm.append_left ins s2).trans (List.perm_middle.trans (List.Perm.refl _))

/-- The state between two columns. -/
structure SInv (D : List V) (dn : Pt → Bool) (L : List V) (sd : List (V × Nat)) (H : Heap) (out : List Poly) : Prop where
  ev : Events D dn L
  col : ∀ q r, Vertex (evs D) q → Vertex (evs D) r → dn q = true → dn r = false → q.1 < r.1
  keys : (sd.map Prod.fst).Perm (D.filter (fun e => dn e.1.1 && !dn e.1.2))
  srt : sd.Pairwise (fun a b => Lt a.1.1 b.1.1)
  web : Web H (sd.map en) none out ((D.filter (fun e => dn e.1.2)).map solidLeft)

theorem points_spec {D : List V} (c : Clean D) {x : Int} {sd : List (V × Nat)} (hc : Col D x sd) (n : Nat) (dn : Pt → Bool) (s : ES) (F : Option Nat) (W : Option (V × Nat))
    (m : MidC D x sd dn s F W) (st : St D x sd dn s F W) (h : s.evs.length < n) :
      ∃ s' dn', points x sd n s = some s' ∧ MidC D x sd dn' s' none none ∧ (∀ q, Vertex (evs D) q → q.1 = x → dn' q = true) ∧ s'.evs.length ≤ s.evs.length ∧
        (∀ ev r, s.evs = ev :: r → ev.1.1.1 = x → s'.evs.length < s.evs.length) := by
  obtain ⟨s', dn', h1, h2, -, h3⟩ := points_gen (I := fun _ _ _ _ => True) (fun dn s F W ev r m st hev hx _ => by
    obtain ⟨s', F', W', h1, h2, h3, h4⟩ := onePoint_spec c hc m st hev hx
    exact ⟨s', F', W', h1, h2, h3, h4, True.intro⟩) n dn s F W m st True.intro h
  exact ⟨s', dn', h1, h2, h3⟩

/-- A column, with something that each of its points keeps. -/
theorem event_gen {D : List V} (c : Clean D) {dn : Pt → Bool} {ev : V} {r : List V} {sd : List (V × Nat)} {H : Heap} {out : List Poly} (h : SInv D dn (ev :: r) sd H out)
    {I : (Pt → Bool) → ES → Option Nat → Option (V × Nat) → Prop} (step : Col D ev.1.1.1 sd → Keeps D ev.1.1.1 sd I)
    (i0 : I dn ⟨ev :: r, H, out, [], none, ((0, 0), 0), []⟩ none none) :
    ∃ L' sd' H' out' dn', processEvent ev.1.1.1 (ev :: r) sd H out = some (L', sd', H', out') ∧ L'.length < (ev :: r).length ∧ SInv D dn' L' sd' H' out' ∧
      ∃ s', I dn' s' none none ∧ s'.H = H' ∧ s'.out = out' ∧ sd'.Perm (sd.filter (fun a => !dn' a.1.1.2) ++ s'.els) ∧
        ∀ q, Vertex (evs D) q → (dn' q = true ↔ q.1 ≤ ev.1.1.1) := by
  have hev := h.ev.mem (e := ev) List.mem_cons_self
  have hdir : ∀ e ∈ D, Arb.Directed e.1 := fun e he => c.good.dirE (Has.evs he)
  have hlo : ∀ q, Vertex (evs D) q → q.1 < ev.1.1.1 → dn q = true := by
    intro q hq hlt
    by_contra hn
    rcases h.ev.first hq (by simpa using hn) with g | g
    · rw [g] at hlt; omega
    · unfold plt at g; omega
  have hhi : ∀ q, Vertex (evs D) q → dn q = true → q.1 < ev.1.1.1 := fun q hq hd => h.col q _ hq hev.1 hd hev.2
  have hdn : ∀ q, Vertex (evs D) q → (dn q = true ↔ q.1 < ev.1.1.1) := fun q hq => ⟨hhi q hq, hlo q hq⟩
  generalize hxx : ev.1.1.1 = x at *
  have hspan : ∀ e ∈ D, (dn e.1.1 && !dn e.1.2) = decide (LSpan x e.1) := by
    intro e he
    have h1 := hdn _ (vertex_1 he)
    have h2 := hdn _ (vertex_2 he)
    rw [Bool.eq_iff_iff]
    simp only [Bool.and_eq_true, Bool.not_eq_true', decide_eq_true_eq, LSpan]
    rw [h1, ← Bool.not_eq_true, h2]
    omega
  have hc : Col D x sd := ⟨h.keys.trans (List.Perm.of_eq (List.filter_congr hspan)), h.srt⟩
  have hsdn : ∀ a ∈ sd, dn a.1.1.2 = false := by
    intro a ha
    obtain ⟨h1, h2⟩ := hc.mem ha
    have := hspan _ h1
    rw [decide_eq_true h2] at this
    simp only [Bool.and_eq_true, Bool.not_eq_true'] at this
    exact this.2
  have m0 : MidC D x sd dn ⟨ev :: r, H, out, [], none, ((0, 0), 0), []⟩ none none := by
    refine ⟨h.ev, hlo, fun q hq hd => (hhi q hq hd).le, ?_, ?_, ?_, ?_⟩
    · intro a ha
      simp [hsdn a ha]
    · dsimp only
      rw [List.filter_eq_nil_iff.2]
      · exact List.Perm.refl _
      · intro e he
        simp only [Bool.and_eq_true, decide_eq_true_eq, not_and]
        intro g hd
        have := hhi _ (vertex_1 he) hd
        omega
    · dsimp only
      rw [List.filter_eq_self.2 (by intro a ha; rw [hsdn a ha]; rfl)]
      simpa using h.web
    · intro e he h1 _ hd
      have := hhi _ (vertex_1 he) hd
      omega
  obtain ⟨s', dn', e1, m, im, hall, hlen, hlt⟩ := points_gen (step hc) ((ev :: r).length + 1) dn _ none none m0 (Or.inl ⟨rfl, rfl, rfl⟩) i0 (by simp)
  have hlt := hlt ev r rfl hxx
  have hdn' : ∀ q, Vertex (evs D) q → (dn' q = true ↔ q.1 ≤ x) := by
    intro q hq
    refine ⟨m.hi q hq, fun hle => ?_⟩
    rcases lt_or_eq_of_le hle with g | g
    · exact m.lo q hq g
    · exact hall q hq g
  have hrm : sd.filter (fun a => !s'.rm.contains a.1.1) = sd.filter (fun a => !dn' a.1.1.2) := by
    apply List.filter_congr
    intro a ha
    have := m.rm a ha
    rw [Bool.eq_iff_iff]
    simp only [Bool.not_eq_true', List.contains_eq_mem, decide_eq_false_iff_not]
    rw [this, Bool.not_eq_true]
  have hels : ∀ a ∈ s'.els, a.1 ∈ D ∧ a.1.1.1.1 = x ∧ a.1.1.2.1 ≠ x := by
    intro a ha
    have := List.mem_filter.1 (m.els.mem_iff.1 (List.mem_map.2 ⟨a, ha, rfl⟩))
    refine ⟨this.1, ?_⟩
    have h2 := this.2
    simp only [Bool.and_eq_true, decide_eq_true_eq] at h2
    exact h2.1
  have hsd2 : ∀ b ∈ sd.filter (fun a => !dn' a.1.1.2), b.1 ∈ D ∧ b.1.1.1.1 < x ∧ x < b.1.1.2.1 := by
    intro b hb
    obtain ⟨h1, h2⟩ := List.mem_filter.1 hb
    obtain ⟨h3, h4⟩ := hc.mem h1
    have h5 := hdn' _ (vertex_2 h3)
    refine ⟨h3, h4.1, ?_⟩
    by_contra hn
    rw [h5.2 (by omega)] at h2
    simp at h2
  have hnd : (s'.els.map (fun a => a.1.1)).Nodup := by
    have : s'.els.map (fun a => a.1.1) = (s'.els.map Prod.fst).map Prod.fst := by rw [List.map_map]; rfl
    rw [this, (m.els.map Prod.fst).nodup_iff]
    exact c.nd.sublist (List.Sublist.map _ List.filter_sublist)
  obtain ⟨f1, f2⟩ := foldEl c.good (x := x) s'.els (sd.filter (fun a => !dn' a.1.1.2)) (h.srt.sublist List.filter_sublist)
    (fun b hb => ⟨Has.evs (hsd2 b hb).1, (hsd2 b hb).2.1.le, (hsd2 b hb).2.2⟩)
    (by
      intro a ha
      obtain ⟨h1, h2, h3⟩ := hels a ha
      have := hdir _ h1
      refine ⟨Has.evs h1, ⟨h2.le, ?_⟩, h2⟩
      rcases this with g | g <;> omega)
    hnd
    (by
      intro b hb hin
      obtain ⟨a, ha, e⟩ := List.mem_map.1 hin
      have h1 := (hels a ha).2.1
      have h2 := (hsd2 b hb).2.1
      rw [e] at h1
      omega)
  refine ⟨s'.evs, s'.els.foldl (insertEl x) (sd.filter (fun a => !dn' a.1.1.2)), s'.H, s'.out, dn', ?_, hlt, ⟨?_, ?_, ?_, ?_, ?_⟩, s', im, rfl, rfl, f2.trans List.perm_append_comm, hdn'⟩
  · unfold processEvent
    rw [e1]
    dsimp only [Option.bind_eq_bind, Option.bind_some]
    rw [hrm]
  · exact m.ev
  · intro q r' hq hr h1 h2
    have := (hdn' q hq).1 h1
    have h3 : ¬ r'.1 ≤ x := by rw [← hdn' r' hr, h2]; simp
    omega
  · refine (f2.map Prod.fst).trans ?_
    rw [List.map_append]
    have h1 := filter_or_perm D (fun e => decide (e.1.1.1 = x ∧ e.1.2.1 ≠ x) && dn' e.1.1) (fun e => decide (LSpan x e.1) && !dn' e.1.2) (by
      intro e _ he
      simp only [Bool.and_eq_true, decide_eq_true_eq] at he
      rw [Bool.and_eq_false_iff]
      left
      simp only [decide_eq_false_iff_not, LSpan]
      omega)
    refine (List.Perm.append m.els ?_).trans (h1.symm.trans (List.Perm.of_eq (List.filter_congr ?_)))
    · have h2 := hc.keys.filter (fun e : V => !dn' e.1.2)
      rw [List.filter_filter, List.filter_map] at h2
      refine List.Perm.trans (List.Perm.of_eq rfl) (h2.trans (List.Perm.of_eq (List.filter_congr ?_)))
      intro e _
      rw [Bool.and_comm]
    · intro e he
      have g1 := hdn' _ (vertex_1 he)
      have g2 := hdn' _ (vertex_2 he)
      have g3 := hdir e he
      rw [Bool.eq_iff_iff]
      simp only [Bool.or_eq_true, Bool.and_eq_true, Bool.not_eq_true', decide_eq_true_eq, LSpan]
      rw [g1, ← Bool.not_eq_true, g2]
      rcases g3 with g3 | g3 <;> omega
  · exact f1
  · refine m.web.permA ?_
    refine List.Perm.trans ?_ (f2.map en).symm
    rw [List.map_append]
    simp only [Option.toList_none, List.map_nil, List.append_nil]
    exact List.perm_append_comm

theorem event_spec {D : List V} (c : Clean D) {dn : Pt → Bool} {ev : V} {r : List V} {sd : List (V × Nat)} {H : Heap} {out : List Poly} (h : SInv D dn (ev :: r) sd H out) :
    ∃ L' sd' H' out' dn', processEvent ev.1.1.1 (ev :: r) sd H out = some (L', sd', H', out') ∧ L'.length < (ev :: r).length ∧ SInv D dn' L' sd' H' out' := by
  obtain ⟨L', sd', H', out', dn', h1, h2, h3, -⟩ := event_gen c h (I := fun _ _ _ _ => True) (fun hc dn s F W ev r m st hev hx _ => by
    obtain ⟨s', F', W', h1, h2, h3, h4⟩ := onePoint_spec c hc m st hev hx
    exact ⟨s', F', W', h1, h2, h3, h4, True.intro⟩) True.intro
  exact ⟨L', sd', H', out', dn', h1, h2, h3⟩

theorem scan_done {D : List V} {dn : Pt → Bool} {sd : List (V × Nat)} {H : Heap} {out : List Poly} (h : SInv D dn [] sd H out) :
    Web H [] none out (D.map solidLeft) := by
  have hd : ∀ q, Vertex (evs D) q → dn q = true := by
    intro q hq
    by_contra hn
    obtain ⟨e, he, _⟩ := h.ev.todo hq (by simpa using hn)
    simp at he
  have h1 : sd = [] := by
    have := h.keys
    rw [List.filter_eq_nil_iff.2 (by intro e he; simp [hd _ (vertex_2 he)])] at this
    exact List.map_eq_nil_iff.1 this.eq_nil
  have h2 := h.web
  rw [h1, List.filter_eq_self.2 (fun e he => hd _ (vertex_2 he))] at h2
  exact h2

theorem scan_spec {D : List V} (c : Clean D) : ∀ (n : Nat) (dn : Pt → Bool) (L : List V) (sd : List (V × Nat)) (H : Heap) (out : List Poly), SInv D dn L sd H out →
    L.length ≤ n → ∃ out' H', scan n L sd H out = some out' ∧ Web H' [] none out' (D.map solidLeft) := by
  intro n
  induction n with
  | zero =>
    intro dn L sd H out h hl
    have hL : L = [] := List.length_eq_zero_iff.1 (by omega)
    subst hL
    exact ⟨out, H, by rw [scan], scan_done h⟩
  | succ n ih =>
    intro dn L sd H out h hl
    rcases L with _ | ⟨ev, r⟩
    · exact ⟨out, H, by rw [scan], scan_done h⟩
    · obtain ⟨L', sd', H', out', dn', e1, hlt, h'⟩ := event_spec c h
      rw [scan, e1]
      exact ih dn' L' sd' H' out' h' (by omega)

/-- The key by which the half edges are sorted. -/
def vkey (a : V) : Int ×ₗ Int ×ₗ WithTop ℚ := toLex (a.1.1.1, toLex (a.1.1.2, sl (a.1.2.1 - a.1.1.1) (a.1.2.2 - a.1.1.2)))

theorem lessV_key (a b : V) : lessV a b = true ↔ vkey a < vkey b := by
  unfold lessV vkey
  rw [Prod.Lex.toLex_lt_toLex, Prod.Lex.toLex_lt_toLex]
  by_cases h1 : a.1.1.1 < b.1.1.1
  · simp [h1]
  · rw [if_neg h1]
    by_cases h2 : a.1.1.1 = b.1.1.1
    · rw [if_pos h2]
      by_cases h3 : a.1.1.2 < b.1.1.2
      · simp [h2, h3]
      · rw [if_neg h3]
        by_cases h4 : a.1.1.2 = b.1.1.2
        · rw [if_pos h4]
          unfold Arb.lessSlope
          rw [lessSlopeD_sl, h2, h4]
          simp
        · rw [if_neg h4]
          simp [h2, h3, h4]
    · rw [if_neg h2]
      simp [h1, h2]

theorem form_spec {D : List V} (c : Clean D) : ∃ out, form D = some out ∧ (out.flatMap Poly.sides).Perm (D.map solidLeft) ∧ ∀ P ∈ out, Ring P.outer ∧ ∀ h ∈ P.holes, Ring h := by
  have h0 : SInv D (fun _ => false) (isort lessV (halves D)) [] Heap.init [] := by
    refine ⟨⟨?_, ?_, ?_⟩, ?_, ?_, List.Pairwise.nil, ?_⟩
    · rw [List.filter_eq_self.2 (by simp)]
      exact isort_perm _ _
    · refine (isort_sorted vkey _ (fun a _ b _ => lessV_key a b)).imp ?_
      intro a b h
      unfold vkey at h
      rw [Prod.Lex.toLex_le_toLex, Prod.Lex.toLex_le_toLex] at h
      dsimp only at h
      rw [← Bool.not_eq_true, Contains.lessPoint_iff]
      omega
    · simp
    · simp
    · simp
    · refine ⟨[], ?_, by simp⟩
      refine ⟨List.nodup_nil, List.nodup_nil, by simp, by simp, by simp, by simp, by simp, ?_, ?_, by simp⟩
      · simp [closedHoles, float]
      · simp [closedHoles, float]
  obtain ⟨out, H, e, C, w, hp⟩ := scan_spec c _ _ _ _ _ _ h0 le_rfl
  have hC : C = [] := by
    rcases C with _ | ⟨c, C⟩
    · rfl
    · have := hp.symm.eq_nil
      rw [List.flatMap_cons] at this
      simp [Chain.ends] at this
  subst hC
  refine ⟨out, e, ?_, w.ok⟩
  have := w.acc
  simpa [closedHoles, float] using this

end Verif.ArbForm
