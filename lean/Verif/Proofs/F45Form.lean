import Verif.Proofs.F45Point
/-!
# The 45-degree formation follows the formation at any angle: columns and the whole sweep
-/
namespace Verif.F45
open Verif.ArbForm Verif.Arb
open Verif.Contains (lessPoint)
open Verif.Deg45 (V45 Quad)
open Verif.Set45 (VC)

theorem points_sim {E : List VC} {D : List V} (d : Der E D) (c : Clean D) {x : Int} {sd : List (V × Nat)} (hc : Col D x sd) :
    ∀ (n : Nat) (dn : Pt → Bool) (s : ES) (F : Option Nat) (W : Option (V × Nat)), MidC D x sd dn s F W → St D x sd dn s F W → ∀ (s' : Form45.ES), ER E sd s' s →
      ∀ t, points x sd n s = some t → ∀ n', s'.evs.length < n' →
      ∃ t', Form45.points x (sd.map phi) n' s' = some t' ∧ ER E sd t' t ∧ t'.evs.length ≤ s'.evs.length ∧
        (∀ ev r, s.evs = ev :: r → ev.1.1.1 = x → t'.evs.length < s'.evs.length)
  | 0, _, _, _, _, _, _, _, _, _, h, _, _ => by cases h
  | n + 1, dn, s, F, W, m, st, s', her, t, h, n', hn' => by
    obtain ⟨n', rfl⟩ : ∃ k, n' = k + 1 := ⟨n' - 1, by omega⟩
    unfold points at h
    unfold Form45.points
    rcases hev : s.evs with _ | ⟨ev, r⟩
    · rw [hev] at h
      cases h
      have : s'.evs = [] := by rw [her.evs, hev, todo_nil]
      rw [this]
      exact ⟨s', rfl, her, by rw [this], by simp⟩
    · rw [hev] at h
      dsimp only at h
      have hE : Events D dn (ev :: r) := hev ▸ m.ev
      obtain ⟨v, hvE, hvp, htd⟩ := todo_cons d hE
      have htd' : s'.evs = v :: todo E ((ev :: r).dropWhile (fun e => decide (e.1.1 = ev.1.1))) := by rw [her.evs, hev, htd]
      by_cases hx : ev.1.1.1 = x
      · rw [if_pos hx] at h
        obtain ⟨s1, F', W', e1, hl, m', st'⟩ := onePoint_spec c hc m st hev hx
        rw [e1] at h
        obtain ⟨s1', k1, k2, k3⟩ := onePoint_sim d c hc m st hev hx her e1
        obtain ⟨t', j1, j2, j3, -⟩ := points_sim d c hc n _ s1 F' W' m' st' s1' k2 t h n' (by omega)
        refine ⟨t', ?_, j2, by omega, fun _ _ _ _ => by omega⟩
        rw [htd']
        dsimp only
        rw [hvp, if_pos hx, k1]
        exact j1
      · rw [if_neg hx] at h
        cases h
        refine ⟨s', ?_, her, le_rfl, ?_⟩
        · rw [htd']
          dsimp only
          rw [hvp, if_neg hx]
        · intro ev' r' he hx'
          obtain ⟨rfl, rfl⟩ := List.cons.inj he
          exact absurd hx' hx

theorem insertEl_sim {x : Int} {sd : List (V × Nat)} {a : V × Nat} (h1 : ∀ b ∈ sd, Form45.less x false (phi b).1 (phi a).1 = lessHE x false b.1.1 a.1.1)
    (h2 : ∀ b ∈ sd, Form45.less x false (phi a).1 (phi b).1 = lessHE x false a.1.1 b.1.1) :
    Form45.insertEl x (sd.map phi) (phi a) = (insertEl x sd a).map phi := by
  have ht : ((sd.map phi).takeWhile (fun e => Form45.less x false e.1 (phi a).1)).length = (sd.takeWhile (fun e => lessHE x false e.1.1 a.1.1)).length := by
    clear h2
    induction sd with
    | nil => rfl
    | cons b sd ih =>
      have hb := h1 b List.mem_cons_self
      rw [List.map_cons]
      by_cases c : lessHE x false b.1.1 a.1.1 = true
      · rw [List.takeWhile_cons_of_pos (by rw [hb]; exact c), List.takeWhile_cons_of_pos (p := fun e : V × Nat => lessHE x false e.1.1 a.1.1) (a := b) c, List.length_cons, List.length_cons,
          ih (fun e he => h1 e (List.mem_cons_of_mem _ he))]
      · rw [List.takeWhile_cons_of_neg (by rw [hb]; exact c), List.takeWhile_cons_of_neg (p := fun e : V × Nat => lessHE x false e.1.1 a.1.1) (a := b) c]; rfl
  unfold Form45.insertEl insertEl
  dsimp only
  rw [ht]
  generalize (sd.takeWhile (fun e => lessHE x false e.1.1 a.1.1)).length = i
  rw [List.getElem?_map]
  rcases hb : sd[i]? with _ | b
  · simp
  · simp only [Option.map_some]
    rw [h2 b (List.mem_of_getElem? hb)]
    by_cases c : lessHE x false a.1.1 b.1.1 = true
    · rw [if_pos c, if_pos c]; simp
    · rw [if_neg c, if_neg c]

theorem foldEl_sim {Ev : List Arb.Ev} (hG : Good Ev) {x : Int} : ∀ (ins : List (V × Nat)) (sd : List (V × Nat)), sd.Pairwise (fun a b => Lt a.1.1 b.1.1) →
    (∀ b ∈ sd, (Has Ev b.1.1 ∧ RSpan x b.1.1) ∧ Oct2 b.1.1.1 b.1.1.2) → (∀ a ∈ ins, (Has Ev a.1.1 ∧ RSpan x a.1.1 ∧ a.1.1.1.1 = x) ∧ Oct2 a.1.1.1 a.1.1.2) →
    (ins.map (fun a => a.1.1)).Nodup → (∀ b ∈ sd, b.1.1 ∉ ins.map (fun a => a.1.1)) →
    (ins.map phi).foldl (Form45.insertEl x) (sd.map phi) = (ins.foldl (insertEl x) sd).map phi
  | [], sd, _, _, _, _, _ => rfl
  | a :: ins, sd, h, hm, hi, hnd, hnot => by
    obtain ⟨⟨ha, sa, hx⟩, oa⟩ := hi a List.mem_cons_self
    have hnd' := List.nodup_cons.1 (by simpa only [List.map_cons] using hnd)
    have hne : ∀ b ∈ sd, b.1.1 ≠ a.1.1 := fun b hb hc => hnot b hb (by rw [hc]; simp)
    obtain ⟨s1, s2⟩ := insertEl_spec hG h (fun b hb => (hm b hb).1) ha sa hx hne
    have hmem : ∀ b ∈ insertEl x sd a, b = a ∨ b ∈ sd := fun b hb => List.mem_cons.1 (s2.mem_iff.1 hb)
    have ih := foldEl_sim hG ins (insertEl x sd a) s1 (by
      intro b hb
      rcases hmem b hb with rfl | hb
      · exact ⟨⟨ha, sa⟩, oa⟩
      · exact hm b hb) (fun b hb => hi b (List.mem_cons_of_mem _ hb)) hnd'.2 (by
      intro b hb
      rcases hmem b hb with rfl | hb
      · exact hnd'.1
      · intro hc; exact hnot b hb (by rw [List.map_cons]; exact List.mem_cons_of_mem _ hc))
    rw [List.map_cons, List.foldl_cons, List.foldl_cons, insertEl_sim, ih]
    · intro b hb
      obtain ⟨⟨bh, bs⟩, bo⟩ := hm b hb
      rw [Bool.eq_iff_iff, (less_ins hG ha bh (Ne.symm (hne b hb)) sa bs hx).1]
      exact lt_ins (hG.sep bh ha (hne b hb) (lt_of_le_of_lt bs.1 bs.2) (lt_of_le_of_lt sa.1 sa.2)) bs sa bo oa _ _
    · intro b hb
      obtain ⟨⟨bh, bs⟩, bo⟩ := hm b hb
      rw [Bool.eq_iff_iff, (less_ins hG ha bh (Ne.symm (hne b hb)) sa bs hx).2]
      exact lt_ins (hG.sep ha bh (Ne.symm (hne b hb)) (lt_of_le_of_lt sa.1 sa.2) (lt_of_le_of_lt bs.1 bs.2)) sa bs oa bo _ _

theorem erase_sim {sd : List (V × Nat)} {rm' : List Nat} {rm : List HE} (hnd : rm'.Nodup) (h : ∀ i a, sd[i]? = some a → (i ∈ rm' ↔ a.1.1 ∈ rm)) :
    Form45.eraseAll (sd.map phi) rm' = some ((sd.filter (fun a => !rm.contains a.1.1)).map phi) := by
  unfold Form45.eraseAll
  rw [if_pos hnd]
  congr 1
  have key : ∀ (l : List (V × Nat)) (k : Nat), (∀ i a, l[i]? = some a → (i + k ∈ rm' ↔ a.1.1 ∈ rm)) →
      (((l.map phi).zipIdx k).filter (fun a => !rm'.contains a.2)).map Prod.fst = (l.filter (fun a => !rm.contains a.1.1)).map phi := by
    intro l
    induction l with
    | nil => intro k _; rfl
    | cons a l ih =>
      intro k hk
      have h0 := hk 0 a rfl
      rw [Nat.zero_add] at h0
      have ih := ih (k + 1) (by
        intro i b hb
        have := hk (i + 1) b (by simpa using hb)
        rw [← this]
        have : i + (k + 1) = i + 1 + k := by omega
        rw [this])
      rw [List.map_cons, List.zipIdx_cons]
      by_cases c : a.1.1 ∈ rm
      · rw [List.filter_cons_of_neg (by simpa using h0.2 c), List.filter_cons_of_neg (by simpa using c), ih]
      · rw [List.filter_cons_of_pos (by simpa using fun g => c (h0.1 g)), List.filter_cons_of_pos (by simpa using c), List.map_cons, List.map_cons, ih]
  exact key sd 0 (fun i a ha => by simpa using h i a ha)

theorem event_sim {E : List VC} {D : List V} (d : Der E D) (c : Clean D) {dn : Pt → Bool} {ev : V} {r : List V} {sd : List (V × Nat)} {H H' : Heap} {out out' : List Poly}
    (h : SInv D dn (ev :: r) sd H out) (gH : HR H' H) (go : List.Forall₂ PR out' out) :
    ∃ L1 sd1 H1 out1 dn1 H1' out1', processEvent ev.1.1.1 (ev :: r) sd H out = some (L1, sd1, H1, out1) ∧ SInv D dn1 L1 sd1 H1 out1 ∧ L1.length < (ev :: r).length ∧
      Form45.processEvent ev.1.1.1 (todo E (ev :: r)) (sd.map phi) H' out' = some (todo E L1, sd1.map phi, H1', out1') ∧ HR H1' H1 ∧ List.Forall₂ PR out1' out1 ∧
      (todo E L1).length < (todo E (ev :: r)).length := by
  obtain ⟨L1, sd1, H1, out1, dn1, hpe, hlt1, hinv⟩ := event_spec c h
  have hev := h.ev.mem (e := ev) List.mem_cons_self
  have hdir : ∀ e ∈ D, Spec.Arb.Directed e.1 := fun e he => c.good.dirE (Has.evs he)
  have hlo : ∀ q, Vertex (evs D) q → q.1 < ev.1.1.1 → dn q = true := by
    intro q hq hlt
    by_contra hn
    rcases h.ev.first hq (by simpa using hn) with g | g
    · rw [g] at hlt; omega
    · unfold plt at g; omega
  have hhi : ∀ q, Vertex (evs D) q → dn q = true → q.1 < ev.1.1.1 := fun q hq hd => h.col q _ hq hev.1 hd hev.2
  have hdn : ∀ q, Vertex (evs D) q → (dn q = true ↔ q.1 < ev.1.1.1) := fun q hq => ⟨hhi q hq, hlo q hq⟩
  generalize hxx : ev.1.1.1 = x at *
  have hspan : ∀ e ∈ D, (dn e.1.1 && !dn e.1.2) = decide (LSpan x e.1) := by
    intro e he
    have h1 := hdn _ (vertex_1 he)
    have h2 := hdn _ (vertex_2 he)
    rw [Bool.eq_iff_iff]
    simp only [Bool.and_eq_true, Bool.not_eq_true', decide_eq_true_eq, LSpan]
    rw [h1, ← Bool.not_eq_true, h2]
    omega
  have hc : Col D x sd := ⟨h.keys.trans (List.Perm.of_eq (List.filter_congr hspan)), h.srt⟩
  have hsdn : ∀ a ∈ sd, dn a.1.1.2 = false := by
    intro a ha
    obtain ⟨h1, h2⟩ := hc.mem ha
    have := hspan _ h1
    rw [decide_eq_true h2] at this
    simp only [Bool.and_eq_true, Bool.not_eq_true'] at this
    exact this.2
  have m0 : MidC D x sd dn ⟨ev :: r, H, out, [], none, ((0, 0), 0), []⟩ none none := by
    refine ⟨h.ev, hlo, fun q hq hd => (hhi q hq hd).le, ?_, ?_, ?_, ?_⟩
    · intro a ha
      simp [hsdn a ha]
    · dsimp only
      rw [List.filter_eq_nil_iff.2]
      · exact List.Perm.refl _
      · intro e he
        simp only [Bool.and_eq_true, decide_eq_true_eq, not_and]
        intro g hd
        have := hhi _ (vertex_1 he) hd
        omega
    · dsimp only
      rw [List.filter_eq_self.2 (by intro a ha; rw [hsdn a ha]; rfl)]
      simpa using h.web
    · intro e he h1 _ hd
      have := hhi _ (vertex_1 he) hd
      omega
  have st0 : St D x sd dn ⟨ev :: r, H, out, [], none, ((0, 0), 0), []⟩ none none := Or.inl ⟨rfl, rfl, rfl⟩
  obtain ⟨s', dn', e1, m, hall, hlen, hlt⟩ := points_spec c hc ((ev :: r).length + 1) dn _ none none m0 st0 (by simp)
  have her0 : ER E sd ⟨todo E (ev :: r), H', out', [], none, 0, []⟩ ⟨ev :: r, H, out, [], none, ((0, 0), 0), []⟩ :=
    ⟨rfl, gH, go, rfl, rfl, rfl, by simp, List.nodup_nil⟩
  obtain ⟨t', p1, p2, -, p3⟩ := points_sim d c hc _ dn _ none none m0 st0 _ her0 _ e1 ((todo E (ev :: r)).length + 1) (by simp)
  have p3 := p3 ev r rfl hxx
  -- the insertions
  have hdn' : ∀ q, Vertex (evs D) q → (dn' q = true ↔ q.1 ≤ x) := by
    intro q hq
    refine ⟨m.hi q hq, fun hle => ?_⟩
    rcases lt_or_eq_of_le hle with g | g
    · exact m.lo q hq g
    · exact hall q hq g
  have hrm : sd.filter (fun a => !s'.rm.contains a.1.1) = sd.filter (fun a => !dn' a.1.1.2) := by
    apply List.filter_congr
    intro a ha
    have := m.rm a ha
    rw [Bool.eq_iff_iff]
    simp only [Bool.not_eq_true', List.contains_eq_mem, decide_eq_false_iff_not]
    rw [this, Bool.not_eq_true]
  have hels : ∀ a ∈ s'.els, a.1 ∈ D ∧ a.1.1.1.1 = x ∧ a.1.1.2.1 ≠ x := by
    intro a ha
    have := List.mem_filter.1 (m.els.mem_iff.1 (List.mem_map.2 ⟨a, ha, rfl⟩))
    refine ⟨this.1, ?_⟩
    have h2 := this.2
    simp only [Bool.and_eq_true, decide_eq_true_eq] at h2
    exact h2.1
  have hsd2 : ∀ b ∈ sd.filter (fun a => !s'.rm.contains a.1.1), b.1 ∈ D ∧ b.1.1.1.1 < x ∧ x < b.1.1.2.1 := by
    intro b hb
    rw [hrm] at hb
    obtain ⟨h1, h2⟩ := List.mem_filter.1 hb
    obtain ⟨h3, h4⟩ := hc.mem h1
    have h5 := hdn' _ (vertex_2 h3)
    refine ⟨h3, h4.1, ?_⟩
    by_contra hn
    rw [h5.2 (by omega)] at h2
    simp at h2
  have hnd : (s'.els.map (fun a => a.1.1)).Nodup := by
    have : s'.els.map (fun a => a.1.1) = (s'.els.map Prod.fst).map Prod.fst := by rw [List.map_map]; rfl
    rw [this, (m.els.map Prod.fst).nodup_iff]
    exact c.nd.sublist (List.Sublist.map _ List.filter_sublist)
  have f1 := foldEl_sim c.good (x := x) s'.els (sd.filter (fun a => !s'.rm.contains a.1.1)) (h.srt.sublist List.filter_sublist)
    (fun b hb => ⟨⟨Has.evs (hsd2 b hb).1, (hsd2 b hb).2.1.le, (hsd2 b hb).2.2⟩, d.oct _ (hsd2 b hb).1⟩)
    (by
      intro a ha
      obtain ⟨h1, h2, h3⟩ := hels a ha
      have := hdir _ h1
      refine ⟨⟨Has.evs h1, ⟨h2.le, ?_⟩, h2⟩, d.oct _ h1⟩
      rcases this with g | g <;> omega)
    hnd
    (by
      intro b hb hin
      obtain ⟨a, ha, e⟩ := List.mem_map.1 hin
      have h1 := (hels a ha).2.1
      have h2 := (hsd2 b hb).2.1
      rw [e] at h1
      omega)
  have hpe' : processEvent x (ev :: r) sd H out = some (s'.evs, s'.els.foldl (insertEl x) (sd.filter (fun a => !s'.rm.contains a.1.1)), s'.H, s'.out) := by
    unfold processEvent
    rw [e1]
    rfl
  rw [hpe'] at hpe
  cases hpe
  refine ⟨_, _, _, _, dn1, t'.H, t'.out, hpe', hinv, hlt1, ?_, p2.H, p2.out, ?_⟩
  · unfold Form45.processEvent
    rw [p1]
    dsimp only [Option.bind_eq_bind, Option.bind_some]
    rw [erase_sim p2.nd p2.rm]
    dsimp only [Option.bind_some]
    rw [p2.els, f1, p2.evs]
  · rw [← p2.evs]; exact p3

theorem scan_sim {E : List VC} {D : List V} (d : Der E D) (c : Clean D) : ∀ (n : Nat) (dn : Pt → Bool) (L : List V) (sd : List (V × Nat)) (H H' : Heap) (out out' : List Poly),
    SInv D dn L sd H out → HR H' H → List.Forall₂ PR out' out → ∀ t, scan n L sd H out = some t → ∀ n', (todo E L).length ≤ n' →
    ∃ t', Form45.scan n' (todo E L) (sd.map phi) H' out' = some t' ∧ List.Forall₂ PR t' t := by
  intro n
  induction n with
  | zero =>
    intro dn L sd H H' out out' h gH go t ht n' hn'
    cases L with
    | nil =>
      rw [ArbForm.scan] at ht
      cases ht
      rw [todo_nil]
      exact ⟨out', by rw [Form45.scan], go⟩
    | cons ev r => cases ht
  | succ n ih =>
    intro dn L sd H H' out out' h gH go t ht n' hn'
    cases L with
    | nil =>
      rw [ArbForm.scan] at ht
      cases ht
      rw [todo_nil]
      exact ⟨out', by rw [Form45.scan], go⟩
    | cons ev r =>
      obtain ⟨L1, sd1, H1, out1, dn1, H1', out1', e1, e2, -, e3, e4, e5, e6⟩ := event_sim d c h gH go
      rw [ArbForm.scan, e1] at ht
      obtain ⟨n', rfl⟩ : ∃ k, n' = k + 1 := ⟨n' - 1, by omega⟩
      obtain ⟨t', k1, k2⟩ := ih dn1 L1 sd1 H1 H1' out1 out1' e2 e4 e5 t ht n' (by omega)
      refine ⟨t', ?_, k2⟩
      obtain ⟨v, hvE, hvp, htd⟩ := todo_cons d h.ev
      rw [htd] at e3 ⊢
      rw [Form45.scan, hvp, e3]
      exact k1

/-- The two formations give the same windings. -/
theorem form_sim {E : List VC} {D : List V} (d : Der E D) (c : Clean D) : ∃ out out', ArbForm.form D = some out ∧ Form45.form E = some out' ∧ List.Forall₂ PR out' out := by
  have h0 : SInv D (fun _ => false) (isort lessV (halves D)) [] Heap.init [] := by
    refine ⟨⟨?_, ?_, ?_⟩, ?_, ?_, List.Pairwise.nil, ?_⟩
    · rw [List.filter_eq_self.2 (by simp)]
      exact isort_perm _ _
    · refine (isort_sorted vkey _ (fun a _ b _ => lessV_key a b)).imp ?_
      intro a b h
      unfold vkey at h
      rw [Prod.Lex.toLex_le_toLex, Prod.Lex.toLex_le_toLex] at h
      dsimp only at h
      rw [← Bool.not_eq_true, Contains.lessPoint_iff]
      omega
    · simp
    · simp
    · simp
    · refine ⟨[], ?_, by simp⟩
      refine ⟨List.nodup_nil, List.nodup_nil, by simp, by simp, by simp, by simp, by simp, ?_, ?_, by simp⟩
      · simp [closedHoles, float]
      · simp [closedHoles, float]
  obtain ⟨out, e, -⟩ := form_spec c
  refine ⟨out, ?_⟩
  have hE : todo E (isort lessV (halves D)) = E := by
    unfold todo
    rw [List.filter_eq_self]
    intro v hv
    obtain ⟨e, he, h⟩ := h0.ev.todo ((d.vtx v.1).2 ⟨v, hv, rfl⟩) rfl
    exact decide_eq_true ⟨e, he, h⟩
  obtain ⟨t', k1, k2⟩ := scan_sim d c _ _ _ _ _ Heap.init _ [] h0 (HR.refl _) List.Forall₂.nil out e E.length (by rw [hE])
  rw [hE] at k1
  exact ⟨t', e, k1, k2⟩

end Verif.F45
