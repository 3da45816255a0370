import Verif.Proofs.FrForm
/-!
# Polygons without holes: the whole sweep
-/
namespace Verif.Fr
open Verif.ArbForm Verif.F45 Verif.Arb
open Verif.Deg45 (V45 Quad)
open Verif.Set45 (VC)

theorem points_fr {E : List VC} {D : List V} (d : Der E D) (c : Clean D) {x : Int} {sd : List (V × Nat)} (hc : Col D x sd)
    (hcol : Colors (fun a : V × Nat => a.1.2) 0 sd.reverse 0) (hnd : sd.Nodup) :
    ∀ (n : Nat) (dn : Pt → Bool) (s : ES) (F : Option Nat) (W : Option (V × Nat)), MidC D x sd dn s F W → St D x sd dn s F W → ∀ (s0 : Form45.ES), ER E sd s0 s →
      ∀ (τ : V × Nat → Nat) (φ : Nat → Nat) (K : List (Chain × Chain)) (sd' : List (V45 × Nat)) (s' : Form45.ES), FI x sd dn τ φ K sd' s' s0 →
      ∀ t, points x sd n s = some t → ∀ n', s0.evs.length < n' →
      ∃ t0 dn1 F1 W1 τ1 φ1 K1 sd1 t', Form45.points x (sd.map phi) n' s0 = some t0 ∧ Frac45.points x n' sd' s' = some (sd1, t') ∧ ER E sd t0 t ∧ MidC D x sd dn1 t F1 W1 ∧
        FI x sd dn1 τ1 φ1 K1 sd1 t' t0
  | 0, _, _, _, _, _, _, _, _, _, _, _, _, _, _, _, h, _, _ => by cases h
  | n + 1, dn, s, F, W, m, st, s0, her, τ, φ, K, sd', s', f, t, h, n', hn' => by
    obtain ⟨n', rfl⟩ : ∃ k, n' = k + 1 := ⟨n' - 1, by omega⟩
    unfold points at h
    unfold Form45.points Frac45.points
    rw [f.evs]
    rcases hev : s.evs with _ | ⟨ev, r⟩
    · rw [hev] at h
      cases h
      have : s0.evs = [] := by rw [her.evs, hev, todo_nil]
      rw [this]
      exact ⟨s0, dn, F, W, τ, φ, K, sd', s', rfl, rfl, her, m, f⟩
    · rw [hev] at h
      dsimp only at h
      have hE : Events D dn (ev :: r) := hev ▸ m.ev
      obtain ⟨v, hvE, hvp, htd⟩ := todo_cons d hE
      have htd' : s0.evs = v :: todo E ((ev :: r).dropWhile (fun e => decide (e.1.1 = ev.1.1))) := by rw [her.evs, hev, htd]
      by_cases hx : ev.1.1.1 = x
      · rw [if_pos hx] at h
        obtain ⟨s1, F', W', e1, hl, m', st'⟩ := onePoint_spec c hc m st hev hx
        rw [e1] at h
        obtain ⟨s1', k1, k2, k3⟩ := onePoint_sim d c hc m st hev hx her e1
        obtain ⟨τ2, φ2, K2, sd2, t2, g1, g2⟩ := onePoint_fr d c hc m st hev hx her hcol hnd f k1
        obtain ⟨t0, dn1, F1, W1, τ1, φ1, K1, sd1, t', j1, j2, j3⟩ := points_fr d c hc hcol hnd n _ s1 F' W' m' st' s1' k2 τ2 φ2 K2 sd2 t2 g2 t h n' (by omega)
        refine ⟨t0, dn1, F1, W1, τ1, φ1, K1, sd1, t', ?_, ?_, j3⟩
        · rw [htd']
          dsimp only
          rw [hvp, if_pos hx, k1]
          exact j1
        · rw [htd']
          dsimp only
          rw [hvp, if_pos hx, g1]
          exact j2
      · rw [if_neg hx] at h
        cases h
        refine ⟨s0, dn, F, W, τ, φ, K, sd', s', ?_, ?_, her, m, f⟩
        · rw [htd']
          dsimp only
          rw [hvp, if_neg hx]
        · rw [htd']
          dsimp only
          rw [hvp, if_neg hx]

theorem insertEl_mt (φ : Nat → Nat) (x : Int) (L : List (V45 × Nat)) (a : V45 × Nat) : Form45.insertEl x (L.map (mt φ)) (mt φ a) = (Form45.insertEl x L a).map (mt φ) := by
  unfold Form45.insertEl
  dsimp only
  rw [List.takeWhile_map, List.length_map, List.getElem?_map]
  have : (L.takeWhile ((fun e : V45 × Nat => Form45.less x false e.1 (mt φ a).1) ∘ mt φ)).length = (L.takeWhile (fun e => Form45.less x false e.1 a.1)).length := rfl
  rw [this]
  generalize (L.takeWhile (fun e => Form45.less x false e.1 a.1)).length = i
  rcases hb : L[i]? with _ | b
  · simp
  · simp only [Option.map_some]
    have : (mt φ a).1 = a.1 := rfl
    rw [this]
    have : (mt φ b).1 = b.1 := rfl
    rw [this]
    by_cases c : Form45.less x false a.1 b.1 = true
    · rw [if_pos c, if_pos c]; simp
    · rw [if_neg c, if_neg c]

theorem foldEl_mt (φ : Nat → Nat) (x : Int) : ∀ (M L : List (V45 × Nat)), (M.map (mt φ)).foldl (Form45.insertEl x) (L.map (mt φ)) = (M.foldl (Form45.insertEl x) L).map (mt φ)
  | [], _ => rfl
  | a :: M, L => by rw [List.map_cons, List.foldl_cons, List.foldl_cons, insertEl_mt, foldEl_mt]

theorem erase_g {β : Type} (g : β → V45 × Nat) {sd : List β} {rm' : List Nat} {P : β → Bool} (hnd : rm'.Nodup) (h : ∀ i a, sd[i]? = some a → (i ∈ rm' ↔ P a = true)) :
    Form45.eraseAll (sd.map g) rm' = some ((sd.filter (fun a => !P a)).map g) := by
  unfold Form45.eraseAll
  rw [if_pos hnd]
  congr 1
  have key : ∀ (l : List β) (k : Nat), (∀ i a, l[i]? = some a → (i + k ∈ rm' ↔ P a = true)) →
      (((l.map g).zipIdx k).filter (fun a => !rm'.contains a.2)).map Prod.fst = (l.filter (fun a => !P a)).map g := by
    intro l
    induction l with
    | nil => intro k _; rfl
    | cons a l ih =>
      intro k hk
      have h0 := hk 0 a rfl
      rw [Nat.zero_add] at h0
      have ih := ih (k + 1) (by
        intro i b hb
        have := hk (i + 1) b (by simpa using hb)
        rw [← this]
        have : i + (k + 1) = i + 1 + k := by omega
        rw [this])
      rw [List.map_cons, List.zipIdx_cons]
      by_cases c : P a = true
      · rw [List.filter_cons_of_neg (by simpa using h0.2 c), List.filter_cons_of_neg (by simpa using c), ih]
      · rw [List.filter_cons_of_pos (by simpa using fun g => c (h0.1 g)), List.filter_cons_of_pos (by simpa using c), List.map_cons, List.map_cons, ih]
  exact key sd 0 (fun i a ha => by simpa using h i a ha)

theorem event_fr {E : List VC} {D : List V} (d : Der E D) (c : Clean D) {dn : Pt → Bool} {ev : V} {r : List V} {sd : List (V × Nat)} {H H' H2 : Heap} {out out' out2 : List Poly}
    (h : SInv D dn (ev :: r) sd H out) (gH : HR H' H) (go : List.Forall₂ PR out' out) (hcol : Colors (fun a : V × Nat => a.1.2) 0 sd.reverse 0)
    {φ : Nat → Nat} {K : List (Chain × Chain)} (sm : Sim H2 H' φ K) (en : Ends H2 H' φ K (sd.map phi)) (g2 : List.Forall₂ FP out2 out') {L1 : List V} {sd1 : List (V × Nat)} {H1 H1' : Heap}
    {out1 out1' : List Poly} (hpe : processEvent ev.1.1.1 (ev :: r) sd H out = some (L1, sd1, H1, out1))
    (hpe' : Form45.processEvent ev.1.1.1 (todo E (ev :: r)) (sd.map phi) H' out' = some (todo E L1, sd1.map phi, H1', out1')) :
    ∃ φ1 K1 H12 out12, Frac45.processEvent ev.1.1.1 (todo E (ev :: r)) ((sd.map phi).map (mt φ)) H2 out2 = some (todo E L1, (sd1.map phi).map (mt φ1), H12, out12) ∧
      Sim H12 H1' φ1 K1 ∧ Ends H12 H1' φ1 K1 (sd1.map phi) ∧ List.Forall₂ FP out12 out1' := by
  have hev := h.ev.mem (e := ev) List.mem_cons_self
  have hlo : ∀ q, Vertex (evs D) q → q.1 < ev.1.1.1 → dn q = true := by
    intro q hq hlt
    by_contra hn
    rcases h.ev.first hq (by simpa using hn) with g | g
    · rw [g] at hlt; omega
    · unfold plt at g; omega
  have hhi : ∀ q, Vertex (evs D) q → dn q = true → q.1 < ev.1.1.1 := fun q hq hd => h.col q _ hq hev.1 hd hev.2
  have hdn : ∀ q, Vertex (evs D) q → (dn q = true ↔ q.1 < ev.1.1.1) := fun q hq => ⟨hhi q hq, hlo q hq⟩
  generalize hxx : ev.1.1.1 = x at *
  have hspan : ∀ e ∈ D, (dn e.1.1 && !dn e.1.2) = decide (LSpan x e.1) := by
    intro e he
    have h1 := hdn _ (vertex_1 he)
    have h2 := hdn _ (vertex_2 he)
    rw [Bool.eq_iff_iff]
    simp only [Bool.and_eq_true, Bool.not_eq_true', decide_eq_true_eq, LSpan]
    rw [h1, ← Bool.not_eq_true, h2]
    omega
  have hc : Col D x sd := ⟨h.keys.trans (List.Perm.of_eq (List.filter_congr hspan)), h.srt⟩
  have hsdn : ∀ a ∈ sd, dn a.1.1.2 = false := by
    intro a ha
    obtain ⟨h1, h2⟩ := hc.mem ha
    have := hspan _ h1
    rw [decide_eq_true h2] at this
    simp only [Bool.and_eq_true, Bool.not_eq_true'] at this
    exact this.2
  have hall : sd.filter (fun a => !dn a.1.1.2) = sd := List.filter_eq_self.2 (by intro a ha; rw [hsdn a ha]; rfl)
  have m0 : MidC D x sd dn ⟨ev :: r, H, out, [], none, ((0, 0), 0), []⟩ none none := by
    refine ⟨h.ev, hlo, fun q hq hd => (hhi q hq hd).le, ?_, ?_, ?_, ?_⟩
    · intro a ha
      simp [hsdn a ha]
    · dsimp only
      rw [List.filter_eq_nil_iff.2]
      · exact List.Perm.refl _
      · intro e he
        simp only [Bool.and_eq_true, decide_eq_true_eq, not_and]
        intro g hd
        have := hhi _ (vertex_1 he) hd
        omega
    · dsimp only
      rw [hall]
      simpa using h.web
    · intro e he h1 _ hd
      have := hhi _ (vertex_1 he) hd
      omega
  have st0 : St D x sd dn ⟨ev :: r, H, out, [], none, ((0, 0), 0), []⟩ none none := Or.inl ⟨rfl, rfl, rfl⟩
  have her0 : ER E sd ⟨todo E (ev :: r), H', out', [], none, 0, []⟩ ⟨ev :: r, H, out, [], none, ((0, 0), 0), []⟩ :=
    ⟨rfl, gH, go, rfl, rfl, rfl, by simp, List.nodup_nil⟩
  have hnd : sd.Nodup := by
    have h1 : (sd.map Prod.fst).Nodup := by
      rw [hc.keys.nodup_iff]
      exact (List.Nodup.of_map Prod.fst c.nd).sublist List.filter_sublist
    exact List.Nodup.of_map _ h1
  have f0 : FI x sd dn (fun a => φ a.2) φ K ((sd.map phi).map (mt φ)) ⟨todo E (ev :: r), H2, out2, [], none, 0, []⟩ ⟨todo E (ev :: r), H', out', [], none, 0, []⟩ := by
    refine ⟨rfl, by rw [List.map_map]; rfl, fun _ _ _ => rfl, sm, ?_, rfl, rfl, rfl, rfl, g2, by simp⟩
    unfold liv
    rw [hall]
    show Ends H2 H' φ K (sd.map phi ++ ([] ++ []))
    rw [List.append_nil, List.append_nil]
    exact en
  unfold processEvent at hpe
  obtain ⟨s', e1, e2⟩ := Option.bind_eq_some_iff.1 hpe
  obtain ⟨rfl, rfl, rfl, rfl⟩ : s'.evs = L1 ∧ s'.els.foldl (insertEl x) (sd.filter (fun a => !s'.rm.contains a.1.1)) = sd1 ∧ s'.H = H1 ∧ s'.out = out1 := by
    have := Option.some_inj.1 e2
    simpa only [Prod.mk.injEq] using this
  obtain ⟨t0, dn1, F1, W1, τ1, φ1, K1, sdF, t', p1, p2, p3, m, fi⟩ := points_fr d c hc hcol hnd _ dn _ none none m0 st0 _ her0 _ _ _ _ _ f0 _ e1 ((todo E (ev :: r)).length + 1) (by simp)
  -- the formation with holes
  have hrm : sd.filter (fun a => !s'.rm.contains a.1.1) = sd.filter (fun a => !dn1 a.1.1.2) := by
    apply List.filter_congr
    intro a ha
    have := m.rm a ha
    rw [Bool.eq_iff_iff]
    simp only [Bool.not_eq_true', List.contains_eq_mem, decide_eq_false_iff_not]
    rw [this, Bool.not_eq_true]
  have hP : ∀ i a, sd[i]? = some a → (i ∈ t0.rm ↔ dn1 a.1.1.2 = true) := fun i a ha => (p3.rm i a ha).trans (m.rm a (List.mem_of_getElem? ha))
  unfold Form45.processEvent at hpe'
  rw [p1] at hpe'
  dsimp only [Option.bind_eq_bind, Option.bind_some] at hpe'
  rw [erase_g phi p3.nd hP] at hpe'
  dsimp only [Option.bind_some] at hpe'
  obtain ⟨k1, k2, k3, k4⟩ : t0.evs = todo E s'.evs ∧ t0.els.foldl (Form45.insertEl x) ((sd.filter (fun a => !dn1 a.1.1.2)).map phi) =
      (s'.els.foldl (insertEl x) (sd.filter (fun a => !s'.rm.contains a.1.1))).map phi ∧ t0.H = H1' ∧ t0.out = out1' := by
    have := Option.some_inj.1 hpe'
    simpa only [Prod.mk.injEq] using this
  subst k3 k4
  refine ⟨φ1, K1, t'.H, t'.out, ?_, fi.sim, ?_, fi.out⟩
  · unfold Frac45.processEvent
    rw [p2]
    dsimp only [Option.bind_eq_bind, Option.bind_some]
    rw [fi.rm, fi.el, erase_g _ p3.nd hP]
    dsimp only [Option.bind_some]
    have hl : (sd.filter (fun a => !dn1 a.1.1.2)).map (fun a => ((phi a).1, τ1 a)) = ((sd.filter (fun a => !dn1 a.1.1.2)).map phi).map (mt φ1) := by
      rw [List.map_map]
      refine List.map_congr_left (fun a ha => ?_)
      obtain ⟨g1, g2⟩ := List.mem_filter.1 ha
      rw [fi.tau a g1 (by simpa using g2)]
      rfl
    rw [hl, fi.els, foldEl_mt, k2, fi.evs, k1]
  · -- the ends
    have hpm : (s'.els.foldl (insertEl x) (sd.filter (fun a => !s'.rm.contains a.1.1))).Perm (s'.els ++ sd.filter (fun a => !dn1 a.1.1.2)) := by
      obtain ⟨s2, dn', e1', m', hdone, -⟩ := points_spec c hc ((ev :: r).length + 1) dn _ none none m0 st0 (by simp)
      obtain rfl : s2 = s' := by rw [e1'] at e1; exact Option.some_inj.1 e1
      have hdn' : ∀ q, Vertex (evs D) q → (dn' q = true ↔ q.1 ≤ x) := by
        intro q hq
        refine ⟨m'.hi q hq, fun hle => ?_⟩
        rcases lt_or_eq_of_le hle with g | g
        · exact m'.lo q hq g
        · exact hdone q hq g
      have hels : ∀ a ∈ s2.els, a.1 ∈ D ∧ a.1.1.1.1 = x ∧ a.1.1.2.1 ≠ x := by
        intro a ha
        have := List.mem_filter.1 (m'.els.mem_iff.1 (List.mem_map.2 ⟨a, ha, rfl⟩))
        refine ⟨this.1, ?_⟩
        have h2 := this.2
        simp only [Bool.and_eq_true, decide_eq_true_eq] at h2
        exact h2.1
      have hsd2 : ∀ b ∈ sd.filter (fun a => !s2.rm.contains a.1.1), b.1 ∈ D ∧ b.1.1.1.1 < x ∧ x < b.1.1.2.1 := by
        intro b hb
        obtain ⟨h1, h2⟩ := List.mem_filter.1 hb
        obtain ⟨h3, h4⟩ := hc.mem h1
        have h5 := hdn' _ (vertex_2 h3)
        refine ⟨h3, h4.1, ?_⟩
        by_contra hn
        have := (m'.rm b h1).2 (h5.2 (by omega))
        simp [this] at h2
      have hnd' : (s2.els.map (fun a => a.1.1)).Nodup := by
        have : s2.els.map (fun a => a.1.1) = (s2.els.map Prod.fst).map Prod.fst := by rw [List.map_map]; rfl
        rw [this, (m'.els.map Prod.fst).nodup_iff]
        exact c.nd.sublist (List.Sublist.map _ List.filter_sublist)
      have f2 := (foldEl c.good (x := x) s2.els (sd.filter (fun a => !s2.rm.contains a.1.1)) (h.srt.sublist List.filter_sublist)
        (fun b hb => ⟨Has.evs (hsd2 b hb).1, (hsd2 b hb).2.1.le, (hsd2 b hb).2.2⟩)
        (by
          intro a ha
          obtain ⟨h1, h2, h3⟩ := hels a ha
          have := c.good.dirE (Has.evs h1)
          refine ⟨Has.evs h1, ⟨h2.le, ?_⟩, h2⟩
          rcases this with g | g <;> omega)
        hnd'
        (by
          intro b hb hin
          obtain ⟨a, ha, e⟩ := List.mem_map.1 hin
          have h1 := (hels a ha).2.1
          have h2 := (hsd2 b hb).2.1
          rw [e] at h1
          omega)).2
      exact f2.trans (List.Perm.of_eq (by rw [hrm]))
    refine (fi.ends.sub (M1 := liv sd dn1 ++ t0.els) ?_).perm ?_
    · exact List.Sublist.append_left (List.sublist_append_right _ _) _
    · rw [p3.els]
      unfold liv
      rw [← List.map_append]
      exact (List.perm_append_comm.trans hpm.symm).map phi

theorem scan_fr {E : List VC} {D : List V} (d : Der E D) (c : Clean D) : ∀ (n : Nat) (dn : Pt → Bool) (L : List V) (sd : List (V × Nat)) (H H' H2 : Heap) (out out' out2 : List Poly)
    (φ : Nat → Nat) (K : List (Chain × Chain)), SInv D dn L sd H out → SO (fun _ => 0) H sd out → HR H' H → List.Forall₂ PR out' out → Sim H2 H' φ K → Ends H2 H' φ K (sd.map phi) →
    List.Forall₂ FP out2 out' → ∀ t, scan n L sd H out = some t → ∀ n', (todo E L).length ≤ n' →
    ∃ t' t2, Form45.scan n' (todo E L) (sd.map phi) H' out' = some t' ∧ Frac45.scan n' (todo E L) ((sd.map phi).map (mt φ)) H2 out2 = some t2 ∧ List.Forall₂ FP t2 t' := by
  intro n
  induction n with
  | zero =>
    intro dn L sd H H' H2 out out' out2 φ K h so gH go sm en g2 t ht n' hn'
    cases L with
    | nil =>
      rw [todo_nil]
      exact ⟨out', out2, by rw [Form45.scan], by rw [Frac45.scan], g2⟩
    | cons ev r => cases ht
  | succ n ih =>
    intro dn L sd H H' H2 out out' out2 φ K h so gH go sm en g2 t ht n' hn'
    cases L with
    | nil =>
      rw [todo_nil]
      exact ⟨out', out2, by rw [Form45.scan], by rw [Frac45.scan], g2⟩
    | cons ev r =>
      obtain ⟨L1, sd1, H1, out1, dn1, H1', out1', e1, e2, -, e3, e4, e5, e6⟩ := event_sim d c h gH go
      obtain ⟨φ1, K1, H12, out12, f1, f2, f3, f4⟩ := event_fr d c h gH go so.col sm en g2 e1 e3
      obtain ⟨L', sd', H9, out9, dn', k1, -, -, so', -⟩ := event_ord c h so (fun _ => rfl) (fun _ _ _ _ => rfl)
      rw [k1] at e1
      obtain ⟨rfl, rfl, rfl, rfl⟩ : L' = L1 ∧ sd' = sd1 ∧ H9 = H1 ∧ out9 = out1 := by
        have := Option.some_inj.1 e1
        simpa only [Prod.mk.injEq] using this
      rw [ArbForm.scan, k1] at ht
      obtain ⟨n', rfl⟩ : ∃ k, n' = k + 1 := ⟨n' - 1, by omega⟩
      obtain ⟨t', t2, j1, j2, j3⟩ := ih dn1 L' sd' H9 H1' H12 out9 out1' out12 φ1 K1 e2 so' e4 e5 f2 f3 f4 t ht n' (by omega)
      refine ⟨t', t2, ?_, ?_, j3⟩
      · obtain ⟨v, hvE, hvp, htd⟩ := todo_cons d h.ev
        rw [htd] at e3 ⊢
        rw [Form45.scan, hvp, e3]
        exact j1
      · obtain ⟨v, hvE, hvp, htd⟩ := todo_cons d h.ev
        rw [htd] at f1 ⊢
        rw [Frac45.scan, hvp, f1]
        exact j2

/-- The figures of the formation without holes are those of the formation with holes, each with its holes cut open. -/
theorem form_fr {E : List VC} {D : List V} (d : Der E D) (c : Clean D) : ∃ out t2, Form45.form E = some out ∧ Frac45.form E = some (t2.map Poly.outer) ∧ List.Forall₂ FP t2 out := by
  have hw : Web Heap.init (([] : List (V × Nat)).map en) none [] [] := by
    refine ⟨[], ?_, by simp⟩
    refine ⟨List.nodup_nil, List.nodup_nil, by simp, by simp, by simp, by simp, by simp, ?_, ?_, by simp⟩
    · simp [closedHoles, float]
    · simp [closedHoles, float]
  have h0 : SInv D (fun _ => false) (isort lessV (halves D)) [] Heap.init [] := by
    refine ⟨⟨?_, ?_, ?_⟩, ?_, ?_, List.Pairwise.nil, ?_⟩
    · rw [List.filter_eq_self.2 (by simp)]
      exact isort_perm _ _
    · refine (isort_sorted ArbForm.vkey _ (fun a _ b _ => lessV_key a b)).imp ?_
      intro a b h
      unfold ArbForm.vkey at h
      rw [Prod.Lex.toLex_le_toLex, Prod.Lex.toLex_le_toLex] at h
      dsimp only at h
      rw [← Bool.not_eq_true, Contains.lessPoint_iff]
      omega
    · simp
    · simp
    · simp
    · simpa using hw
  have hso : SO (fun _ => 0) Heap.init [] [] := by
    refine ⟨⟨fun _ => 0, ⟨List.nodup_nil, ⟨by simp, by simp⟩, ⟨by simp, by simp, by simp, by simp, by simp⟩, by simp, by simp, by simp, by simp [flt, float], by simp [flt, float],
      by simp [flt, float]⟩, by simp⟩, ⟨rfl, Or.inl rfl⟩, by simp⟩
  obtain ⟨out, e, -⟩ := form_spec c
  have hE : todo E (isort lessV (halves D)) = E := by
    unfold todo
    rw [List.filter_eq_self]
    intro v hv
    obtain ⟨e, he, h⟩ := h0.ev.todo ((d.vtx v.1).2 ⟨v, hv, rfl⟩) rfl
    exact decide_eq_true ⟨e, he, h⟩
  have sm : Sim Heap.init Heap.init id [] := ⟨⟨List.nodup_nil, List.nodup_nil, by simp, by simp, by simp, by simp⟩, ⟨List.nodup_nil, List.nodup_nil, by simp, by simp, by simp, by simp⟩,
    by simp, by simp, by simp, by simp⟩
  have en : Ends Heap.init Heap.init id [] (([] : List (V × Nat)).map phi) := ⟨List.nodup_nil, by simp, by simp, by simp⟩
  obtain ⟨t', t2, k1, k2, k3⟩ := scan_fr d c _ _ _ _ _ Heap.init Heap.init _ [] [] id [] h0 hso (HR.refl _) List.Forall₂.nil sm en List.Forall₂.nil out e E.length (by rw [hE])
  rw [hE] at k1 k2
  refine ⟨t', t2, k1, ?_, k3⟩
  unfold Frac45.form
  have k2 : Frac45.scan E.length E [] Heap.init [] = some t2 := k2
  rw [k2]
  rfl

end Verif.Fr
