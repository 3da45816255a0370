import Verif.Proofs.Set45Insert
/-! # Programs that build 45-degree sets -/
namespace Verif.Set45
open Verif.Deg45 Verif.Spec.Deg45 Verif.Spec

theorem seqLoop_axis (m : Int) (T : P × P → Prop) : ∀ (r : List P) (pp p : P), T (pp, p) → (∀ e ∈ chain p r, T e) →
    (∀ v ∈ (seqLoop m pp p r).1, ∃ a b c, v = halfPair a b c m ∧ T (a, b) ∧ T (b, c)) ∧ T ((seqLoop m pp p r).2.1, (seqLoop m pp p r).2.2) := by
  intro r
  induction r with
  | nil => intro pp p hp _; simp [seqLoop, hp]
  | cons q r ih =>
    intro pp p hp hr
    unfold seqLoop
    have hq : T (p, q) := hr _ (by simp [chain])
    have hr' : ∀ e ∈ chain q r, T e := fun e he => hr e (by simp [chain, he])
    by_cases c : q = p
    · rw [if_pos c]; exact ih pp p hp (by rw [← c]; exact hr')
    · rw [if_neg c]
      obtain ⟨h1, h2⟩ := ih p q hq hr'
      refine ⟨?_, h2⟩
      intro v hv
      rcases List.mem_cons.1 hv with rfl | hv
      · exact ⟨_, _, _, rfl, hp, hq⟩
      · exact h1 v hv

theorem chain_sub (a : P) : ∀ r : List P, ∀ e ∈ chain a (r.dropWhile (fun q => decide (q = a))), e ∈ chain a r := by
  intro r
  induction r with
  | nil => intro e he; exact he
  | cons b r ih =>
    intro e he
    by_cases c : b = a
    · rw [List.dropWhile_cons_of_pos (by simpa using c)] at he
      have := ih e he
      rw [chain, c]; exact List.mem_cons_of_mem _ this
    · rwa [List.dropWhile_cons_of_neg (by simpa using c)] at he

theorem seq_axis (m : Int) (T : P × P → Prop) {pts : List P} (h : ∀ e ∈ edges pts, T e) :
    ∀ v ∈ (seqVertices pts m).getD [], ∃ a b c, v = halfPair a b c m ∧ T (a, b) ∧ T (b, c) := by
  unfold seqVertices
  cases pts with
  | nil => simp
  | cons a r =>
    simp only
    rw [edges_chain] at h
    cases hd : r.dropWhile (fun q => decide (q = a)) with
    | nil => simp
    | cons b r2 =>
      have hs := chain_sub a r
      rw [hd] at hs
      have hall : ∀ e ∈ chain a (b :: r2), T e := fun e he => h e (List.mem_append_left _ (hs e he))
      have hab : T (a, b) := hall _ (by simp [chain])
      have hlast : (a :: r).getLast (by simp) = (b :: r2).getLast (by simp) := by
        have hs : (b :: r2) <:+ r := by rw [← hd]; exact List.dropWhile_suffix _
        have hs' : (b :: r2) <:+ (a :: r) := hs.trans (List.suffix_cons a r)
        obtain ⟨t, ht⟩ := hs'
        simp only [← ht]
        rw [List.getLast_append_of_ne_nil]
      obtain ⟨h1, h2⟩ := seqLoop_axis m T r2 a b hab (fun e he => hall e (by simp [chain, he]))
      have hend := (seqLoop_tot add_n m (fun _ => true) r2 a b).2
      have hcl : T ((seqLoop m a b r2).2.2, a) := by
        rw [hend, ← hlast]; exact h _ (by simp)
      simp only [Option.getD_some]
      intro v hv
      rcases List.mem_append.1 hv with hv | hv
      · exact h1 v hv
      · by_cases c : (seqLoop m a b r2).2.2 ≠ a
        · rw [if_pos c] at hv
          simp at hv
          rcases hv with rfl | rfl
          · exact ⟨_, _, _, rfl, h2, hcl⟩
          · exact ⟨_, _, _, rfl, hcl, hab⟩
        · rw [if_neg c] at hv
          push Not at c
          simp at hv
          rw [c] at h2
          exact ⟨_, _, _, hv, h2, hab⟩

theorem half_axis {a b c : P} (h : a.1 = b.1 ∨ a.2 = b.2) (h' : b.1 = c.1 ∨ b.2 = c.2) (m : Int) :
    (halfPair a b c m).2.n = 0 ∧ (halfPair a b c m).2.p = 0 := by
  have hx : ∀ a b : P, (a.1 = b.1 ∨ a.2 = b.2) → (charEdge a b).1 = 2 ∨ (charEdge a b).1 = 0 := by
    intro a b h
    unfold charEdge
    by_cases c1 : a.1 = b.1
    · rw [if_pos c1]; exact Or.inl rfl
    · rw [if_neg c1, if_pos (h.resolve_left c1)]; exact Or.inr rfl
  unfold halfPair Quad.add single
  rcases hx a b h with e | e <;> rcases hx b c h' with e' | e' <;> simp [e, e']

/-- All edges are horizontal or vertical. -/
abbrev Axis (pts : List P) : Prop := ∀ e ∈ edges pts, e.1.1 = e.2.1 ∨ e.1.2 = e.2.2

theorem seq_manh (m : Int) {pts : List P} (h : Axis pts) : Manhattan ((seqVertices pts m).getD []) := by
  intro v hv
  obtain ⟨a, b, c, rfl, h1, h2⟩ := seq_axis m (fun e => e.1.1 = e.2.1 ∨ e.1.2 = e.2.2) h v hv
  exact half_axis h1 h2 m

theorem insertPoly_grid {s : S45} {pts : List P} (hole : Bool) (hg : OnGrid s.data) (h : PtsEven pts ∨ Axis pts) : OnGrid (s.insertPoly pts hole).data := by
  unfold S45.insertPoly S45.insertSeq
  set m : Int := if ((Polygon.windingQ pts == Isotropy.HIGH) != hole) = true then 1 else -1 with hm
  have he : OnGrid ((seqVertices pts m).getD []) := by
    rcases h with h | h
    · exact fun v hv _ => seq_mem m (fun p => (p.1 + p.2) % 2 = 0) h v hv
    · exact grid_manh (seq_manh m h)
  cases hs : seqVertices pts m with
  | none => exact hg
  | some l => rw [hs] at he; exact grid_append hg he

theorem insertPoly_manh {s : S45} {pts : List P} (hole : Bool) (h : Axis pts) (hs : s.manh = true) : (s.insertPoly pts hole).manh = true := by
  unfold S45.insertPoly S45.insertSeq
  set m : Int := if ((Polygon.windingQ pts == Isotropy.HIGH) != hole) = true then 1 else -1 with hm
  have he := seq_manh m h
  cases hq : seqVertices pts m with
  | none => exact hs
  | some l =>
    rw [hq] at he
    simp only [hs, Bool.true_and, List.all_eq_true]
    intro v hv
    have := he v hv
    simp [is45, this.1, this.2]

theorem insertHoles_grid {s : S45} {pts : List P} {holes : List (List P)} (hole : Bool) (hg : OnGrid s.data)
    (h : ∀ r ∈ pts :: holes, PtsEven r ∨ Axis r) : OnGrid (s.insertHoles pts holes hole).data := by
  unfold S45.insertHoles
  have : ∀ (hl : List (List P)) (t : S45), OnGrid t.data → (∀ r ∈ hl, PtsEven r ∨ Axis r) → OnGrid (hl.foldl (fun s h => s.insertPoly h (!hole)) t).data := by
    intro hl
    induction hl with
    | nil => intro t h _; exact h
    | cons r hl ih => intro t ht hr; exact ih _ (insertPoly_grid _ ht (hr r (by simp))) (fun x hx => hr x (by simp [hx]))
  exact this _ _ (insertPoly_grid _ hg (h pts (by simp))) (fun x hx => h x (by simp [hx]))

theorem insertHoles_manh {s : S45} {pts : List P} {holes : List (List P)} (hole : Bool) (hg : s.manh = true)
    (h : ∀ r ∈ pts :: holes, Axis r) : (s.insertHoles pts holes hole).manh = true := by
  unfold S45.insertHoles
  have : ∀ (hl : List (List P)) (t : S45), t.manh = true → (∀ r ∈ hl, Axis r) → (hl.foldl (fun s h => s.insertPoly h (!hole)) t).manh = true := by
    intro hl
    induction hl with
    | nil => intro t h _; exact h
    | cons r hl ih => intro t ht hr; exact ih _ (insertPoly_manh _ (hr r (by simp)) ht) (fun x hx => hr x (by simp [hx]))
  exact this _ _ (insertPoly_manh _ (h pts (by simp)) hg) (fun x hx => h x (by simp [hx]))

theorem applyBool_manh {umin umax : Int} {op : Nat} {s t u : S45} (hs : s.manh = true) (ht : t.manh = true)
    (h : s.applyBool op umin umax t = .ok u) : u.manh = true := by
  unfold S45.applyBool at h
  rw [if_pos (by simp [hs, ht])] at h
  split at h
  · simp at h
  · injection h with h; rw [← h]

theorem applyUnary_manh {umin umax : Int} {op : Nat} {s u : S45} (hs : s.manh = true) (h : s.applyUnary op umin umax = .ok u) : u.manh = true := by
  unfold S45.applyUnary at h
  rw [if_pos hs] at h
  split at h
  · simp at h
  · injection h with h; rw [← h]

theorem clean_manh {umin umax : Int} {s u : S45} (hs : s.manh = true) (h : s.clean umin umax = .ok u) : u.manh = true := by
  unfold S45.clean at h
  split at h
  · exact applyUnary_manh (by rw [(sort_facts s).2.2.2.1]; exact hs) h
  · injection h with h; rw [← h, (sort_facts s).2.2.2.1]; exact hs

/-- A set does what the program says. -/
structure Good (umin umax : Int) (p : Prog) (u : S45) : Prop where
  valid : Valid umin umax u
  depth : ∀ q, Spec.Deg45.depth u.data q = p.depth q
  even : p.Even → OnGrid u.data
  manh : p.Rectilinear → u.manh = true
  err : u.err = []

theorem even_of_rect : ∀ {p : Prog}, p.Rectilinear → p.Even := by
  intro p
  induction p with
  | new => intro _; trivial
  | poly h P H b ih => exact fun hr => ⟨ih hr.1, fun r hr' => Or.inr (hr.2 r hr')⟩
  | rect h r b ih => exact ih
  | set h k b ih ih' => exact fun hr => ⟨ih hr.1, ih' hr.2⟩
  | op h o k ih ih' => exact fun hr => ⟨ih hr.1, ih' hr.2⟩
  | clean h ih => exact ih
  | selfIntersect h ih => exact ih

theorem holds_combine (o : Fin 4) (a b : Bool) : combine o a b = true ↔ holds2 o (a = true) (b = true) := by
  unfold combine holds2
  obtain rfl | rfl | rfl | rfl : o = 0 ∨ o = 1 ∨ o = 2 ∨ o = 3 := by omega
  all_goals cases a <;> cases b <;> simp

open Classical in
theorem run_spec {umin umax : Int} (hu : umin ≤ umax) : ∀ {p : Prog}, p.Ok umin umax →
    (∃ u, p.run umin umax = .ok u ∧ Good umin umax p u) ∨ (p.run umin umax = .fail .precision ∧ ¬ p.Even) := by
  intro p
  induction p with
  | new =>
    intro _
    refine Or.inl ⟨_, rfl, new_valid _ _, fun _ => rfl, fun _ v hv => by simp [S45.new] at hv, fun _ => rfl, rfl⟩
  | poly h P H b ih =>
    intro ok
    rcases ih ok.1 with ⟨s, e, g⟩ | ⟨e, ne⟩
    · left
      simp only [Prog.run, e]
      obtain ⟨h1, h2, h3, -⟩ := insertHoles_spec g.valid (pts := P) (holes := H) (fun r hr => ⟨(ok.2 r hr).2, (ok.2 r hr).1⟩) b
      refine ⟨_, rfl, h1, fun q => ?_, fun he => insertHoles_grid b (g.even he.1) he.2, fun hr => insertHoles_manh b (g.manh hr.1) hr.2, by rw [h2, g.err]⟩
      rw [h3, g.depth]; rfl
    · right; simp only [Prog.run, e]; exact ⟨trivial, fun he => ne he.1⟩
  | rect h r b ih =>
    intro ok
    rcases ih ok.1 with ⟨s, e, g⟩ | ⟨e, ne⟩
    · left
      simp only [Prog.run, e]
      obtain ⟨k1, k2, k4, k5⟩ := ok.2
      obtain ⟨h1, h2, h3, h4⟩ := insertRect_spec g.valid (r := r) (by
        intro p hp
        simp [corners4] at hp
        rcases hp with rfl | rfl | rfl | rfl <;> simp only <;> omega) k1.2.1 k4 b
      refine ⟨_, rfl, h1, fun q => ?_, fun he => h4 (g.even he), fun hr => g.manh hr, by rw [h2, g.err]⟩
      rw [h3, g.depth]; rfl
    · right; simp only [Prog.run, e]; exact ⟨trivial, ne⟩
  | set h k b ih ih' =>
    intro ok
    rcases ih ok.1 with ⟨s, e, g⟩ | ⟨e, ne⟩
    · rcases ih' ok.2 with ⟨t, e', g'⟩ | ⟨e', ne⟩
      · left
        simp only [Prog.run, e, e']
        obtain ⟨h1, h2, h3, h4⟩ := insertSet_spec g.valid g'.valid b
        refine ⟨_, rfl, h1, fun q => ?_, fun he => h4 (g.even he.1) (g'.even he.2), fun hr => ?_, by rw [h2, g.err, g'.err]; rfl⟩
        · rw [h3, g.depth, g'.depth]; rfl
        · simp [S45.insertSet, g.manh hr.1, g'.manh hr.2]
      · right; simp only [Prog.run, e, e']; exact ⟨trivial, fun he => ne he.2⟩
    · right; simp only [Prog.run, e]; exact ⟨trivial, fun he => ne he.1⟩
  | op h o k ih ih' =>
    intro ok
    rcases ih ok.1 with ⟨s, e, g⟩ | ⟨e, ne⟩
    · rcases ih' ok.2 with ⟨t, e', g'⟩ | ⟨e', ne⟩
      · simp only [Prog.run, e, e']
        rcases applyBool_spec (op := o) o.2 g.valid g'.valid with ⟨u, e2, h1, h2, h3, h4, h5⟩ | ⟨e2, h1, h2⟩
        · left
          refine ⟨u, e2, h1, fun q => ?_, fun he => h5 (g.even he.1) (g'.even he.2), fun hr => applyBool_manh (g.manh hr.1) (g'.manh hr.2) e2,
            by rw [h3, g.err, g'.err]; rfl⟩
          rw [h4, g.depth, g'.depth]
          simp only [Prog.depth]
          have := holds_combine o (decide (0 < h.depth q)) (decide (0 < k.depth q))
          simp only [decide_eq_true_eq] at this
          by_cases c : holds2 (o : Nat) (0 < h.depth q) (0 < k.depth q)
          · rw [if_pos c, if_pos (this.2 c)]
          · rw [if_neg c, if_neg (fun hh => c (this.1 hh))]
        · right; exact ⟨e2, fun he => h2 ⟨g.even he.1, g'.even he.2⟩⟩
      · right; simp only [Prog.run, e, e']; exact ⟨trivial, fun he => ne he.2⟩
    · right; simp only [Prog.run, e]; exact ⟨trivial, fun he => ne he.1⟩
  | clean h ih =>
    intro ok
    rcases ih ok with ⟨s, e, g⟩ | ⟨e, ne⟩
    · simp only [Prog.run, e]
      rcases clean_spec hu g.valid with ⟨u, e2, h1, h2, h3, h4, h5⟩ | ⟨e2, h1, h2⟩
      · left
        refine ⟨u, e2, h1, fun q => ?_, fun he => h5 (g.even he), fun hr => clean_manh (g.manh hr) e2, by rw [h3, g.err]⟩
        rw [h4, g.depth]
        simp only [Prog.depth]
        by_cases c : 0 < h.depth q
        · rw [if_pos c, decide_eq_true c]; rfl
        · rw [if_neg c, decide_eq_false c]; rfl
      · right; exact ⟨e2, fun he => h2 (g.even he)⟩
    · right; simp only [Prog.run, e]; exact ⟨trivial, ne⟩
  | selfIntersect h ih =>
    intro ok
    rcases ih ok with ⟨s, e, g⟩ | ⟨e, ne⟩
    · simp only [Prog.run, e]
      obtain ⟨f1, f2, f3, f4, f5⟩ := sort_facts s
      unfold S45.self
      rcases applyUnary_spec (op := 1) (Or.inr (Or.inl rfl)) hu (valid_sort g.valid) with ⟨u, e2, h1, h2, h3, h4, h5⟩ | ⟨e2, h1, h2⟩
      · left
        refine ⟨u, e2, h1, fun q => ?_, fun he => h5 (fun v hv => g.even he v (f1.mem_iff.1 hv)), fun hr => applyUnary_manh (by rw [f4]; exact g.manh hr) e2, by rw [h3, f5, g.err]⟩
        rw [h4, depth_perm f1, g.depth]
        simp only [Prog.depth]
        have : (if s.sort.manh = true then test90 1 else logic1 1) (h.depth q) = decide (1 < h.depth q) := by
          split_ifs <;> rfl
        rw [this]
        by_cases c : 1 < h.depth q
        · rw [if_pos c, decide_eq_true c]; rfl
        · rw [if_neg c, decide_eq_false c]; rfl
      · right; exact ⟨e2, fun he => h2 (fun v hv => g.even he v (f1.mem_iff.1 hv))⟩
    · right; simp only [Prog.run, e]; exact ⟨trivial, ne⟩

end Verif.Set45
