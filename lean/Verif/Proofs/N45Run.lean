import Verif.Proofs.N45Star
import Verif.Proofs.N45Noded
/-!
# The operations on 45-degree sets give noded data
-/
namespace Verif.N45
open Verif.Deg45 Verif.Set45 Verif.Spec.Deg45
open Verif.F45 (qat)

/-! ### Which vertices stay -/

/-- The vertex at the point will stay. -/
def Stays (p : P) (s : Acc) : Prop :=
  ∃ v r, s.res = v :: r ∧ ((v.1 = p ∧ ¬ (s.cnt = 2 ∧ v.2 = ⟨0, 0, 0, 0⟩)) ∨ ∃ u ∈ r, u.1 = p)

theorem Stays.put {p : P} {s : Acc} (h : Stays p s) {e : V45} (he : e.pt ≠ p) : Stays p (s.put e) := by
  obtain ⟨v, r, h1, h2⟩ := h
  unfold Acc.put
  rw [h1]
  simp only
  rcases h2 with ⟨h2, h3⟩ | ⟨u, hu, h2⟩
  · rw [if_neg (fun h => he (by rw [← h, h2]))]
    have hd : s.drop = s := by unfold Acc.drop; rw [h1]; simp only; rw [if_neg h3]
    exact ⟨_, _, rfl, Or.inr ⟨v, by rw [hd, h1]; simp, h2⟩⟩
  · split_ifs with c
    · exact ⟨_, _, rfl, Or.inr ⟨u, hu, h2⟩⟩
    · refine ⟨_, _, rfl, Or.inr ⟨u, ?_, h2⟩⟩
      rcases drop_cases s with hd | ⟨v', r', a1, a2, hd⟩
      · rw [hd, h1]; simp [hu]
      · rw [hd]; rw [h1] at a1; injection a1 with a1 a3; rw [← a3]; exact hu

theorem Stays.fold {p : P} : ∀ (E : List V45) (s : Acc), Stays p s → (∀ e ∈ E, e.pt ≠ p) → Stays p (E.foldl Acc.put s)
  | [], _, h, _ => h
  | e :: E, s, h, he => Stays.fold E _ (h.put (he e List.mem_cons_self)) (fun e' h' => he e' (List.mem_cons_of_mem _ h'))

theorem Stays.drop {p : P} {s : Acc} (h : Stays p s) : ∃ v ∈ s.drop.res, v.1 = p := by
  obtain ⟨v, r, h1, h2⟩ := h
  rcases h2 with ⟨h2, h3⟩ | ⟨u, hu, h2⟩
  · have hd : s.drop = s := by unfold Acc.drop; rw [h1]; simp only; rw [if_neg h3]
    rw [hd, h1]; exact ⟨v, by simp, h2⟩
  · rcases drop_cases s with hd | ⟨v', r', a1, a2, hd⟩
    · rw [hd, h1]; exact ⟨u, by simp [hu], h2⟩
    · rw [hd]; rw [h1] at a1; injection a1 with a1 a3; rw [← a3]; exact ⟨u, hu, h2⟩

/-- The vertices that were there stay. -/
theorem keep_old {s : Acc} {t : List V45} {p : P} (h : ∃ v ∈ s.res, v.1 = p) (ht : ∀ e ∈ t, e.pt ≠ p) : ∃ v ∈ (s.putAll t).res, v.1 = p := by
  obtain ⟨v, hv, hp⟩ := h
  unfold Acc.putAll
  refine (Stays.fold _ _ ?_ (fun e he => ht e ((sortV45_perm t).mem_iff.1 he))).drop
  cases hr : s.res with
  | nil => rw [hr] at hv; simp at hv
  | cons a r =>
    rw [hr] at hv
    refine ⟨a, r, rfl, ?_⟩
    rcases List.mem_cons.1 hv with rfl | hv
    · exact Or.inl ⟨hp, by simp⟩
    · exact Or.inr ⟨v, hv, hp⟩

theorem fold_block {p : P} : ∀ (B : List V45) (q : Quad Int) (r : List VC) (n : Nat) (m : Bool), (∀ e ∈ B, e.pt = p) →
    (B.foldl Acc.put ⟨(p, q) :: r, n, m⟩) = ⟨(p, B.foldl (fun a e => a.add (single e.rise e.count)) q) :: r, n + B.length, m⟩
  | [], q, r, n, m, _ => rfl
  | e :: B, q, r, n, m, h => by
    have he := h e List.mem_cons_self
    rw [List.foldl_cons]
    have : Acc.put ⟨(p, q) :: r, n, m⟩ e = ⟨(p, q.add (single e.rise e.count)) :: r, n + 1, m⟩ := by
      unfold Acc.put; simp [he]
    rw [this, fold_block B _ _ _ _ (fun e' h' => h e' (List.mem_cons_of_mem _ h'))]
    simp only [List.foldl_cons, List.length_cons]
    congr 1
    omega

theorem block_split {E : List V45} (hs : E.Pairwise (fun a b => a.pt = b.pt ∨ PLt a.pt b.pt)) (p : P) :
    ∃ A B D, E = A ++ (B ++ D) ∧ (∀ e ∈ A, e.pt ≠ p) ∧ (∀ e ∈ B, e.pt = p) ∧ ∀ e ∈ D, e.pt ≠ p := by
  induction E with
  | nil => exact ⟨[], [], [], rfl, by simp, by simp, by simp⟩
  | cons e E ih =>
    obtain ⟨h1, h2⟩ := List.pairwise_cons.1 hs
    obtain ⟨A, B, D, e1, a1, a2, a3⟩ := ih h2
    by_cases c : e.pt = p
    · have hA : A = [] ∨ B = [] := by
        by_contra hn
        push Not at hn
        obtain ⟨a, ha⟩ := List.exists_mem_of_ne_nil _ hn.1
        obtain ⟨b, hb⟩ := List.exists_mem_of_ne_nil _ hn.2
        have k1 := h1 a (by rw [e1]; simp [ha])
        have k2 := (List.pairwise_append.1 (e1 ▸ h2)).2.2 a ha b (by simp [hb])
        have k3 := a1 a ha
        have k4 := a2 b hb
        rw [c] at k1
        rw [k4] at k2
        unfold PLt at k1 k2
        rcases k1 with k1 | k1
        · exact k3 k1.symm
        · rcases k2 with k2 | k2
          · exact k3 k2
          · omega
      rcases hA with hA | hB
      · subst hA
        refine ⟨[], e :: B, D, by rw [e1]; rfl, by simp, ?_, a3⟩
        intro b hb
        rcases List.mem_cons.1 hb with rfl | hb
        · exact c
        · exact a2 b hb
      · subst hB
        refine ⟨[], [e], A ++ D, by rw [e1]; rfl, by simp, by simpa using c, ?_⟩
        intro b hb
        rcases List.mem_append.1 hb with hb | hb
        · exact a1 b hb
        · exact a3 b hb
    · refine ⟨e :: A, B, D, by rw [e1]; rfl, ?_, a2, a3⟩
      intro b hb
      rcases List.mem_cons.1 hb with rfl | hb
      · exact c
      · exact a1 b hb

theorem single_ne {a b : V45} (ha : Rise a) (hb : Rise b) (h : a.rise ≠ b.rise) (h1 : a.count ≠ 0) (h2 : b.count ≠ 0) (q : Quad Int)
    (hq : q = ⟨0, 0, 0, 0⟩) : (q.add (single a.rise a.count)).add (single b.rise b.count) ≠ ⟨0, 0, 0, 0⟩ := by
  subst hq
  unfold Rise at ha hb
  intro he
  rcases ha with ha | ha | ha | ha <;> rcases hb with hb | hb | hb | hb <;> rw [ha, hb] at he h <;>
    simp [single, Quad.add] at he h <;> omega

/-- The vertex of two events with different slopes stays. -/
theorem keep_new {s : Acc} {t : List V45} {p : P} (hr : ∀ e ∈ t, Rise e) (hold : ∀ v ∈ s.res, v.1 ≠ p) (h : Two t p) : ∃ v ∈ (s.putAll t).res, v.1 = p := by
  unfold Acc.putAll
  obtain ⟨A, B, D, e1, a1, a2, a3⟩ := block_split (sortV45_sorted t) p
  obtain ⟨a, ha, b, hb, pa, pb, hab, ca, cb⟩ := h
  have hin : ∀ e ∈ t, e.pt = p → e ∈ B := by
    intro e he hp
    have := (sortV45_perm t).mem_iff.2 he
    rw [e1] at this
    rcases List.mem_append.1 this with h | h
    · exact absurd hp (a1 e h)
    · rcases List.mem_append.1 h with h | h
      · exact h
      · exact absurd hp (a3 e h)
  have haB := hin a ha pa
  have hbB := hin b hb pb
  have hrB : ∀ e ∈ B, Rise e := fun e he => hr e ((sortV45_perm t).mem_iff.1 (by rw [e1]; simp [he]))
  rw [e1, List.foldl_append, List.foldl_append]
  refine (Stays.fold _ _ ?_ a3).drop
  -- before the block
  have hA : ∀ (A : List V45) (s : Acc), (∀ v ∈ s.res, v.1 ≠ p) → (∀ e ∈ A, e.pt ≠ p) → ∀ v ∈ (A.foldl Acc.put s).res, v.1 ≠ p := by
    intro A
    induction A with
    | nil => intro s h _; exact h
    | cons e A ih =>
      intro s h hA
      exact ih _ (put_pts (T := fun q => q ≠ p) h (hA e List.mem_cons_self)) (fun e' h' => hA e' (List.mem_cons_of_mem _ h'))
  have h1 := hA A { s with cnt := 0 } hold a1
  generalize A.foldl Acc.put { s with cnt := 0 } = s1 at h1
  cases B with
  | nil => simp at haB
  | cons e B =>
    have he := a2 e List.mem_cons_self
    rw [List.foldl_cons]
    have hput : ∃ r m, s1.put e = ⟨(p, single e.rise e.count) :: r, 1, m⟩ := by
      unfold Acc.put
      cases hs : s1.res with
      | nil => simp only [he]; exact ⟨_, _, rfl⟩
      | cons v r =>
        simp only
        rw [if_neg (fun h => h1 v (by rw [hs]; simp) (by rw [h, he])), he]
        exact ⟨_, _, rfl⟩
    obtain ⟨r, m, hput⟩ := hput
    rw [hput, fold_block B _ _ _ _ (fun e' h' => a2 e' (List.mem_cons_of_mem _ h'))]
    refine ⟨_, _, rfl, Or.inl ⟨rfl, ?_⟩⟩
    rintro ⟨k1, k2⟩
    simp only at k1 k2
    obtain ⟨f, rfl⟩ : ∃ f, B = [f] := List.length_eq_one_iff.1 (by omega)
    · simp only [List.foldl_cons, List.foldl_nil] at k2
      have e0 : (⟨0, 0, 0, 0⟩ : Quad Int).add (single e.rise e.count) = single e.rise e.count := by
        unfold Quad.add; simp
      rw [← e0] at k2
      have hef : e.rise ≠ f.rise ∧ e.count ≠ 0 ∧ f.count ≠ 0 := by
        simp only [List.mem_cons, List.not_mem_nil, or_false] at haB hbB
        rcases haB with rfl | rfl <;> rcases hbB with rfl | rfl
        · exact absurd rfl hab
        · exact ⟨hab, ca, cb⟩
        · exact ⟨fun h => hab h.symm, cb, ca⟩
        · exact absurd rfl hab
      exact single_ne (hrB e (by simp)) (hrB f (by simp)) hef.1 hef.2.1 hef.2.2 _ rfl k2

/-! ### Where the events come from -/

section
variable {C : Type} [AddCommGroup C] [DecidableEq C]
variable {g : C → Bool} {EV : Prop}

/-- Records everything. -/
def recAll : Fn C (CallG C × Int × Bool) := ⟨fun c1 c2 pt r low => [(((c1, c2), pt), r, low)]⟩

theorem event_origin {st st' : St C} {vs : List (Vert C)} {zo : List V45} (h : scan (opFn g) st vs [] = .ok (st', zo)) :
    ∃ raw, scan recFn st vs [] = .ok (st', raw) ∧ ∀ e ∈ zo, ∃ k ∈ raw, k.2 = e.pt ∧ g k.1.1 ≠ g k.1.2 := by
  have e1 : (recFn : Fn C (CallG C)) = recAll.bind (fun k => [k.1]) := by
    unfold recFn recAll Fn.bind; rfl
  have e2 : opFn g = recAll.bind (fun k => (opFn g).call k.1.1.1 k.1.1.2 k.1.2 k.2.1 k.2.2) := by
    unfold recAll Fn.bind; simp
  have b1 := scan_bind (recAll (C := C)) (fun k => [k.1]) st vs []
  have b2 := scan_bind (recAll (C := C)) (fun k => (opFn g).call k.1.1.1 k.1.1.2 k.1.2 k.2.1 k.2.2) st vs []
  rw [← e1] at b1
  rw [← e2, List.flatMap_nil, h] at b2
  rw [List.flatMap_nil] at b1
  cases hs : scan (recAll (C := C)) st vs [] with
  | error e => rw [hs] at b2; simp [Except.map] at b2
  | ok z =>
    rw [hs] at b1 b2
    simp only [Except.map, Except.ok.injEq, Prod.mk.injEq] at b1 b2
    refine ⟨z.2.flatMap (fun k => [k.1]), by rw [b1, b2.1], fun e he => ?_⟩
    rw [b2.2] at he
    obtain ⟨k, hk, he⟩ := List.mem_flatMap.1 he
    refine ⟨k.1, List.mem_flatMap.2 ⟨k, hk, by simp⟩, ?_⟩
    unfold opFn at he
    simp only at he
    by_cases c : edgeType g k.1.1.1 k.1.1.2 = 0
    · rw [if_pos c] at he; simp at he
    · rw [if_neg c] at he
      rw [List.mem_singleton] at he
      refine ⟨by rw [he], fun hg => c ?_⟩
      rw [edgeType_eq]; unfold gi; rw [hg]; ring

/-- The state between two columns, with the vertices collected so far. -/
structure KI (g : C → Bool) (EV : Prop) (D : List (Vert C)) (st : St C) (acc : Acc) (done rem : List (Vert C)) (out : List V45) (raw : List (CallG C)) : Prop where
  s : SInv g EV D st done rem out
  t : TInv g EV D st done rem raw
  ev : ∀ e ∈ out, ∃ k ∈ raw, k.2 = e.pt ∧ g k.1.1 ≠ g k.1.2
  pts : ∀ v ∈ acc.res, ∃ e ∈ out, e.pt = v.1
  keep : ∀ p, Two out p → ∃ v ∈ acc.res, v.1 = p
  sep : out = [] ∨ ∀ v ∈ rem, st.x < v.1.1

theorem fresh_of {D : List (Vert C)} {st : St C} {done a b : List (Vert C)} {raw : List (CallG C)} (t : TInv g EV D st done (a ++ b) raw) : Fresh st a := by
  rcases t.fresh with h | h
  · exact Or.inl (fun v hv => h v (List.mem_append_left _ hv))
  · exact Or.inr ⟨h.1, h.2.1, fun v hv => h.2.2.1 v (List.mem_append_left _ hv)⟩

theorem flush_keep (h0 : g 0 = false) {D rem : List (Vert C)} {s t : Run C} {done : List (Vert C)} {out : List V45} {raw : List (CallG C)} {M : Int}
    (i : KI g EV D s.st s.acc done (s.evIn ++ rem) out raw) (hin : InOK EV s.evIn) (hM : s.st.x ≤ M) (hv : ∀ v ∈ s.evIn, v.1.1 ≤ M)
    (hr : ∀ v ∈ rem, M < v.1.1) (h : s.flush g = .ok t) : ∃ out' raw', KI g EV D t.st t.acc (done ++ s.evIn) rem out' raw' := by
  unfold Run.flush at h
  cases hsc : scan (opFn g) s.st s.evIn [] with
  | error e => rw [hsc] at h; simp at h
  | ok z =>
    obtain ⟨st', zo⟩ := z
    rw [hsc] at h
    simp only [Except.ok.injEq] at h
    subst h
    have happ := scan_app (opFn g) out s.st s.evIn []
    rw [List.append_nil, hsc] at happ
    simp only [Except.map] at happ
    have hf := fresh_of i.t
    have s2 := scan_star h0 hM hv hr i.s hin hf happ
    obtain ⟨zr, er, hz⟩ := event_origin hsc
    have rapp := scan_app (recFn (C := C)) raw s.st s.evIn []
    rw [List.append_nil, er] at rapp
    simp only [Except.map] at rapp
    rcases scan_raw h0 hM hv hr i.t hin with ⟨st2, raw2, x1, x2, x3⟩ | ⟨x1, -⟩
    swap
    · rw [x1] at rapp; simp at rapp
    rw [x1] at rapp
    simp only [Except.ok.injEq, Prod.mk.injEq] at rapp
    obtain ⟨rfl, rfl⟩ := rapp
    have hnew : New s.st.x (∀ v ∈ s.evIn, s.st.x < v.1.1) out (out ++ zo) := by
      rcases scan_spec h0 i.s.inv hin hf with ⟨a, b, y1, -, -, y2⟩ | ⟨y1, -⟩
      · rw [happ] at y1
        simp only [Except.ok.injEq, Prod.mk.injEq] at y1
        rw [← y1.2] at y2; exact y2
      · rw [happ] at y1; simp at y1
    obtain ⟨zo', e3, hn⟩ := hnew
    have e4 := List.append_cancel_left e3
    subst e4
    have hrise : ∀ e ∈ zo, Rise e := fun e he => (s2.inv.outx e (List.mem_append_right _ he)).2
    refine ⟨out ++ zo, raw ++ zr, { s := s2, t := x2, ev := ?_, pts := ?_, keep := ?_, sep := ?_ }⟩
    · intro e he
      rcases List.mem_append.1 he with he | he
      · obtain ⟨k, hk, h⟩ := i.ev e he; exact ⟨k, List.mem_append_left _ hk, h⟩
      · obtain ⟨k, hk, h⟩ := hz e he; exact ⟨k, List.mem_append_right _ hk, h⟩
    · exact putAll_pts (T := fun p => ∃ e ∈ out ++ zo, e.pt = p)
        (fun v hv => by obtain ⟨e, he, h⟩ := i.pts v hv; exact ⟨e, List.mem_append_left _ he, h⟩)
        (fun e he => ⟨e, List.mem_append_right _ he, rfl⟩)
    · intro p h2
      -- the events at a point come together
      have hcase : Two out p ∧ (∀ e ∈ zo, e.pt ≠ p) ∨ Two zo p ∧ (∀ v ∈ s.acc.res, v.1 ≠ p) := by
        rcases i.sep with he | hs
        · right
          rw [he, List.nil_append] at h2
          refine ⟨h2, fun v hv _ => ?_⟩
          obtain ⟨e, he', -⟩ := i.pts v hv
          rw [he] at he'; simp at he'
        · have hs' : ∀ v ∈ s.evIn, s.st.x < v.1.1 := fun v hv => hs v (List.mem_append_left _ hv)
          have k1 : ∀ e ∈ out, e.pt.1 ≤ s.st.x := fun e he => (i.s.inv.outx e he).1
          have k2 : ∀ e ∈ zo, s.st.x < e.pt.1 := fun e he => (hn e he).2 hs'
          obtain ⟨a, ha, b, hb, pa, pb, rest⟩ := h2
          rcases List.mem_append.1 ha with ha | ha
          · have ka := k1 a ha
            left
            refine ⟨⟨a, ha, b, ?_, pa, pb, rest⟩, fun e he hp => ?_⟩
            · rcases List.mem_append.1 hb with hb | hb
              · exact hb
              · have := k2 b hb; rw [pb, ← pa] at this; omega
            · have := k2 e he; rw [hp, ← pa] at this; omega
          · have ka := k2 a ha
            right
            refine ⟨⟨a, ha, b, ?_, pa, pb, rest⟩, fun v hv hp => ?_⟩
            · rcases List.mem_append.1 hb with hb | hb
              · have := k1 b hb; rw [pb, ← pa] at this; omega
              · exact hb
            · obtain ⟨e, he, hp'⟩ := i.pts v hv
              have := k1 e he; rw [hp', hp, ← pa] at this; omega
      rcases hcase with ⟨h3, h4⟩ | ⟨h3, h4⟩
      · exact keep_old (i.keep p h3) h4
      · exact keep_new hrise h4 h3
    · right
      intro v hv
      have := hr v hv
      simp only; omega

theorem feed_keep (h0 : g 0 = false) {D : List (Vert C)} : ∀ (vs : List (Vert C)) (s t : Run C) (done : List (Vert C)) (out : List V45) (raw : List (CallG C)),
    KI g EV D s.st s.acc done (s.evIn ++ vs) out raw → InOK EV (s.evIn ++ vs) →
    (s.evIn = [] ∨ ∃ X, s.x = some X ∧ ∀ u ∈ s.evIn, u.1.1 = X) → s.feed g vs = .ok t →
    ∃ out' raw', KI g EV D t.st t.acc (done ++ (s.evIn ++ vs)) [] out' raw' := by
  intro vs
  induction vs with
  | nil =>
    intro s t done out raw i hin _ h
    unfold Run.feed at h
    obtain ⟨M, m1, m2⟩ : ∃ M, s.st.x ≤ M ∧ ∀ v ∈ s.evIn, v.1.1 ≤ M := by
      generalize s.evIn = l
      induction l with
      | nil => exact ⟨s.st.x, le_refl _, by simp⟩
      | cons a l ih =>
        obtain ⟨M, h1, h2⟩ := ih
        refine ⟨max M a.1.1, by omega, fun v hv => ?_⟩
        rcases List.mem_cons.1 hv with rfl | hv
        · omega
        · have := h2 v hv; omega
    rw [List.append_nil] at hin ⊢
    exact flush_keep h0 i hin m1 m2 (by simp) h
  | cons v vs ih =>
    intro s t done out raw i hin hx h
    unfold Run.feed at h
    by_cases c : s.x ≠ some v.1.1
    · rw [if_pos c] at h
      by_cases hemp : s.evIn = []
      · rw [flush_nil hemp] at h
        simp only at h
        rw [hemp, List.nil_append] at hin i ⊢
        exact ih ⟨s.st, s.acc.putAll [], [v], some v.1.1⟩ t done out raw
          { s := i.s, t := i.t, ev := i.ev, pts := by rw [putAll_nil]; exact i.pts, keep := by rw [putAll_nil]; exact i.keep, sep := i.sep }
          hin (Or.inr ⟨v.1.1, rfl, by simp⟩) h
      · obtain ⟨X, hX, hall⟩ := hx.resolve_left hemp
        have hvX : v.1.1 ≠ X := by
          intro h; rw [hX, h] at c; exact c rfl
        obtain ⟨-, hs2, hs3⟩ := List.pairwise_append.1 hin.sorted
        obtain ⟨u0, hu0⟩ := List.exists_mem_of_ne_nil _ hemp
        have hXv : X < v.1.1 := by
          have h1 := hs3 u0 hu0 v List.mem_cons_self
          have h2 := hall u0 hu0
          omega
        have hXall : ∀ w ∈ v :: vs, X < w.1.1 := by
          intro w hw
          rcases List.mem_cons.1 hw with rfl | hw
          · exact hXv
          · have := (List.pairwise_cons.1 hs2).1 w hw; omega
        obtain ⟨i1, i2⟩ := InOK.split hin (fun u hu w hw => by rw [hall u hu]; exact hXall w hw)
        have hle : s.st.x ≤ X := by
          rcases fresh_of i.t with h | h
          · have := h u0 hu0; rw [hall u0 hu0] at this; omega
          · have := h.2.2 u0 hu0; rw [hall u0 hu0] at this; omega
        cases hfl : s.flush g with
        | error e => rw [hfl] at h; simp at h
        | ok t1 =>
          rw [hfl] at h
          simp only at h
          obtain ⟨out1, raw1, k⟩ := flush_keep h0 i i1 hle (fun w hw => le_of_eq (hall w hw)) hXall hfl
          have := ih { t1 with evIn := [v], x := some v.1.1 } t (done ++ s.evIn) out1 raw1 k i2 (Or.inr ⟨v.1.1, rfl, by simp⟩) h
          rw [List.append_assoc] at this
          exact this
    · rw [if_neg c] at h
      push Not at c
      have e : s.evIn ++ [v] ++ vs = s.evIn ++ v :: vs := by simp
      have := ih { s with evIn := s.evIn ++ [v] } t done out raw (by simp only; rw [e]; exact i) (by simp only; rw [e]; exact hin) (Or.inr ⟨v.1.1, c, by
          intro u hu
          rcases List.mem_append.1 hu with h | h
          · rcases hx with hx | ⟨X, hX, hall⟩
            · rw [hx] at h; simp at h
            · rw [c] at hX; injection hX with hX; rw [hall u h, hX]
          · simp at h; rw [h]⟩) h
      simp only at this
      rw [e] at this
      exact this

theorem dep_depth (D : List (Vert C)) (q : ℚ × ℚ) : dep D q = depth D q := (depth_rays D q).symm

/-- The result of an operation is noded. -/
theorem runOn_noded (h0 : g 0 = false) {umin : Int} {vs : List (Vert C)} (hs : vs.Pairwise Lex) (hc : Closed vs)
    (hmin : ∀ v ∈ vs, umin ≤ v.1.1) {d : List VC} {m : Bool} (h : runOn g umin vs = .ok (d, m)) : Noded d := by
  obtain ⟨hd, hcl, hsrt⟩ : (∀ q, depth d q = gi g (depth vs q)) ∧ Closed d ∧ d.Pairwise (fun v w => PLt v.1 w.1) := by
    rcases runOn_spec h0 hs hc hmin with ⟨d', m', e, a1, a2, a3, -⟩ | ⟨e, -⟩
    · rw [h] at e; simp only [Except.ok.injEq, Prod.mk.injEq] at e; rw [e.1]; exact ⟨a1, a2, a3⟩
    · rw [h] at e; simp at e
  unfold runOn at h
  cases hf : Run.feed g ⟨⟨[], [], umin⟩, ⟨[], 0, true⟩, [], none⟩ vs with
  | error e => rw [hf] at h; simp at h
  | ok t =>
    rw [hf] at h
    simp only [Except.ok.injEq] at h
    have hdr : d = t.acc.res.reverse := by
      have := congrArg Prod.fst h; simp only [finish] at this; exact this.symm
    have hi : Inv g (OnGrid vs) ⟨[], [], umin⟩ [] [] :=
      { dn := { good := { slope := by simp, sorted := List.Pairwise.nil, chain := by simp, orig := by simp,
                          qsorted := by simp [QSorted], qgt := by simp }
                rin := Eqv.refl _, rout := Eqv.refl _, bal := fun _ => rfl }
        even := by simp, inx := by simp, outx := by simp
        hist := fun q _ => by simp [Hist, rays, oRays, gi, h0] }
    have hz : ∀ q : ℚ × ℚ, q.1 < umin → dep vs q = 0 := by
      intro q hq
      unfold dep
      rw [List.filter_eq_nil_iff.2]
      · simp [rays]
      · intro v hv
        have : (umin : ℚ) ≤ v.1.1 := by exact_mod_cast hmin v hv
        simp only [decide_eq_true_eq, not_le]
        linarith
    have ti : TInv g (OnGrid vs) vs ⟨[], [], umin⟩ [] vs [] :=
      { eq := rfl, inv := ⟨[], hi⟩, sound := by simp, comp := by
          intro p hp
          rcases hp with hp | ⟨hp, hv⟩
          · refine ⟨umin - p.1, by linarith, (0, 0), fun q hq h => absurd (hz q ?_) h⟩
            have := hq.1.2; linarith
          · refine ⟨1, by norm_num, (0, 0), fun q hq h => absurd ?_ h⟩
            unfold dep
            rw [List.filter_eq_nil_iff.2]
            · simp [rays]
            · intro v hv'
              have h1 : (umin : ℚ) + 1 ≤ v.1.1 := by exact_mod_cast hv v hv'
              have h2 := hq.1.2
              simp only at hp
              simp only [decide_eq_true_eq, not_le]
              linarith
        orig := trivial
        fresh := Or.inr ⟨by simp, List.Pairwise.nil, hmin, fun q _ h => by rw [hz q h]; rfl⟩
        rx := by simp, mono := List.Pairwise.nil }
    have si : SInv g (OnGrid vs) vs ⟨[], [], umin⟩ [] vs [] := by
      refine { eq := rfl, inv := hi, star := fun p hp h2 => ?_ }
      obtain ⟨s, z1, z2, z3, s0, -, -, -, -, -, b1, -⟩ := h2 1 (by norm_num)
      have hlt : (p.1 : ℚ) - s < umin := by
        have : (p.1 : ℚ) ≤ umin := by exact_mod_cast hp
        linarith
      dsimp only at b1
      rw [hz ((p.1 : ℚ) - s, z1) hlt, hz ((p.1 : ℚ) - s, z2) hlt] at b1
      exact absurd rfl b1
    have ki : KI g (OnGrid vs) vs ⟨[], [], umin⟩ ⟨[], 0, true⟩ [] vs [] [] :=
      { s := si, t := ti, ev := by simp, pts := by simp, keep := by rintro p ⟨a, ha, -⟩; simp at ha, sep := Or.inl rfl }
    obtain ⟨out, raw, k⟩ := feed_keep h0 vs ⟨⟨[], [], umin⟩, ⟨[], 0, true⟩, [], none⟩ t [] [] [] ki (inOK_of_closed hs hc) (Or.inl rfl) hf
    simp only [List.nil_append] at k
    refine { srt := hsrt, closed := hcl, d01 := ?_, live := ?_, cross := ?_ }
    · intro q; rw [hd]; unfold gi; split_ifs <;> simp
    · intro v hv hv0
      by_contra hn
      push Not at hn
      obtain ⟨e, he, hp⟩ := k.pts v (by rw [hdr] at hv; simpa using hv)
      obtain ⟨c, hc', hcp, hg⟩ := k.ev e he
      have hF : ∀ r, F d ((v.1.1 : ℚ), (v.1.2 : ℚ)) r = 0 := by
        intro r
        have hq : qat v.2 r = 0 := by
          have a1 := hv0 (-1) (by simp [Slope])
          have a2 := hv0 0 (by simp [Slope])
          have a3 := hv0 1 (by simp [Slope])
          have a4 := hv0 2 (by simp [Slope])
          unfold qat at *
          simp at a1 a2 a3 a4
          split_ifs <;> assumption
        rw [← hq, ← tot_at hsrt hv (fun c => qat c r)]
        unfold F
        congr 1
        funext a
        rw [decide_eq_decide]
        simp only [Int.cast_inj]
        exact ⟨fun h => Prod.ext h.1 h.2, fun h => by rw [h]; exact ⟨rfl, rfl⟩⟩
      obtain ⟨ε, A, h1, h2⟩ := local_const hcl hF (fun r hr => hn r hr)
      obtain ⟨q1, n1, m1⟩ := k.t.sound c hc' _ (Or.inl rfl) ε h1
      obtain ⟨q2, n2, m2⟩ := k.t.sound c hc' _ (Or.inr rfl) ε h1
      rw [hcp, hp] at n1 n2
      have x1 := h2 q1 n1
      have x2 := h2 q2 n2
      rw [hd, ← dep_depth, m1] at x1
      rw [hd, ← dep_depth, m2] at x2
      rw [← x2] at x1
      unfold gi at x1
      cases hg1 : g c.1.1 <;> cases hg2 : g c.1.2 <;> rw [hg1, hg2] at x1 hg <;> simp at x1 hg
    · intro p hp hx
      have l2 := left2 hcl (p := p) (F_zero (fun v hv h => hp v hv (by
        simp only [Int.cast_inj] at h
        exact Prod.ext h.1 h.2))) hx
      have l3 : Left2 (fun q => gi g (dep vs q)) p := by
        have : (fun q => gi g (dep vs q)) = depth d := by funext q; rw [hd, dep_depth]
        rw [this]; exact l2
      by_cases c : p.1 ≤ t.st.x
      · obtain ⟨v, hv, hvp⟩ := k.keep p (k.s.star p c l3)
        exact hp v (by rw [hdr]; simpa using hv) hvp
      · push Not at c
        have c' : (t.st.x : ℚ) < p.1 := by exact_mod_cast c
        obtain ⟨s, z1, z2, z3, s0, s1, -, -, -, -, b1, -⟩ := l3 (p.1 - t.st.x) (by linarith)
        obtain ⟨w1, -⟩ := end_counts k.s.inv hc
        have hz' : ∀ q : ℚ × ℚ, (t.st.x : ℚ) ≤ q.1 → dep vs q = 0 := by
          intro q hq
          unfold dep
          rw [filter_le_all (f := fun v : Vert C => v.1.1) k.s.inv.inx hq, w1]
        dsimp only at b1
        rw [hz' ((p.1 : ℚ) - s, z1) (by simp only; linarith), hz' ((p.1 : ℚ) - s, z2) (by simp only; linarith)] at b1
        exact absurd rfl b1

end
end Verif.N45
