import Verif.Proofs.MaxCoverDag
import Verif.Proofs.MaxCoverLoop
/-! What the traversal records and writes (helper lemmas for C67). -/
namespace Verif.MaxCover
open Verif.RectForm Verif.Interval

/-- The part of the interval inside the node. -/
def cl (i : Ivl) (n : Nd) : Ivl × Bool := intersect i (ivl n.rect) false

theorem clip_eq (n : Nd) (r : SR) : clip n r = cl (ivl r) n := rfl
theorem clip_next (n c : Nd) (r : SR) : clip c (nextRect n r) = cl (clip n r).1 c := rfl

theorem cl_iff (i : Ivl) (n : Nd) : (cl i n).2 = true ↔ max i.lo n.rect.lo < min i.hi n.rect.hi := by
  simp [cl, intersect, ivl]

theorem cl_val {i : Ivl} {n : Nd} (h : (cl i n).2 = true) : (cl i n).1 = ⟨max i.lo n.rect.lo, min i.hi n.rect.hi⟩ := by
  have h' := (cl_iff i n).1 h
  unfold cl intersect ivl
  simp only [Bool.false_eq_true, if_false]
  rw [if_pos (by simpa using h')]

/-- A node and an interval traced through it. -/
abbrev Pr := Nd × Ivl

/-- As recorded. -/
def key (p : Pr) : Nat × Ivl := (p.1.id, p.2)

variable (ch : Nd → List Nd)

/-- One step down. -/
def PS (p q : Pr) : Prop := q.1 ∈ ch p.1 ∧ (cl p.2 q.1).2 = true ∧ q.2 = (cl p.2 q.1).1

/-- Every step down from the pair is recorded. -/
def Cl (T : List (Nat × Ivl)) (p : Pr) : Prop := ∀ c ∈ ch p.1, (cl p.2 c).2 = true → (c.id, (cl p.2 c).1) ∈ T

/-- The rectangle written for a pair. -/
def outR (low : Int) (p : Pr) : SR := ⟨p.2.lo, p.2.hi, low, p.1.rect.ph⟩

/-- The pair is written. -/
def wr (p : Pr) : Bool := !extends_ ch p.1 p.2

/-- The pairs `N` are added. -/
def AddN (S : Pr → Prop) (low : Int) (m m' : Mem) (N : List Pr) : Prop :=
  m'.T = m.T ++ N.map key ∧ (N.map key).Nodup ∧ (∀ p ∈ N, key p ∉ m.T ∧ S p ∧ Cl ch m'.T p) ∧
    m'.O.Perm (m.O ++ (N.filter (wr ch)).map (outR low))

def Add (S : Pr → Prop) (low : Int) (m m' : Mem) : Prop := ∃ N, AddN ch S low m m' N

variable {ch}

theorem Cl.mono {T T' : List (Nat × Ivl)} {p : Pr} (h : Cl ch T p) (hs : ∀ k ∈ T, k ∈ T') : Cl ch T' p :=
  fun c hc h1 => hs _ (h c hc h1)

theorem add_refl (S : Pr → Prop) (low : Int) (m : Mem) : Add ch S low m m := ⟨[], by simp, by simp, by simp, by simp⟩

theorem add_trans {S : Pr → Prop} {low : Int} {m m' m'' : Mem} (h1 : Add ch S low m m') (h2 : Add ch S low m' m'') :
    Add ch S low m m'' := by
  obtain ⟨N, a1, a2, a3, a4⟩ := h1
  obtain ⟨N', b1, b2, b3, b4⟩ := h2
  refine ⟨N ++ N', by rw [b1, a1]; simp, ?_, fun p hp => ?_, ?_⟩
  · rw [List.map_append, List.nodup_append]
    refine ⟨a2, b2, fun a ha b hb e => ?_⟩
    obtain ⟨q, hq, rfl⟩ := List.mem_map.1 hb
    subst e
    exact (b3 q hq).1 (by rw [a1]; exact List.mem_append_right _ ha)
  · rcases List.mem_append.1 hp with hp | hp
    · obtain ⟨x, y, z⟩ := a3 p hp
      exact ⟨x, y, z.mono (fun k hk => by rw [b1]; exact List.mem_append_left _ hk)⟩
    · obtain ⟨x, y, z⟩ := b3 p hp
      exact ⟨fun h => x (by rw [a1]; exact List.mem_append_left _ h), y, z⟩
  · rw [List.filter_append, List.map_append, ← List.append_assoc]
    exact b4.trans (a4.append_right _)

theorem Add.sub {S : Pr → Prop} {low : Int} {m m' : Mem} (h : Add ch S low m m') : ∀ k ∈ m.T, k ∈ m'.T := by
  obtain ⟨N, e, -⟩ := h
  intro k hk
  rw [e]; exact List.mem_append_left _ hk

/-- The pair first, then what follows from it; `m1` is the state after recording the pair. -/
theorem add_cons {S : Pr → Prop} {low : Int} {m m1 m' : Mem} {p : Pr} (hT : m1.T = m.T ++ [key p]) (hk : key p ∉ m.T) (hS : S p)
    (h : Add ch S low m1 m') (hc : Cl ch m'.T p) (O' : List SR)
    (hO : ∀ W, m'.O.Perm (m1.O ++ W) → O'.Perm (m.O ++ (if wr ch p then [outR low p] else []) ++ W)) : Add ch S low m ⟨m'.T, O'⟩ := by
  obtain ⟨N, a1, a2, a3, a4⟩ := h
  refine ⟨p :: N, by simp [a1, hT], ?_, fun q hq => ?_, ?_⟩
  · rw [List.map_cons, List.nodup_cons]
    refine ⟨fun hm => ?_, a2⟩
    obtain ⟨q, hq, e⟩ := List.mem_map.1 hm
    exact (a3 q hq).1 (by rw [hT, e]; simp)
  · rcases List.mem_cons.1 hq with rfl | hq
    · exact ⟨hk, hS, hc⟩
    · obtain ⟨x, y, z⟩ := a3 q hq
      exact ⟨fun h => x (by rw [hT]; simp [h]), y, z⟩
  · have := hO _ a4
    simp only
    rw [List.filter_cons]
    split_ifs with hw
    · simp only [hw, if_true] at this
      simpa using this
    · simp only [hw] at this
      simpa using this

variable {G : Nd → Prop} {M : Int}

theorem fold_spec {S : Pr → Prop} {d : Nat} {r : SR} (L : List Nd)
    (hv : ∀ c ∈ L, ∀ m, Add ch S r.pl m (visit ch d c r m) ∧
      ((clip c r).2 = true → (c.id, (clip c r).1) ∈ (visit ch d c r m).T)) (m : Mem) :
    Add ch S r.pl m (L.foldl (fun m c => visit ch d c r m) m) ∧
      ∀ c ∈ L, (clip c r).2 = true → (c.id, (clip c r).1) ∈ (L.foldl (fun m c => visit ch d c r m) m).T := by
  induction L generalizing m with
  | nil => exact ⟨add_refl _ _ _, by simp⟩
  | cons c t ih =>
    obtain ⟨i1, i2⟩ := ih (fun x hx => hv x (by simp [hx])) (visit ch d c r m)
    obtain ⟨v1, v2⟩ := hv c (by simp) m
    refine ⟨add_trans v1 i1, fun x hx hcl => ?_⟩
    rcases List.mem_cons.1 hx with rfl | hx
    · exact i1.sub _ (v2 hcl)
    · exact i2 x hx hcl

theorem visit_spec (hG : ∀ n, G n → ∀ c ∈ ch n, G c ∧ n.rect.ph < c.rect.ph) (hM : ∀ n, G n → n.rect.ph ≤ M)
    {S : Pr → Prop} (hS : ∀ p q, S p → PS ch p q → S q) (d : Nat) :
    ∀ n r, G n → M - n.rect.ph < d → ((clip n r).2 = true → S (n, (clip n r).1)) → ∀ m,
      Add ch S r.pl m (visit ch d n r m) ∧ ((clip n r).2 = true → (n.id, (clip n r).1) ∈ (visit ch d n r m).T) := by
  induction d with
  | zero => intro n r hn hd; have := hM n hn; omega
  | succ d ih =>
    intro n r hn hd hs m
    rw [visit]
    split_ifs with hf
    · unfold fresh at hf
      rw [Bool.and_eq_true] at hf
      obtain ⟨f1, f2⟩ := hf
      have hk : (n.id, (clip n r).1) ∉ m.T := by simpa using f2
      obtain ⟨i1, i2⟩ := fold_spec (ch := ch) (S := S) (d := d) (r := nextRect n r) (ch n) (fun c hc m => by
        have hg := hG n hn c hc
        refine ih c (nextRect n r) hg.1 (by push_cast at hd; omega) (fun h => ?_) m
        exact hS _ _ (hs f1) ⟨hc, by rw [clip_next] at h; exact h, by rw [clip_next]⟩) (enter ch n r m)
      have hmem : (n.id, (clip n r).1) ∈ (enter ch n r m).T := by rw [enter_T]; simp
      refine ⟨?_, fun _ => i1.sub _ hmem⟩
      refine add_cons (m1 := enter ch n r m) (p := (n, (clip n r).1)) rfl hk (hs f1) i1 (fun c hc h => i2 c hc h) _ (fun W hW => ?_)
      refine hW.trans (List.Perm.of_eq ?_)
      unfold enter wr
      cases extends_ ch n (clip n r).1
      · simp [outR, nextRect]
      · simp
    · refine ⟨add_refl _ _ _, fun h => ?_⟩
      unfold fresh at hf
      simpa [h] using hf

/-- Pairs already recorded have their steps down recorded. -/
def ClosedT (ch : Nd → List Nd) (G : Nd → Prop) (T : List (Nat × Ivl)) : Prop := ∀ p : Pr, G p.1 → key p ∈ T → Cl ch T p

theorem root_fold (hG : ∀ n, G n → ∀ c ∈ ch n, G c ∧ n.rect.ph < c.rect.ph) (hM : ∀ n, G n → n.rect.ph ≤ M)
    (hid : ∀ a b, G a → G b → a.id = b.id → a = b) {n : Nd}
    {S : Pr → Prop} (hS : ∀ p q, S p → PS ch p q → S q) (hSG : ∀ p, S p → G p.1) {d : Nat} (L : List Nd)
    (hL : ∀ c ∈ L, G c ∧ n.rect.ph < c.rect.ph ∧ M - c.rect.ph < d ∧ (clip c n.rect).2 = true ∧ S (c, (clip c n.rect).1)) :
    ∀ m, (∀ p : Pr, G p.1 → key p ∈ m.T → p = (n, ivl n.rect) ∨ Cl ch m.T p) →
      ∃ N, ∀ k, N ≤ k → L.foldlM (fun m c => loop ch k ⟨c, n.rect, ch c, [], m⟩) m =
        some (L.foldl (fun m c => visit ch d c n.rect m) m) := by
  induction L with
  | nil => intro m _; exact ⟨0, fun k _ => rfl⟩
  | cons c t ih =>
    intro m hm
    obtain ⟨g1, g2, g3, g4, g5⟩ := hL c (by simp)
    obtain ⟨v1, v2⟩ := visit_spec hG hM hS d c n.rect g1 g3 (fun _ => g5) m
    obtain ⟨N, hN⟩ := loop_run hG hM g1 g3 n.rect m (fun hf x hx => by
      have hk : (c.id, (clip c n.rect).1) ∈ m.T := by
        unfold fresh at hf
        simpa [g4] using hf
      rcases hm (c, (clip c n.rect).1) g1 hk with e | e
      · have := congrArg (fun p : Pr => p.1.rect.ph) e
        simp only at this
        omega
      · by_cases hx2 : (clip x (nextRect c n.rect)).2 = true
        · refine fresh_false_of_mem ?_
          rw [clip_next] at hx2 ⊢
          exact e x hx hx2
        · unfold fresh; simp [hx2])
    obtain ⟨N', hN'⟩ := ih (fun x hx => hL x (by simp [hx])) (visit ch d c n.rect m) (fun p hp hk => by
      obtain ⟨Nw, a1, a2, a3, a4⟩ := id v1
      rw [a1] at hk
      rcases List.mem_append.1 hk with hk | hk
      · exact (hm p hp hk).imp id (fun h => h.mono v1.sub)
      · obtain ⟨q, hq, e⟩ := List.mem_map.1 hk
        have hqG := hSG q (a3 q hq).2.1
        have : q = p := by
          have h1 : q.1 = p.1 := hid _ _ hqG hp (congrArg Prod.fst e)
          have h2 := congrArg Prod.snd e
          exact Prod.ext h1 h2
        subst this
        exact Or.inr (a3 q hq).2.2)
    refine ⟨max N N', fun k hk => ?_⟩
    rw [List.foldlM_cons, hN k (le_trans (le_max_left _ _) hk)]
    exact hN' k (le_trans (le_max_right _ _) hk)

/-- One root. -/
theorem root_spec (hG : ∀ n, G n → ∀ c ∈ ch n, G c ∧ n.rect.ph < c.rect.ph) (hM : ∀ n, G n → n.rect.ph ≤ M)
    (hid : ∀ a b, G a → G b → a.id = b.id → a = b) (hov : ∀ n, G n → ∀ c ∈ ch n, (cl (ivl n.rect) c).2 = true) {n : Nd} (hn : G n)
    {S : Pr → Prop} (hS : ∀ p q, S p → PS ch p q → S q) (hSG : ∀ p, S p → G p.1) (hSn : S (n, ivl n.rect))
    (m : Mem) (hm : ClosedT ch G m.T) :
    ∃ m', (∃ N, ∀ k, N ≤ k → coverRoot ch k m n = some m') ∧ Add ch S n.rect.pl m m' ∧ ClosedT ch G m'.T ∧
      (n.id, ivl n.rect) ∈ m'.T := by
  by_cases ht : (n.id, ivl n.rect) ∈ m.T
  · exact ⟨m, ⟨0, fun k _ => by rw [coverRoot, if_pos (by simpa using ht)]⟩, add_refl _ _ _, hm, ht⟩
  · set m1 : Mem := ⟨m.T ++ [(n.id, ivl n.rect)], m.O⟩ with hm1
    obtain ⟨d, hd⟩ : ∃ d : Nat, M - n.rect.ph < d := ⟨(M - n.rect.ph + 1).toNat, by omega⟩
    have hch : ∀ c ∈ ch n, G c ∧ n.rect.ph < c.rect.ph ∧ M - c.rect.ph < d ∧ (clip c n.rect).2 = true ∧ S (c, (clip c n.rect).1) := by
      intro c hc
      obtain ⟨h1, h2⟩ := hG n hn c hc
      exact ⟨h1, h2, by omega, hov n hn c hc, hS _ _ hSn ⟨hc, hov n hn c hc, rfl⟩⟩
    obtain ⟨N, hN⟩ := root_fold hG hM hid hS hSG (d := d) (ch n) hch m1 (fun p hp hk => by
      rcases List.mem_append.1 hk with hk | hk
      · exact Or.inr ((hm p hp hk).mono (fun k hk => List.mem_append_left _ hk))
      · have e := List.mem_singleton.1 hk
        have h1 : p.1 = n := hid _ _ hp hn (congrArg Prod.fst e)
        have h2 := congrArg Prod.snd e
        exact Or.inl (Prod.ext h1 h2))
    obtain ⟨a1, a2⟩ := fold_spec (ch := ch) (S := S) (d := d) (r := n.rect) (ch n) (fun c hc m => by
      obtain ⟨g1, g2, g3, g4, g5⟩ := hch c hc
      exact visit_spec hG hM hS d c n.rect g1 g3 (fun _ => g5) m) m1
    set mf := (ch n).foldl (fun m c => visit ch d c n.rect m) m1 with hmf
    have hc : Cl ch mf.T (n, ivl n.rect) := fun c hc h => a2 c hc h
    have hO : Add ch S n.rect.pl m ⟨mf.T, if extends_ ch n (ivl n.rect) then mf.O else mf.O ++ [n.rect]⟩ := by
      refine add_cons (m1 := m1) (p := (n, ivl n.rect)) rfl ht hSn a1 hc _ (fun W hW => ?_)
      unfold wr
      cases extends_ ch n (ivl n.rect)
      · simp only [Bool.false_eq_true, if_false, Bool.not_false, if_true]
        refine (hW.append_right _).trans ?_
        show (m.O ++ W ++ [n.rect]).Perm (m.O ++ [n.rect] ++ W)
        rw [List.append_assoc, List.append_assoc]
        exact List.Perm.append_left _ List.perm_append_comm
      · simpa using hW
    refine ⟨_, ⟨N, fun k hk => ?_⟩, hO, fun p hp hk => ?_, a1.sub _ (by simp [hm1])⟩
    · rw [coverRoot, if_neg (by simpa using ht)]
      have hNk := hN k hk
      by_cases he : (ch n).isEmpty = true
      · have he' : ch n = [] := by simpa using he
        have h1 : mf = m1 := by rw [hmf, he']; rfl
        have h2 : extends_ ch n (ivl n.rect) = false := by simp [extends_, he']
        simp only [he, if_true, h2, Bool.false_eq_true, if_false, h1, hm1]
      · simp only [he]
        rw [← hm1, hNk]
        simp only [Option.bind_eq_bind, Option.bind_some, Bool.false_eq_true, if_false]
        split_ifs <;> rfl
    · obtain ⟨Nw, b1, b2, b3, b4⟩ := id hO
      simp only at b1 hk
      rw [b1] at hk
      rcases List.mem_append.1 hk with hk | hk
      · exact (hm p hp hk).mono hO.sub
      · obtain ⟨q, hq, e⟩ := List.mem_map.1 hk
        have hqG := hSG q (b3 q hq).2.1
        have : q = p := by
          have h1 : q.1 = p.1 := hid _ _ hqG hp (congrArg Prod.fst e)
          have h2 := congrArg Prod.snd e
          exact Prod.ext h1 h2
        subst this
        exact (b3 q hq).2.2

end Verif.MaxCover
