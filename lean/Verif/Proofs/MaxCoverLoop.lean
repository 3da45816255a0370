import Verif.Model.MaxCover
import Mathlib.Logic.Relation
/-! The loop with an explicit stack does what the recursive traversal does (helper lemmas for C67). -/
namespace Verif.MaxCover
open Verif.RectForm Verif.Interval

variable (ch : Nd → List Nd)

/-- The recursive traversal (the version the code keeps as a comment, lines 174-205), to depth `d`. -/
def visit : Nat → Nd → SR → Mem → Mem
  | 0, _, _, m => m
  | d + 1, n, r, m =>
    if fresh n r m then (ch n).foldl (fun m c => visit d c (nextRect n r) m) (enter ch n r m) else m

/-- A pass after which the loop goes on. -/
def Goes (a b : Ls) : Prop := b = step ch a ∧ done b = false

abbrev Steps := Relation.ReflTransGen (Goes ch)

variable {ch}

theorem loop_of_steps {a b : Ls} (h : Steps ch a b) (hd : done (step ch b) = true) :
    ∃ N, ∀ k, N ≤ k → loop ch k a = some (step ch b).m := by
  induction h using Relation.ReflTransGen.head_induction_on with
  | refl =>
    refine ⟨1, fun k hk => ?_⟩
    obtain ⟨j, rfl⟩ : ∃ j, k = j + 1 := ⟨k - 1, by omega⟩
    rw [loop, if_pos hd]
  | head h1 _ ih =>
    obtain ⟨N, hN⟩ := ih
    refine ⟨N + 1, fun k hk => ?_⟩
    obtain ⟨j, rfl⟩ : ∃ j, k = j + 1 := ⟨k - 1, by omega⟩
    obtain ⟨rfl, h2⟩ := h1
    rw [loop, if_neg (by rw [h2]; simp)]
    exact hN j (by omega)

theorem enter_T (n : Nd) (r : SR) (m : Mem) : (enter ch n r m).T = m.T ++ [(n.id, (clip n r).1)] := rfl

theorem visit_mono (d : Nat) (n : Nd) (r : SR) (m : Mem) : ∀ k ∈ m.T, k ∈ (visit ch d n r m).T := by
  induction d generalizing n r m with
  | zero => intro k hk; exact hk
  | succ d ih =>
    intro k hk
    rw [visit]
    split_ifs with hf
    · have : ∀ (L : List Nd) (m : Mem), k ∈ m.T → k ∈ (L.foldl (fun m c => visit ch d c (nextRect n r) m) m).T := by
        intro L
        induction L with
        | nil => intro m h; exact h
        | cons c t iht => intro m h; exact iht _ (ih c _ m k h)
      apply this
      rw [enter_T]
      simp [hk]
    · exact hk

theorem fold_mono (d : Nat) (r : SR) (L : List Nd) (m : Mem) : ∀ k ∈ m.T, k ∈ (L.foldl (fun m c => visit ch d c r m) m).T := by
  induction L generalizing m with
  | nil => intro k h; exact h
  | cons c t ih => intro k h; exact ih _ k (visit_mono d c r m k h)

theorem fresh_false_of_mem {n : Nd} {r : SR} {m : Mem} (h : (n.id, (clip n r).1) ∈ m.T) : fresh n r m = false := by
  unfold fresh
  simp [h]

theorem visit_not_fresh {n : Nd} {r : SR} {m : Mem} (h : fresh n r m = false) (d : Nat) : visit ch d n r m = m := by
  cases d with
  | zero => rfl
  | succ d => rw [visit, if_neg (by simp [h])]

theorem fold_not_fresh {r : SR} {m : Mem} (d : Nat) (L : List Nd) (h : ∀ c ∈ L, fresh c r m = false) :
    L.foldl (fun m c => visit ch d c r m) m = m := by
  induction L with
  | nil => rfl
  | cons c t ih =>
    rw [List.foldl_cons, visit_not_fresh (h c (by simp))]
    exact ih (fun x hx => h x (by simp [hx]))

/-- Visiting one node with something on the stack. -/
def NodeRun (ch : Nd → List Nd) (d : Nat) (n : Nd) : Prop :=
  ∀ r f st m, ∃ s, Steps ch ⟨n, r, ch n, f :: st, m⟩ s ∧ step ch s = advance ch ⟨f.1, f.2.1, f.2.2, st, visit ch d n r m⟩

/-- Visiting the children from `c` on. -/
theorem children_run {d : Nat} {n : Nd} {r : SR} (t : List Nd) :
    ∀ (c : Nd) (st : List (Nd × SR × List Nd)) (m : Mem), (∀ x ∈ c :: t, NodeRun ch d x) →
      ∃ s, Steps ch ⟨c, nextRect n r, ch c, (n, r, c :: t) :: st, m⟩ s ∧
        step ch s = ⟨n, r, [], st, (c :: t).foldl (fun m c => visit ch d c (nextRect n r) m) m⟩ := by
  induction t with
  | nil =>
    intro c st m h
    obtain ⟨s, h1, h2⟩ := h c (by simp) (nextRect n r) (n, r, [c]) st m
    exact ⟨s, h1, h2⟩
  | cons c' t ih =>
    intro c st m h
    obtain ⟨s, h1, h2⟩ := h c (by simp) (nextRect n r) (n, r, c :: c' :: t) st m
    obtain ⟨s', h3, h4⟩ := ih c' st (visit ch d c (nextRect n r) m) (fun x hx => h x (List.mem_cons_of_mem _ hx))
    exact ⟨s', (h1.tail ⟨h2.symm, rfl⟩).trans h3, h4⟩

theorem step_stale {n : Nd} {r : SR} {it : List Nd} {f : Nd × SR × List Nd} {st : List (Nd × SR × List Nd)} {m : Mem}
    (h : fresh n r m = false) : step ch ⟨n, r, it, f :: st, m⟩ = advance ch ⟨f.1, f.2.1, f.2.2, st, m⟩ := by
  simp [step, h]

theorem step_leaf {n : Nd} {r : SR} {f : Nd × SR × List Nd} {st : List (Nd × SR × List Nd)} {m : Mem}
    (h : fresh n r m = true) : step ch ⟨n, r, [], f :: st, m⟩ = advance ch ⟨f.1, f.2.1, f.2.2, st, enter ch n r m⟩ := by
  simp [step, h]

theorem step_down {n c : Nd} {r : SR} {t : List Nd} {st : List (Nd × SR × List Nd)} {m : Mem}
    (h : fresh n r m = true) : step ch ⟨n, r, c :: t, st, m⟩ = ⟨c, nextRect n r, ch c, (n, r, c :: t) :: st, enter ch n r m⟩ := by
  simp [step, h]

theorem node_run {G : Nd → Prop} {M : Int} (hG : ∀ n, G n → ∀ c ∈ ch n, G c ∧ n.rect.ph < c.rect.ph) (hM : ∀ n, G n → n.rect.ph ≤ M)
    (d : Nat) : ∀ n, G n → M - n.rect.ph < d → NodeRun ch d n := by
  induction d with
  | zero => intro n hn hd; have := hM n hn; omega
  | succ d ih =>
    intro n hn hd r f st m
    cases hf : fresh n r m with
    | false => exact ⟨_, Relation.ReflTransGen.refl, by rw [step_stale hf, visit_not_fresh hf]⟩
    | true =>
      rw [visit, if_pos hf]
      cases hc : ch n with
      | nil => exact ⟨_, Relation.ReflTransGen.refl, by rw [step_leaf hf]; rfl⟩
      | cons c t =>
        obtain ⟨s, h1, h2⟩ := children_run (ch := ch) (d := d) (n := n) (r := r) t c (f :: st) (enter ch n r m) (fun x hx => by
          have hg := hG n hn x (by rw [hc]; exact hx)
          exact ih x hg.1 (by push_cast at hd; omega))
        refine ⟨_, ((Relation.ReflTransGen.single ⟨(step_down hf).symm, rfl⟩).trans h1).tail ⟨h2.symm, rfl⟩, ?_⟩
        exact step_stale (fresh_false_of_mem (fold_mono d _ _ _ _ (by rw [enter_T]; simp)))

/-- The loop started at a child of a root. A child already traced is skipped, its own children being
traced already. -/
theorem loop_run {G : Nd → Prop} {M : Int} (hG : ∀ n, G n → ∀ c ∈ ch n, G c ∧ n.rect.ph < c.rect.ph) (hM : ∀ n, G n → n.rect.ph ≤ M)
    {d : Nat} {n : Nd} (hn : G n) (hd : M - n.rect.ph < d) (r : SR) (m : Mem)
    (hs : fresh n r m = false → ∀ c ∈ ch n, fresh c (nextRect n r) m = false) :
    ∃ N, ∀ k, N ≤ k → loop ch k ⟨n, r, ch n, [], m⟩ = some (visit ch d n r m) := by
  obtain ⟨e, rfl⟩ : ∃ e, d = e + 1 := ⟨d - 1, by have := hM n hn; omega⟩
  have hrun : ∀ x ∈ ch n, NodeRun ch e x := fun x hx => by
    have hg := hG n hn x hx
    exact node_run hG hM e x hg.1 (by push_cast at hd; omega)
  cases hf : fresh n r m with
  | false =>
    rw [visit_not_fresh hf]
    have hs := hs hf
    cases hc : ch n with
    | nil =>
      have e1 : step ch ⟨n, r, [], [], m⟩ = ⟨n, r, [], [], m⟩ := by simp [step, hf, advance]
      obtain ⟨N, hN⟩ := loop_of_steps (ch := ch) (a := ⟨n, r, [], [], m⟩) Relation.ReflTransGen.refl (by rw [e1]; rfl)
      exact ⟨N, fun k hk => by rw [hN k hk, e1]⟩
    | cons c t =>
      cases t with
      | nil =>
        have e1 : step ch ⟨n, r, [c], [], m⟩ = ⟨n, r, [], [], m⟩ := by simp [step, hf, advance]
        obtain ⟨N, hN⟩ := loop_of_steps (ch := ch) (a := ⟨n, r, [c], [], m⟩) Relation.ReflTransGen.refl (by rw [e1]; rfl)
        exact ⟨N, fun k hk => by rw [hN k hk, e1]⟩
      | cons c' t =>
        have e1 : step ch ⟨n, r, c :: c' :: t, [], m⟩ = ⟨c', nextRect n r, ch c', (n, r, c' :: t) :: [], m⟩ := by
          simp [step, hf, advance]
        obtain ⟨s, h1, h2⟩ := children_run (ch := ch) (d := e) (n := n) (r := r) t c' [] m (fun x hx => hrun x (by rw [hc]; exact List.mem_cons_of_mem _ hx))
        have h3 : Steps ch ⟨n, r, c :: c' :: t, [], m⟩ s := (Relation.ReflTransGen.single ⟨e1.symm, rfl⟩).trans h1
        obtain ⟨N, hN⟩ := loop_of_steps h3 (by rw [h2]; rfl)
        refine ⟨N, fun k hk => ?_⟩
        rw [hN k hk, h2]
        simp only
        rw [fold_not_fresh]
        intro x hx
        exact hs x (by rw [hc]; exact List.mem_cons_of_mem _ hx)
  | true =>
    rw [visit, if_pos hf]
    cases hc : ch n with
    | nil =>
      have e1 : step ch ⟨n, r, [], [], m⟩ = ⟨n, r, [], [], enter ch n r m⟩ := by simp [step, hf, advance]
      obtain ⟨N, hN⟩ := loop_of_steps (ch := ch) (a := ⟨n, r, [], [], m⟩) Relation.ReflTransGen.refl (by rw [e1]; rfl)
      exact ⟨N, fun k hk => by rw [hN k hk, e1]; rfl⟩
    | cons c t =>
      obtain ⟨s, h1, h2⟩ := children_run (ch := ch) (d := e) (n := n) (r := r) t c [] (enter ch n r m) (fun x hx => hrun x (by rw [hc]; exact hx))
      have h3 : Steps ch ⟨n, r, c :: t, [], m⟩ s := (Relation.ReflTransGen.single ⟨(step_down hf).symm, rfl⟩).trans h1
      obtain ⟨N, hN⟩ := loop_of_steps h3 (by rw [h2]; rfl)
      exact ⟨N, fun k hk => by rw [hN k hk, h2]⟩

end Verif.MaxCover
