import Verif.Model.PolyForm
import Mathlib.Data.List.Basic
import Mathlib.Tactic.SplitIfs
/-!
# Every coordinate of a polygon is a coordinate of the data
-/
namespace Verif.Proofs.PolyRange
open Verif.PolyForm Verif.BooleanOp Verif.Interval Verif.Isotropy

variable {p : Int → Prop}

def HA (p : Int → Prop) (H : Heap) : Prop := ∀ n, ∀ c ∈ (H.tail n).path, p c
def MA (p : Int → Prop) (m : List (Int × Nat)) : Prop := ∀ e ∈ m, p e.1

theorem ha_setPath {H : Heap} (h : HA p H) (t : Nat) (q : List Int) (v : Bool) (hq : ∀ c ∈ q, p c) : HA p (H.setPath t q v) := by
  intro n c hc
  unfold Heap.setPath at hc
  dsimp only at hc
  split_ifs at hc
  · exact hq c hc
  · exact hq c (by simpa using hc)
  · exact h n c hc

theorem ha_addHoles {H : Heap} (h : HA p H) (t : Nat) (l : List Nat) : HA p (H.addHoles t l) := by
  intro n c hc
  unfold Heap.addHoles at hc
  dsimp only at hc
  split_ifs at hc <;> exact h n c hc

theorem ha_copyHoles {H : Heap} (h : HA p H) (t u : Nat) : HA p (H.copyHoles t u) := by
  intro n c hc
  unfold Heap.copyHoles at hc
  dsimp only at hc
  split_ifs at hc <;> exact h n c hc

theorem ha_push {H H' : Heap} (h : HA p H) {t : Nat} {c : Int} (hc : p c) (e : H.push t c = some H') : HA p H' := by
  unfold Heap.push at e
  split at e
  · rename_i l q r he
    have hp := h t
    rw [he] at hp
    rw [← Option.some_inj.1 e]
    split_ifs
    · exact ha_setPath h _ _ _ (fun d hd => hp d (List.mem_cons_of_mem _ hd))
    · refine ha_setPath h _ _ _ (fun d hd => ?_)
      rcases List.mem_cons.1 hd with rfl | hd
      · exact hc
      · exact hp d hd
  · exact absurd e (by simp)

theorem ha_link {H : Heap} (h : HA p H) (t u : Nat) (q : List Int) (hq : ∀ c ∈ q, p c) : HA p (H.link t u q) := by
  intro n c hc
  unfold Heap.link at hc
  dsimp only at hc
  split_ifs at hc
  · exact hq c hc
  · exact hq c (by simpa using hc)
  · exact h n c hc

theorem ha_join {H : Heap} (h : HA p H) (t u : Nat) (s : Bool) : HA p (H.joinChains t u s).1 := by
  unfold Heap.joinChains
  split_ifs
  · exact h
  · exact ha_copyHoles h _ _
  · refine ha_copyHoles (ha_copyHoles (ha_link h _ _ _ (fun c hc => ?_)) _ _) _ _
    rcases List.mem_append.1 hc with hc | hc <;> exact h _ c hc

theorem ha_addHole {H H' : Heap} (h : HA p H) {t u t' : Nat} {fr : Bool} (e : H.addHole t u fr = some (H', t')) : HA p H' := by
  unfold Heap.addHole at e
  cases fr
  · simp only [Bool.not_false, if_true, Option.some.injEq, Prod.mk.injEq] at e
    rw [← e.1]
    exact ha_copyHoles (ha_copyHoles (ha_addHoles h _ _) _ _) _ _
  · simp only [Bool.not_true, Bool.false_eq_true, if_false] at e
    simp only [Option.bind_eq_bind, Option.bind_eq_some_iff, Option.some.injEq, Prod.mk.injEq] at e
    obtain ⟨c, hc, K, hK, hj, _⟩ := e
    rw [← hj]
    refine ha_join (ha_push h ?_ hK) _ _ _
    exact h _ c (List.mem_of_head? hc)

theorem ha_new {H : Heap} (h : HA p H) {x y : Int} (hx : p x) (hy : p y) : HA p (H.newPair x y).1 := by
  intro n c hc
  unfold Heap.newPair at hc
  dsimp only at hc
  split_ifs at hc
  · simp only [List.mem_cons, List.not_mem_nil, or_false] at hc
    rcases hc with rfl | rfl <;> assumption
  · simp only [List.mem_cons, List.not_mem_nil, or_false] at hc
    rcases hc with rfl | rfl <;> assumption
  · exact h n c hc

theorem ha_create {H H' : Heap} (h : HA p H) {x y : Int} (hx : p x) (hy : p y) {ph : Option Nat} {fr : Bool} {a b : Nat}
    (e : H.createPair x y ph fr = some (H', a, b)) : HA p H' := by
  unfold Heap.createPair at e
  cases ph with
  | none => dsimp only at e; have := ha_new h hx hy; rw [Option.some_inj.1 e] at this; exact this
  | some hole =>
    dsimp only at e
    cases fr
    · simp only [Bool.not_false, if_true, Option.bind_eq_bind, Option.bind_eq_some_iff, Option.some.injEq, Prod.mk.injEq] at e
      obtain ⟨⟨K, k⟩, h1, h2, _⟩ := e
      rw [← h2]
      exact ha_addHole (ha_new h hx hy) h1
    · simp only [Bool.not_true, Bool.false_eq_true, if_false, Option.bind_eq_bind, Option.bind_eq_some_iff, Option.some.injEq, Prod.mk.injEq] at e
      obtain ⟨K, h1, L, h2, h3, _⟩ := e
      rw [← h3]
      exact ha_push (ha_push h hx h1) hy h2

theorem ma_insert {k : Int} {v : Nat} (hk : p k) : ∀ {m : List (Int × Nat)}, MA p m → MA p (minsert k v m)
  | [], _ => by intro e he; simp only [minsert, List.mem_singleton] at he; rw [he]; exact hk
  | a :: m, h => by
    have h1 := h a (by simp)
    have h2 : MA p m := fun e he => h e (List.mem_cons_of_mem _ he)
    rw [minsert]
    split_ifs
    · intro e he
      rcases List.mem_cons.1 he with rfl | he
      · exact h1
      · exact ma_insert hk h2 e he
    · exact h
    · intro e he
      rcases List.mem_cons.1 he with rfl | he
      · exact hk
      · exact h e he

theorem ma_erase {m : List (Int × Nat)} (h : MA p m) (k : Int) : MA p (merase m k) := fun e he => h e (List.mem_of_mem_filter he)

theorem ma_set {m : List (Int × Nat)} (h : MA p m) (k : Int) (v : Nat) : MA p (mset m k v) := by
  intro e he
  obtain ⟨a, ha, rfl⟩ := List.mem_map.1 he
  split_ifs with hk
  · have := h a ha; rwa [hk] at this
  · exact h a ha

theorem bottom_ha {fr : Bool} {x lo : Int} {s s' : St} (h : HA p s.H) (hm : MA p s.map) (hx : p x) (hlo : p lo)
    (e : bottomEnd fr x lo s = some s') : HA p s'.H ∧ MA p s'.map := by
  unfold bottomEnd at e
  split at e
  · split at e
    · cases fr
      · simp only [Bool.false_eq_true, if_false, Option.bind_eq_bind, Option.bind_eq_some_iff, Option.some.injEq] at e
        obtain ⟨⟨K, t⟩, h1, L, h2, rfl⟩ := e
        exact ⟨ha_push (ha_addHole h h1) hx h2, ma_erase hm _⟩
      · simp only [if_true, Option.bind_eq_bind, Option.bind_eq_some_iff, Option.some.injEq] at e
        obtain ⟨⟨K, t⟩, h1, L, rfl, rfl⟩ := e
        exact ⟨ha_addHole (H := s.H) h h1, ma_erase hm _⟩
    · simp only [Option.bind_eq_bind, Option.bind_eq_some_iff, Option.some.injEq] at e
      obtain ⟨K, h1, rfl⟩ := e
      exact ⟨ha_push h hx h1, ma_erase hm _⟩
  · simp only [Option.bind_eq_bind, Option.bind_eq_some_iff, Option.some.injEq] at e
    obtain ⟨⟨K, a, b⟩, h1, rfl⟩ := e
    exact ⟨ha_create h hx hlo h1, ma_insert hlo hm⟩

theorem shared_ha {fr tr : Bool} {x hi : Int} {s s' : St} (h : HA p s.H) (hm : MA p s.map) (hx : p x) (hhi : p hi)
    (e : shared fr tr x hi s = some s') : HA p s'.H ∧ MA p s'.map := by
  unfold shared at e
  simp only [Option.bind_eq_bind, Option.bind_eq_some_iff] at e
  obtain ⟨tail, _, c, _, e⟩ := e
  cases tr
  · simp only [Bool.false_eq_true, if_false, Option.bind_eq_some_iff, Option.some.injEq] at e
    obtain ⟨K, h1, L, h2, rfl⟩ := e
    exact ⟨ha_push (ha_push h hhi h1) hx h2, ma_set hm _ _⟩
  · simp only [if_true, Option.bind_eq_some_iff, Option.some.injEq] at e
    obtain ⟨⟨K, a, b⟩, h1, rfl⟩ := e
    exact ⟨ha_create (ha_join h _ _ _) hx hhi h1, ma_set hm _ _⟩

theorem find_mem {m : List (Int × Nat)} {k : Int} {t : Nat} (h : mfind m k = some t) : ∃ e ∈ m, e.1 = k := by
  unfold mfind at h
  rw [Option.map_eq_some_iff] at h
  obtain ⟨e, he, _⟩ := h
  exact ⟨e, List.mem_of_find?_eq_some he, by simpa using List.find?_some he⟩

theorem holeUp_ha {fr hn : Bool} {umax a b : Int} {s s' : St} {hole : Nat} (h : HA p s.H) (hm : MA p s.map)
    (e : holeUp fr hn umax a b s hole = some s') : HA p s'.H ∧ MA p s'.map := by
  unfold holeUp at e
  dsimp only at e
  by_cases h1 : (!hn || decide (s.nm.getD umax < a) && decide (s.nm.getD umax < b)) = true
  · rw [if_pos h1] at e
    cases fr
    · simp only [Bool.false_eq_true, if_false, Option.bind_eq_bind, Option.bind_eq_some_iff, Option.some.injEq] at e
      obtain ⟨k, hk, tail, ht, ⟨K, t⟩, h2, rfl⟩ := e
      exact ⟨ha_addHole h h2, hm⟩
    · simp only [if_true, Option.bind_eq_bind, Option.bind_eq_some_iff, Option.some.injEq] at e
      obtain ⟨k, hk, tail, ht, ⟨K, t⟩, h2, L, h3, rfl⟩ := e
      obtain ⟨ee, e1, e2⟩ := find_mem ht
      have hpk : p k := by have := hm ee e1; rwa [e2] at this
      rw [hk, Option.getD_some] at h3
      exact ⟨ha_push (ha_addHole h h2) hpk h3, ma_set hm _ _⟩
  · rw [if_neg h1] at e
    have := Option.some_inj.1 e
    subst this
    exact ⟨h, hm⟩

theorem top_ha {fr hn tr : Bool} {umax a b hi : Int} {s s' : St} (h : HA p s.H) (hm : MA p s.map) (hhi : p hi)
    (e : topEnd fr hn tr umax a b hi s = some s') : HA p s'.H ∧ MA p s'.map := by
  unfold topEnd at e
  simp only [Option.bind_eq_bind, Option.bind_eq_some_iff] at e
  obtain ⟨c, _, e⟩ := e
  split at e
  · rename_i tail _
    have hj : HA p (s.H.joinChains c tail (!tr)).1 := ha_join h _ _ _
    generalize s.H.joinChains c tail (!tr) = J at e hj
    obtain ⟨J1, J2, J3⟩ := J
    dsimp only at e hj
    split at e
    · rw [Option.bind_eq_some_iff] at e
      obtain ⟨s2, h2, e⟩ := e
      have := Option.some_inj.1 e
      subst this
      obtain ⟨k1, k2⟩ := holeUp_ha (p := p) (s := ⟨J1, s.map, mnext s.map hi, none, s.out ++ J2⟩) hj hm h2
      exact ⟨k1, ma_erase k2 _⟩
    · rw [Option.bind_eq_some_iff] at e
      obtain ⟨s2, h2, e⟩ := e
      have := Option.some_inj.1 e
      subst this
      have := Option.some_inj.1 h2
      subst this
      exact ⟨hj, ma_erase hm _⟩
  · simp only [Option.bind_eq_some_iff, Option.some.injEq] at e
    obtain ⟨K, h1, rfl⟩ := e
    exact ⟨ha_push h hhi h1, ma_insert hhi hm⟩

def EA (p : Int → Prop) (l : List Ivl) : Prop := ∀ e ∈ l, p e.lo ∧ p e.hi

theorem round_ha {fr : Bool} {umax x : Int} {l r : List Ivl} {bot : Bool} {s s' : St} {b t : Bool} (h : HA p s.H) (hm : MA p s.map)
    (hx : p x) (hl : EA p l) (hr : EA p r) (hu : p umax)
    (e : round fr umax x l r bot s = some (s', b, t)) : HA p s'.H ∧ MA p s'.map := by
  unfold round at e
  dsimp only at e
  generalize decide ((r.headD ⟨umax, umax⟩).lo < (l.headD ⟨umax, umax⟩).lo) = tr at e
  have hedge : p (if tr = true then r.headD ⟨umax, umax⟩ else l.headD ⟨umax, umax⟩).lo ∧ p (if tr = true then r.headD ⟨umax, umax⟩ else l.headD ⟨umax, umax⟩).hi := by
    have hd : ∀ q : List Ivl, EA p q → p (q.headD ⟨umax, umax⟩).lo ∧ p (q.headD ⟨umax, umax⟩).hi := by
      intro q hq
      cases q with
      | nil => exact ⟨hu, hu⟩
      | cons d q => exact hq d (by simp)
    split
    · exact hd r hr
    · exact hd l hl
  generalize (if tr = true then r.headD ⟨umax, umax⟩ else l.headD ⟨umax, umax⟩) = edge at e hedge
  rw [Option.bind_eq_bind] at e
  split at e
  all_goals
    rw [Option.bind_eq_some_iff] at e
    obtain ⟨s1, h1, e⟩ := e
    generalize (if tr = true then l.headD ⟨umax, umax⟩ else r.headD ⟨umax, umax⟩) = nxt at e
    have k : HA p s1.H ∧ MA p s1.map := by
      first
        | exact bottom_ha h hm hx hedge.1 h1
        | (have := Option.some_inj.1 h1
           subst this
           exact ⟨h, hm⟩)
    split at e
    · rw [Option.bind_eq_some_iff] at e
      obtain ⟨s2, h2, e⟩ := e
      simp only [Option.some.injEq, Prod.mk.injEq] at e
      obtain ⟨rfl, _⟩ := e
      exact shared_ha k.1 k.2 hx hedge.2 h2
    · rw [Option.bind_eq_some_iff] at e
      obtain ⟨s2, h2, e⟩ := e
      simp only [Option.some.injEq, Prod.mk.injEq] at e
      obtain ⟨rfl, _⟩ := e
      exact top_ha k.1 k.2 hedge.2 h2

theorem proc_ha {fr : Bool} {umax x : Int} (hx : p x) (hu : p umax) : ∀ (f : Nat) (l r : List Ivl) (bot : Bool) (s s' : St), HA p s.H → MA p s.map →
    EA p l → EA p r → procGo fr umax x f l r bot s = some s' → HA p s'.H ∧ MA p s'.map := by
  intro f
  induction f with
  | zero =>
    intro l r bot s s' h hm hl hr e
    rw [procGo.eq_def] at e
    dsimp only at e
    split_ifs at e
    simp only [Option.some.injEq] at e
    subst e; exact ⟨h, hm⟩
  | succ f ih =>
    intro l r bot s s' h hm hl hr e
    rw [procGo.eq_def] at e
    dsimp only at e
    split_ifs at e with hn
    · simp only [Option.some.injEq] at e
      subst e; exact ⟨h, hm⟩
    · simp only [Option.bind_eq_bind, Option.bind_eq_some_iff] at e
      obtain ⟨⟨s1, b1, t1⟩, h1, e⟩ := e
      obtain ⟨k1, k2⟩ := round_ha h hm hx hl hr hu h1
      have tl : ∀ {q : List Ivl}, EA p q → EA p q.tail := fun hq d hd => hq d (List.mem_of_mem_tail hd)
      dsimp only at e
      split_ifs at e
      · exact ih l r.tail b1 s1 s' k1 k2 hl (tl hr) e
      · exact ih l.tail r b1 s1 s' k1 k2 (tl hl) hr e

def PA (p : Int → Prop) (P : Poly) : Prop := (∀ c ∈ P.outer, p c) ∧ ∀ h ∈ P.holes, ∀ c ∈ h, p c

theorem figure_ha {H : Heap} (h : HA p H) (t : Nat) (b : Bool) (o : Nat) : ∀ c ∈ figure H t b o, p c := by
  intro c hc
  unfold figure at hc
  dsimp only at hc
  split_ifs at hc
  all_goals first
    | exact h _ c hc
    | (rcases List.mem_append.1 hc with hc | hc
       · exact h _ c (List.mem_of_mem_tail hc)
       · exact h _ c (List.mem_of_mem_take hc))

theorem polyOf_ha {H : Heap} (h : HA p H) (fr : Bool) (o t : Nat) : PA p (polyOf H fr o t) := by
  unfold polyOf
  split_ifs
  · exact ⟨figure_ha h _ _ _, by simp⟩
  · refine ⟨figure_ha h _ _ _, fun q hq => ?_⟩
    obtain ⟨n, _, rfl⟩ := List.mem_map.1 hq
    exact figure_ha h _ _ _

structure GA (p : Int → Prop) (g : GP) : Prop where
  h : HA p g.H
  m : MA p g.map
  l : EA p g.l
  r : EA p g.r
  o : ∀ q ∈ g.out, PA p q
  y : p g.prevY
  x : p g.prevPos

theorem flush_ha {fr : Bool} {o : Nat} {umax : Int} (hu : p umax) {g g' : GP} (h : GA p g) (e : g.flush fr o umax = some g') : GA p g' := by
  unfold GP.flush processEdges at e
  simp only [Option.bind_eq_bind, Option.bind_eq_some_iff, Option.some.injEq] at e
  obtain ⟨⟨H, m, out⟩, ⟨s, h1, h2⟩, rfl⟩ := e
  obtain ⟨k1, k2⟩ := proc_ha h.x hu _ _ _ _ _ _ (by exact h.h) (by exact h.m) h.l h.r h1
  simp only [Prod.mk.injEq] at h2
  obtain ⟨rfl, rfl, rfl⟩ := h2
  refine ⟨k1, k2, h.l, h.r, fun q hq => ?_, h.y, h.x⟩
  rcases List.mem_append.1 hq with hq | hq
  · exact h.o q hq
  · obtain ⟨n, _, rfl⟩ := List.mem_map.1 hq
    exact polyOf_ha k1 _ _ _

theorem addEdge_ha {L : List Ivl} {e : Ivl} (h : EA p L) (h1 : p e.lo) (h2 : p e.hi) : EA p (addEdge L e) := by
  unfold addEdge
  cases hc : L.getLast? with
  | none => intro d hd; simp only [List.mem_singleton] at hd; subst hd; exact ⟨h1, h2⟩
  | some b =>
    have hb := h b (List.mem_of_getLast? hc)
    dsimp only
    split_ifs
    · intro d hd
      rcases List.mem_append.1 hd with hd | hd
      · exact h d ((List.dropLast_sublist _).mem hd)
      · rw [List.mem_singleton] at hd
        subst hd
        dsimp only
        constructor
        · rcases Int.le_total b.lo e.lo with q | q
          · rw [Int.min_eq_left q]; exact hb.1
          · rw [Int.min_eq_right q]; exact h1
        · rcases Int.le_total b.hi e.hi with q | q
          · rw [Int.max_eq_right q]; exact h2
          · rw [Int.max_eq_left q]; exact hb.2
    · intro d hd
      rcases List.mem_append.1 hd with hd | hd
      · exact h d hd
      · rw [List.mem_singleton] at hd
        subst hd; exact ⟨h1, h2⟩

theorem step_ha {fr : Bool} {o : Nat} {umax : Int} (hu : p umax) {g g' : GP} (h : GA p g) {v : V} (hv : p v.x ∧ p v.y)
    (e : g.step fr o umax v = some g') : GA p g' := by
  unfold GP.step at e
  by_cases hx : v.x = g.prevPos
  · rw [if_neg (by simpa using hx)] at e
    dsimp only at e
    have := Option.some_inj.1 e
    subst this
    split_ifs
    · exact ⟨h.h, h.m, addEdge_ha h.l h.y hv.2, h.r, h.o, hv.2, h.x⟩
    · exact ⟨h.h, h.m, h.l, addEdge_ha h.r h.y hv.2, h.o, hv.2, h.x⟩
    · exact ⟨h.h, h.m, h.l, h.r, h.o, hv.2, h.x⟩
  · rw [if_pos hx] at e
    simp only [Option.bind_eq_bind, Option.bind_eq_some_iff, Option.some.injEq] at e
    obtain ⟨g1, h1, rfl⟩ := e
    have k := flush_ha hu h h1
    exact ⟨k.h, k.m, by intro d hd; simp at hd, by intro d hd; simp at hd, k.o, hv.2, hv.1⟩

theorem run_ha {fr : Bool} {o : Nat} {umax : Int} (hu : p umax) : ∀ (D : List V) (g g' : GP), GA p g → (∀ v ∈ D, p v.x ∧ p v.y) →
    GP.run fr o umax D g = some g' → GA p g'
  | [], g, g', h, _, e => flush_ha hu h e
  | v :: D, g, g', h, hD, e => by
    rw [GP.run] at e
    simp only [Option.bind_eq_bind, Option.bind_eq_some_iff] at e
    obtain ⟨g1, h1, e⟩ := e
    exact run_ha hu D g1 g' (step_ha hu h (hD v (by simp)) h1) (fun w hw => hD w (List.mem_cons_of_mem _ hw)) e

/-- Coordinates of the polygons have any property all coordinates of the data (and the largest
coordinate) have. -/
theorem form_ha {fr : Bool} {o : Nat} {umax : Int} (hu : p umax) {D : List V} {ps : List Poly} (hD : ∀ v ∈ D, p v.x ∧ p v.y)
    (e : formPolys fr o umax D = some ps) : ∀ q ∈ ps, PA p q := by
  unfold formPolys at e
  simp only [Option.bind_eq_bind, Option.bind_eq_some_iff, Option.some.injEq] at e
  obtain ⟨g, h1, rfl⟩ := e
  refine (run_ha hu D _ g ⟨?_, by intro d hd; simp at hd, by intro d hd; simp at hd, by intro d hd; simp at hd, by simp, hu, hu⟩ hD h1).o
  intro n c hc
  exact absurd hc (by simp [show (default : Tail).path = [] from rfl])

end Verif.Proofs.PolyRange
