import Verif.Proofs.VoronoiSweep
import Verif.Model.VoronoiBuild
import Mathlib.Data.Fintype.Card
import Mathlib.Data.Fintype.Pigeonhole
import Mathlib.Dynamics.PeriodicPts.Defs

/-! The clean-up after the sweep keeps the half-edge structure. -/
namespace Verif.Voronoi

variable {P : Type}

/-! ## Orbits -/

theorem iterate_mem {f : Nat → Nat} {S : Nat → Prop} (hS : ∀ i, S i → S (f i)) {x : Nat} (hx : S x) : ∀ k, S (f^[k] x)
  | 0 => hx
  | k + 1 => by rw [Function.iterate_succ_apply']; exact hS _ (iterate_mem hS hx k)

theorem iterate_cancel {f : Nat → Nat} {S : Nat → Prop} (hS : ∀ i, S i → S (f i)) (inj : ∀ i j, S i → S j → f i = f j → i = j) {x : Nat} (hx : S x) :
    ∀ a b, f^[a] x = f^[a + b] x → f^[b] x = x
  | 0, b, h => by rw [Nat.zero_add] at h; exact h.symm
  | a + 1, b, h => by
    refine iterate_cancel hS inj hx a b (inj _ _ (iterate_mem hS hx _) (iterate_mem hS hx _) ?_)
    have e1 := Function.iterate_succ_apply' f a x
    have e2 := Function.iterate_succ_apply' f (a + b) x
    rw [← e1, ← e2]
    rw [show (a + b).succ = a + 1 + b by omega]
    exact h

theorem orbit_return {f : Nat → Nat} {S : Nat → Prop} {n : Nat} (hS : ∀ i, S i → S (f i)) (hn : ∀ i, S i → i < n)
    (inj : ∀ i j, S i → S j → f i = f j → i = j) {x : Nat} (hx : S x) : ∃ k, 1 ≤ k ∧ k ≤ n ∧ f^[k] x = x := by
  let g : Fin (n + 1) → Fin n := fun a => ⟨f^[a] x, hn _ (iterate_mem hS hx _)⟩
  obtain ⟨a, b, hab, hg⟩ := Fintype.exists_ne_map_eq_of_card_lt g (by simp)
  have hg' : f^[(a : Nat)] x = f^[(b : Nat)] x := by
    have := congrArg Fin.val hg
    exact this
  have hne : (a : Nat) ≠ b := fun e => hab (Fin.ext e)
  have ha := a.2
  have hb := b.2
  rcases Nat.lt_or_gt_of_ne hne with hlt | hlt
  · refine ⟨b - a, by omega, by omega, iterate_cancel hS inj hx a _ ?_⟩
    rw [hg']; congr 1; omega
  · refine ⟨a - b, by omega, by omega, iterate_cancel hS inj hx b _ ?_⟩
    rw [← hg']; congr 1; omega

/-- The least period. -/
theorem orbit_period {f : Nat → Nat} {S : Nat → Prop} {n : Nat} (hS : ∀ i, S i → S (f i)) (hn : ∀ i, S i → i < n)
    (inj : ∀ i j, S i → S j → f i = f j → i = j) {x : Nat} (hx : S x) :
    ∃ k, 1 ≤ k ∧ k ≤ n ∧ f^[k] x = x ∧ ∀ m, 1 ≤ m → m < k → f^[m] x ≠ x := by
  classical
  have hex : ∃ k, 1 ≤ k ∧ f^[k] x = x := by
    obtain ⟨k, a, _, c⟩ := orbit_return hS hn inj hx
    exact ⟨k, a, c⟩
  obtain ⟨k0, a0, b0, c0⟩ := orbit_return hS hn inj hx
  refine ⟨Nat.find hex, (Nat.find_spec hex).1, ?_, (Nat.find_spec hex).2, ?_⟩
  · have := Nat.find_min' hex ⟨a0, c0⟩
    omega
  · intro m h1 h2 h3
    exact Nat.find_min hex h2 ⟨h1, h3⟩

/-- An orbit. -/
def InOrbit (f : Nat → Nat) (x i : Nat) : Prop := ∃ m, i = f^[m] x

theorem InOrbit.self (f : Nat → Nat) (x : Nat) : InOrbit f x x := ⟨0, rfl⟩

theorem InOrbit.step {f : Nat → Nat} {x i : Nat} (h : InOrbit f x i) : InOrbit f x (f i) := by
  obtain ⟨m, rfl⟩ := h
  exact ⟨m + 1, by rw [Function.iterate_succ_apply']⟩

theorem InOrbit.back {f : Nat → Nat} {S : Nat → Prop} {n : Nat} (hS : ∀ i, S i → S (f i)) (hn : ∀ i, S i → i < n)
    (inj : ∀ i j, S i → S j → f i = f j → i = j) {x i : Nat} (hx : S x) (hi : S i) (h : InOrbit f x (f i)) : InOrbit f x i := by
  obtain ⟨m, hm⟩ := h
  cases m with
  | succ m =>
    rw [Function.iterate_succ_apply'] at hm
    exact ⟨m, inj _ _ hi (iterate_mem hS hx m) hm⟩
  | zero =>
    obtain ⟨k, a, _, c⟩ := orbit_return hS hn inj hx
    obtain ⟨k, rfl⟩ : ∃ j, k = j + 1 := ⟨k - 1, by omega⟩
    rw [Function.iterate_succ_apply'] at c
    refine ⟨k, inj _ _ hi (iterate_mem hS hx k) ?_⟩
    rw [c, hm]; rfl

theorem InOrbit.mem {f : Nat → Nat} {S : Nat → Prop} (hS : ∀ i, S i → S (f i)) {x i : Nat} (hx : S x) (h : InOrbit f x i) : S i := by
  obtain ⟨m, rfl⟩ := h
  exact iterate_mem hS hx m

/-! ## Walking around a vertex -/

theorem relabel_go {f : Nat → Nat} {stop : Nat} {v : Option Nat} {k : Nat} (hk : f^[k] stop = stop) (hmin : ∀ m, 1 ≤ m → m < k → f^[m] stop ≠ stop) :
    ∀ (fuel j : Nat) (D : Diag P), (∀ m, D.rotNext (f^[m] stop) = some (f^[m + 1] stop)) → 1 ≤ j → j ≤ k → k < fuel + j →
    ∃ w, D.relabel stop v fuel (f^[j] stop) = some { D with v0 := w } ∧
      (∀ i, (∃ m, j ≤ m ∧ m < k ∧ i = f^[m] stop) → w i = v) ∧ (∀ i, (¬ ∃ m, j ≤ m ∧ m < k ∧ i = f^[m] stop) → w i = D.v0 i)
  | 0, j, D, _, h1, h2, h3 => by omega
  | fuel + 1, j, D, hrot, h1, h2, h3 => by
    rw [Diag.relabel]
    by_cases hj : j = k
    · subst hj
      rw [if_pos hk]
      refine ⟨D.v0, rfl, ?_, fun _ _ => rfl⟩
      rintro i ⟨m, a, b, _⟩
      omega
    · rw [if_neg (hmin j h1 (by omega))]
      have hrot' : ∀ m, ({ D with v0 := upd D.v0 (f^[j] stop) v } : Diag P).rotNext (f^[m] stop) = some (f^[m + 1] stop) := hrot
      have h0 := hrot' j
      dsimp only
      rw [h0]
      obtain ⟨w, q1, q2, q3⟩ := relabel_go hk hmin fuel (j + 1) _ hrot' (by omega) (by omega) (by omega)
      refine ⟨w, q1, ?_, ?_⟩
      · rintro i ⟨m, a, b, c⟩
        by_cases hex : ∃ m, j + 1 ≤ m ∧ m < k ∧ i = f^[m] stop
        · exact q2 i hex
        · rw [q3 i hex]
          have : m = j := by
            by_contra hne
            exact hex ⟨m, by omega, b, c⟩
          subst this
          dsimp only
          rw [c, upd_same]
      · intro i hi
        rw [q3 i (fun ⟨m, a, b, c⟩ => hi ⟨m, by omega, b, c⟩)]
        dsimp only
        rw [upd_ne]
        intro e
        exact hi ⟨j, by omega, by omega, e⟩

/-! ## The structure on a set of half-edges -/

structure G (A : Nat → Prop) (D : Diag P) : Prop where
  lt : ∀ i, A i → i < D.ne
  tw : ∀ i, A i → A (tw i)
  twin : ∀ i, A i → D.twin i = Voronoi.tw i
  cell : ∀ i, A i → D.cell i < D.cells
  diff : ∀ i, A i → D.cell (Voronoi.tw i) ≠ D.cell i
  np : ∀ i, A i → ∀ j, D.next i = some j → A j ∧ D.prev j = some i ∧ D.cell j = D.cell i ∧ D.v0 j = D.v0 (Voronoi.tw i)
  pn : ∀ i, A i → ∀ j, D.prev i = some j → A j ∧ D.next j = some i
  pv : ∀ i, A i → (D.prev i = none ↔ D.v0 i = none)
  nv : ∀ i, A i → (D.next i = none ↔ D.v0 (Voronoi.tw i) = none)

/-- The range of vertices, kept apart because it needs more hypotheses later. -/
def VR (A : Nat → Prop) (D : Diag P) : Prop := ∀ i, A i → ∀ v, D.v0 i = some v → v < D.verts.length

/-- Rotation as a total function. -/
def rho (D : Diag P) (i : Nat) : Nat := match D.prev i with | none => i | some p => tw p

theorem rho_some {D : Diag P} {i p : Nat} (h : D.prev i = some p) : rho D i = tw p := by unfold rho; rw [h]

/-- Half-edges with a start. -/
def Started (A : Nat → Prop) (D : Diag P) (i : Nat) : Prop := A i ∧ D.v0 i ≠ none

theorem G.prev {A : Nat → Prop} {D : Diag P} (g : G A D) {i : Nat} (h : Started A D i) : ∃ p, D.prev i = some p :=
  Option.ne_none_iff_exists'.1 (fun e => h.2 ((g.pv i h.1).1 e))

theorem G.rho_started {A : Nat → Prop} {D : Diag P} (g : G A D) : ∀ i, Started A D i → Started A D (rho D i) := by
  intro i h
  obtain ⟨p, hp⟩ := g.prev h
  obtain ⟨a, b⟩ := g.pn i h.1 p hp
  rw [rho_some hp]
  refine ⟨g.tw p a, ?_⟩
  rw [← (g.np p a i b).2.2.2]
  exact h.2

theorem G.rho_v0 {A : Nat → Prop} {D : Diag P} (g : G A D) {i : Nat} (h : Started A D i) : D.v0 (rho D i) = D.v0 i := by
  obtain ⟨p, hp⟩ := g.prev h
  obtain ⟨a, b⟩ := g.pn i h.1 p hp
  rw [rho_some hp, ← (g.np p a i b).2.2.2]

theorem G.rho_inj {A : Nat → Prop} {D : Diag P} (g : G A D) : ∀ i j, Started A D i → Started A D j → rho D i = rho D j → i = j := by
  intro i j hi hj h
  obtain ⟨p, hp⟩ := g.prev hi
  obtain ⟨q, hq⟩ := g.prev hj
  rw [rho_some hp, rho_some hq, tw_inj] at h
  have a := (g.pn i hi.1 p hp).2
  have b := (g.pn j hj.1 q hq).2
  rw [h, b] at a
  exact (Option.some.inj a).symm

theorem G.rotNext {A : Nat → Prop} {D : Diag P} (g : G A D) {i : Nat} (h : Started A D i) : D.rotNext i = some (rho D i) := by
  obtain ⟨p, hp⟩ := g.prev h
  unfold Diag.rotNext
  rw [hp, rho_some hp, Option.map_some, g.twin p (g.pn i h.1 p hp).1]

/-- Relabelling a whole cycle but its first half-edge. -/
theorem relabel_cycle {A : Nat → Prop} {D : Diag P} (g : G A D) {t : Nat} (ht : Started A D t) (v : Option Nat) :
    ∃ w, D.relabel t v (D.ne + 1) (rho D t) = some { D with v0 := w } ∧
      (∀ i, InOrbit (rho D) t i → i ≠ t → w i = v) ∧ (∀ i, ¬ InOrbit (rho D) t i ∨ i = t → w i = D.v0 i) := by
  obtain ⟨k, k1, k2, k3, k4⟩ := orbit_period (n := D.ne) g.rho_started (fun i h => g.lt i h.1) g.rho_inj ht
  have hrot : ∀ m, D.rotNext ((rho D)^[m] t) = some ((rho D)^[m + 1] t) := by
    intro m
    rw [Function.iterate_succ_apply']
    exact g.rotNext (iterate_mem g.rho_started ht m)
  obtain ⟨w, q1, q2, q3⟩ := relabel_go (v := v) k3 k4 (D.ne + 1) 1 D hrot (le_refl _) k1 (by omega)
  refine ⟨w, q1, ?_, ?_⟩
  · rintro i ⟨m, rfl⟩ hne
    refine q2 _ ⟨m % k, ?_, Nat.mod_lt _ (by omega), ?_⟩
    · rcases Nat.eq_zero_or_pos (m % k) with h0 | h0
      · exfalso
        apply hne
        have : (rho D)^[m] t = (rho D)^[m % k] t := by
          have hp : Function.IsPeriodicPt (rho D) k t := k3
          exact (hp.iterate_mod_apply m).symm
        rw [this, h0]; rfl
      · exact h0
    · have hp : Function.IsPeriodicPt (rho D) k t := k3
      exact (hp.iterate_mod_apply m).symm
  · rintro i h
    refine q3 i ?_
    rintro ⟨m, a, b, c⟩
    rcases h with h | h
    · exact h ⟨m, c⟩
    · exact k4 m a b (by rw [← c, h])

/-- Removing a half-edge and its twin unlinks them from their faces and joins their vertices. -/
theorem removeEdge_spec {A : Nat → Prop} {D : Diag P} (g : G A D) {e : Nat} (he : Started A D e) (het : Started A D (tw e)) :
    ∃ D', D.removeEdge e = some D' ∧ G (fun i => A i ∧ i ≠ e ∧ i ≠ tw e) D' ∧
      (VR A D → VR (fun i => A i ∧ i ≠ e ∧ i ≠ tw e) D') ∧
      D'.ne = D.ne ∧ D'.cells = D.cells ∧ D'.verts = D.verts ∧ D'.cell = D.cell ∧
      (∀ i, A i → (D'.v0 i = none ↔ D.v0 i = none)) := by
  have htw : D.twin e = tw e := g.twin e he.1
  generalize ht : tw e = t at het htw
  have hte : tw t = e := by rw [← ht, tw_tw]
  have htwt : D.twin t = e := by rw [g.twin t het.1, hte]
  obtain ⟨w, q1, q2, q3⟩ := relabel_cycle g het (D.v0 e)
  have hne : t ≠ e := by rw [← ht]; exact tw_ne e
  have hcd : D.cell t ≠ D.cell e := by rw [← ht]; exact g.diff e he.1
  -- the neighbours in the two faces
  obtain ⟨pe, hpe⟩ := g.prev he
  obtain ⟨pt, hpt⟩ := g.prev het
  have hne0 : D.next e ≠ none := fun x => het.2 (by rw [← ht]; exact (g.nv e he.1).1 x)
  have hnt0 : D.next t ≠ none := fun x => he.2 (by rw [← hte]; exact (g.nv t het.1).1 x)
  obtain ⟨ce, hce⟩ := Option.ne_none_iff_exists'.1 hne0
  obtain ⟨nt, hnt⟩ := Option.ne_none_iff_exists'.1 hnt0
  obtain ⟨Ape, npe⟩ := g.pn e he.1 pe hpe
  obtain ⟨Apt, npt⟩ := g.pn t het.1 pt hpt
  obtain ⟨Ace, pce, cce, vce⟩ := g.np e he.1 ce hce
  obtain ⟨Ant, pnt, cnt, vnt⟩ := g.np t het.1 nt hnt
  have cpe := (g.np pe Ape e npe).2.2.1
  have cpt := (g.np pt Apt t npt).2.2.1
  have vpe := (g.np pe Ape e npe).2.2.2
  have vpt := (g.np pt Apt t npt).2.2.2
  rw [hte] at vnt
  rw [ht] at vce
  have hrn1 : D.rotNext e = some (tw pe) := by rw [g.rotNext he, rho_some hpe]
  have hrn2 : D.rotNext t = some (tw pt) := by rw [g.rotNext het, rho_some hpt]
  have hrp1 : D.rotPrev e = some nt := by unfold Diag.rotPrev; rw [htw, hnt]
  have hrp2 : D.rotPrev t = some ce := by unfold Diag.rotPrev; rw [htwt, hce]
  have htpe : D.twin (tw pe) = pe := by rw [g.twin _ (g.tw _ Ape), tw_tw]
  have htpt : D.twin (tw pt) = pt := by rw [g.twin _ (g.tw _ Apt), tw_tw]
  have hres : D.removeEdge e = some { D with v0 := w, next := upd (upd D.next pe (some ce)) pt (some nt), prev := upd (upd D.prev ce (some pe)) nt (some pt) } := by
    unfold Diag.removeEdge
    dsimp only
    rw [htw, g.rotNext het]
    dsimp only [Option.bind_eq_bind, Option.bind_some]
    rw [q1]
    dsimp only [Option.bind_some]
    have r1 : ({ D with v0 := w } : Diag P).rotPrev e = some nt := hrp1
    have r2 : ({ D with v0 := w } : Diag P).rotNext e = some (tw pe) := hrn1
    have r3 : ({ D with v0 := w } : Diag P).rotPrev t = some ce := hrp2
    have r4 : ({ D with v0 := w } : Diag P).rotNext t = some (tw pt) := hrn2
    rw [r1, r2, r3, r4]
    dsimp only [Option.bind_some]
    rw [htpe, htpt]
    rfl
  -- facts about the new start vertices
  have hwn : ∀ i, A i → (w i = none ↔ D.v0 i = none) := by
    intro i hi
    by_cases ho : InOrbit (rho D) t i ∧ i ≠ t
    · rw [q2 i ho.1 ho.2]
      exact ⟨fun x => absurd x he.2, fun x => absurd x (ho.1.mem g.rho_started het).2⟩
    · rw [q3 i (by tauto)]
  refine ⟨_, hres, ?_, ?_, rfl, rfl, rfl, rfl, hwn⟩
  · have rback : ∀ i, Started A D i → InOrbit (rho D) t (rho D i) → InOrbit (rho D) t i := fun i hi h =>
      InOrbit.back (n := D.ne) g.rho_started (fun i h => g.lt i h.1) g.rho_inj het hi h
    have hpept : pe ≠ pt := fun x => hcd (by rw [cpt, cpe, x])
    have hcent : ce ≠ nt := fun x => hcd (by rw [← cnt, ← cce, x])
    have hpee : pe ≠ t := fun x => hcd (by rw [cpe, x])
    have hcet : ce ≠ t := fun x => hcd (by rw [← cce, x])
    have hnte : nt ≠ e := fun x => hcd (by rw [← cnt, x])
    have hpte : pt ≠ e := fun x => hcd (by rw [cpt, x])
    have hnx : ∀ i, upd (upd D.next pe (some ce)) pt (some nt) i = if i = pt then some nt else if i = pe then some ce else D.next i := fun _ => rfl
    have hpx : ∀ i, upd (upd D.prev ce (some pe)) nt (some pt) i = if i = nt then some pt else if i = ce then some pe else D.prev i := fun _ => rfl
    refine ⟨fun i hi => g.lt i hi.1, ?_, fun i hi => g.twin i hi.1, fun i hi => g.cell i hi.1, fun i hi => g.diff i hi.1, ?_, ?_, ?_, ?_⟩
    · rintro i ⟨h1, h2, h3⟩
      refine ⟨g.tw i h1, ?_, ?_⟩
      · rw [ne_eq, tw_eq_comm, ht]; exact h3
      · rw [ne_eq, tw_eq_comm, hte]; exact h2
    · rintro i ⟨h1, h2, h3⟩ j hj
      dsimp only at hj ⊢
      rw [hnx] at hj
      rw [hpx]
      by_cases c1 : i = pt
      · rw [if_pos c1, Option.some.injEq] at hj
        subst hj
        have hntt : nt ≠ t := by
          intro x
          rw [x] at pnt
          rw [pnt] at hpt
          exact h3 (by rw [c1]; exact (Option.some.inj hpt).symm)
        refine ⟨⟨Ant, hnte, hntt⟩, by rw [if_pos rfl, c1], by rw [cnt, c1, ← cpt], ?_⟩
        have hl : w nt = D.v0 e := by
          by_cases ho : InOrbit (rho D) t nt
          · exact q2 nt ho hntt
          · rw [q3 nt (Or.inl ho), vnt]
        have hr : w (tw i) = D.v0 e := by
          rw [c1]
          refine q2 _ ?_ ?_
          · rw [← rho_some hpt]; exact (InOrbit.self _ _).step
          · rw [ne_eq, tw_eq_comm, hte]; exact hpte
        rw [hl, hr]
      · rw [if_neg c1] at hj
        by_cases c2 : i = pe
        · rw [if_pos c2, Option.some.injEq] at hj
          subst hj
          have hcee : ce ≠ e := by
            intro x
            rw [x] at pce
            rw [pce] at hpe
            exact h2 (by rw [c2]; exact (Option.some.inj hpe).symm)
          refine ⟨⟨Ace, hcee, hcet⟩, by rw [if_neg hcent, if_pos rfl, c2], by rw [cce, c2, ← cpe], ?_⟩
          have hsce : Started A D ce := ⟨Ace, by rw [vce]; exact het.2⟩
          have hl : w ce = D.v0 e := by
            refine q2 ce (rback ce hsce ?_) hcet
            rw [rho_some pce, ht]
            exact InOrbit.self _ _
          have hr : w (tw i) = D.v0 e := by
            rw [c2]
            by_cases ho : InOrbit (rho D) t (tw pe) ∧ tw pe ≠ t
            · exact q2 _ ho.1 ho.2
            · rw [q3 _ (by tauto), ← vpe]
          rw [hl, hr]
        · rw [if_neg c2] at hj
          obtain ⟨Aj, pj, cj, vj⟩ := g.np i h1 j hj
          have j1 : j ≠ e := by
            rintro rfl
            rw [hpe] at pj
            exact c2 (Option.some.inj pj).symm
          have j2 : j ≠ t := by
            rintro rfl
            rw [hpt] at pj
            exact c1 (Option.some.inj pj).symm
          have j3 : j ≠ ce := by
            rintro rfl
            rw [pce] at pj
            exact h2 (Option.some.inj pj).symm
          have j4 : j ≠ nt := by
            rintro rfl
            rw [pnt] at pj
            exact h3 (Option.some.inj pj).symm
          refine ⟨⟨Aj, j1, j2⟩, by rw [if_neg j4, if_neg j3]; exact pj, cj, ?_⟩
          have ti : tw i ≠ t := by
            rw [ne_eq, tw_eq_comm, hte]; exact h2
          have hsj : Started A D j := ⟨Aj, fun x => by
            rw [(g.pv j Aj).2 x] at pj; cases pj⟩
          have hrj : rho D j = tw i := rho_some pj
          by_cases ho : InOrbit (rho D) t j
          · have ho' : InOrbit (rho D) t (tw i) := by rw [← hrj]; exact ho.step
            rw [q2 j ho j2, q2 _ ho' ti]
          · have ho' : ¬ InOrbit (rho D) t (tw i) := by
              rw [← hrj]
              exact fun x => ho (rback j hsj x)
            rw [q3 j (Or.inl ho), q3 _ (Or.inl ho')]
            exact vj
    · rintro i ⟨h1, h2, h3⟩ j hj
      dsimp only at hj ⊢
      rw [hpx] at hj
      rw [hnx]
      by_cases c1 : i = nt
      · rw [if_pos c1, Option.some.injEq] at hj
        subst hj
        have hptt : pt ≠ t := by
          intro x
          rw [x] at npt
          rw [npt] at hnt
          exact h3 (by rw [c1]; exact (Option.some.inj hnt).symm)
        exact ⟨⟨Apt, hpte, hptt⟩, by rw [if_pos rfl, c1]⟩
      · rw [if_neg c1] at hj
        by_cases c2 : i = ce
        · rw [if_pos c2, Option.some.injEq] at hj
          subst hj
          have hpee' : pe ≠ e := by
            intro x
            rw [x] at npe
            rw [npe] at hce
            exact h2 (by rw [c2]; exact (Option.some.inj hce).symm)
          exact ⟨⟨Ape, hpee', hpee⟩, by rw [if_neg hpept, if_pos rfl, c2]⟩
        · rw [if_neg c2] at hj
          obtain ⟨Aj, nj⟩ := g.pn i h1 j hj
          have j1 : j ≠ e := by
            rintro rfl
            rw [hce] at nj
            exact c2 (Option.some.inj nj).symm
          have j2 : j ≠ t := by
            rintro rfl
            rw [hnt] at nj
            exact c1 (Option.some.inj nj).symm
          have j3 : j ≠ pe := by
            rintro rfl
            rw [npe] at nj
            exact h2 (Option.some.inj nj).symm
          have j4 : j ≠ pt := by
            rintro rfl
            rw [npt] at nj
            exact h3 (Option.some.inj nj).symm
          exact ⟨⟨Aj, j1, j2⟩, by rw [if_neg j4, if_neg j3]; exact nj⟩
    · rintro i ⟨h1, h2, h3⟩
      dsimp only
      rw [hpx, hwn i h1, ← g.pv i h1]
      by_cases c1 : i = nt
      · rw [if_pos c1, c1, pnt]; simp
      · rw [if_neg c1]
        by_cases c2 : i = ce
        · rw [if_pos c2, c2, pce]; simp
        · rw [if_neg c2]
    · rintro i ⟨h1, h2, h3⟩
      dsimp only
      rw [hnx, hwn _ (g.tw i h1), ← g.nv i h1]
      by_cases c1 : i = pt
      · rw [if_pos c1, c1, npt]; simp
      · rw [if_neg c1]
        by_cases c2 : i = pe
        · rw [if_pos c2, c2, npe]; simp
        · rw [if_neg c2]
  · rintro hvr i ⟨h1, h2, h3⟩ v hv
    dsimp only at hv ⊢
    by_cases ho : InOrbit (rho D) t i ∧ i ≠ t
    · rw [q2 i ho.1 ho.2] at hv
      exact hvr e he.1 v hv
    · rw [q3 i (by tauto)] at hv
      exact hvr i h1 v hv

/-! ## Moving a pair of half-edges -/

theorem relinkEdge_eq {D : Diag P} {a b : Nat} (h : D.prev a = none ↔ D.next b = none) :
    D.relinkEdge a b = some { D with
      next := fun i => if D.prev a = some i then some a else D.next i
      prev := fun i => if D.next b = some i then some b else D.prev i } := by
  unfold Diag.relinkEdge
  cases hp : D.prev a with
  | none =>
    rw [h.1 hp]
    simp
  | some p =>
    have hn : D.next b ≠ none := fun x => by rw [h.2 x] at hp; cases hp
    obtain ⟨n, hn⟩ := Option.ne_none_iff_exists'.1 hn
    rw [hn]
    dsimp only [Option.bind_eq_bind, Option.bind_some]
    have e1 : upd D.next p (some a) = fun i => if some p = some i then some a else D.next i := by
      funext i
      simp only [upd, Option.some.injEq, eq_comm]
    have e2 : upd D.prev n (some b) = fun i => if some n = some i then some b else D.prev i := by
      funext i
      simp only [upd, Option.some.injEq, eq_comm]
    rw [e1, e2]
    rfl

/-- The new place of a half-edge. -/
def tau (x y : Nat) (i : Nat) : Nat := if i = x then y else if i = x + 1 then y + 1 else i

theorem moveEdge_spec {A : Nat → Prop} {D : Diag P} (g : G A D) {x y : Nat} (hx : x % 2 = 0) (hy : y % 2 = 0) (hyx : y < x) (ax : A x)
    (ay : ¬ A y) (ay' : ¬ A (y + 1)) (hns : ¬ (D.v0 x = D.v0 (tw x) ∧ D.v0 x ≠ none)) :
    ∃ D', D.moveEdge x y = some D' ∧ G (fun i => (A i ∧ i ≠ x ∧ i ≠ x + 1) ∨ i = y ∨ i = y + 1) D' ∧
      (VR A D → VR (fun i => (A i ∧ i ≠ x ∧ i ≠ x + 1) ∨ i = y ∨ i = y + 1) D') ∧
      D'.ne = D.ne ∧ D'.cells = D.cells ∧ D'.verts = D.verts ∧
      (∀ o, A o → D'.cell (tau x y o) = D.cell o) ∧ (∀ o, A o → D'.v0 (tau x y o) = D.v0 o) ∧
      (∀ o, A o → tw (tau x y o) = tau x y (tw o)) := by
  have tx : tw x = x + 1 := by unfold tw; simp [hx]
  have tx' : tw (x + 1) = x := by rw [← tx, tw_tw]
  have ty : tw y = y + 1 := by unfold tw; simp [hy]
  have ty' : tw (y + 1) = y := by rw [← ty, tw_tw]
  have ax' : A (x + 1) := by rw [← tx]; exact g.tw x ax
  have hcd : D.cell (x + 1) ≠ D.cell x := by rw [← tx]; exact g.diff x ax
  rw [tx] at hns
  -- no half-edge of the pair is its own neighbour
  have n1 : D.next x ≠ some x := by
    intro h
    obtain ⟨_, b, _, d⟩ := g.np x ax x h
    rw [tx] at d
    exact hns ⟨d, fun e => by rw [(g.pv x ax).2 e] at b; cases b⟩
  have n2 : D.next x ≠ some (x + 1) := fun h => hcd (g.np x ax _ h).2.2.1
  have n3 : D.next (x + 1) ≠ some (x + 1) := by
    intro h
    obtain ⟨_, b, _, d⟩ := g.np _ ax' _ h
    rw [tx'] at d
    refine hns ⟨d.symm, fun e => ?_⟩
    rw [e] at d
    rw [(g.pv _ ax').2 d] at b; cases b
  have n4 : D.next (x + 1) ≠ some x := fun h => hcd (g.np _ ax' _ h).2.2.1.symm
  have p1 : D.prev x ≠ some x := fun h => n1 (g.pn x ax x h).2
  have p2 : D.prev x ≠ some (x + 1) := fun h => n4 (g.pn x ax _ h).2
  have p3 : D.prev (x + 1) ≠ some (x + 1) := fun h => n3 (g.pn _ ax' _ h).2
  have p4 : D.prev (x + 1) ≠ some x := fun h => n2 (g.pn _ ax' x h).2
  have ny : ∀ i, A i → ∀ j, D.next i = some j → j ≠ y ∧ j ≠ y + 1 := fun i hi j hj =>
    ⟨fun e => ay (e ▸ (g.np i hi j hj).1), fun e => ay' (e ▸ (g.np i hi j hj).1)⟩
  have py : ∀ i, A i → ∀ j, D.prev i = some j → j ≠ y ∧ j ≠ y + 1 := fun i hi j hj =>
    ⟨fun e => ay (e ▸ (g.pn i hi j hj).1), fun e => ay' (e ▸ (g.pn i hi j hj).1)⟩
  have z1 : y ≠ y + 1 := by omega
  have cy : ∀ {α : Type} (f : Nat → α) a b, upd (upd f y a) (y + 1) b y = a := by
    intro α f a b; rw [upd_ne _ _ z1, upd_same]
  have cy' : ∀ {α : Type} (f : Nat → α) a b, upd (upd f y a) (y + 1) b (y + 1) = b := by
    intro α f a b; rw [upd_same]
  have co : ∀ {α : Type} (f : Nat → α) a b i, A i → upd (upd f y a) (y + 1) b i = f i := by
    intro α f a b i hi
    have w1 : i ≠ y + 1 := fun e => ay' (e ▸ hi)
    have w2 : i ≠ y := fun e => ay (e ▸ hi)
    rw [upd_ne _ _ w1, upd_ne _ _ w2]
  have hpn1 : D.prev x = none ↔ D.next (x + 1) = none := by
    rw [g.pv x ax, g.nv _ ax', tx']
  have hpn2 : D.prev (x + 1) = none ↔ D.next x = none := by
    rw [g.pv _ ax', g.nv x ax, tx]
  let N : Nat → Option Nat := fun i => if D.prev (x + 1) = some i then some (y + 1) else if D.prev x = some i then some y else (D.copyEdge x y).next i
  let Q : Nat → Option Nat := fun i => if D.next x = some i then some y else if D.next (x + 1) = some i then some (y + 1) else (D.copyEdge x y).prev i
  have hmove : D.moveEdge x y = some { D.copyEdge x y with next := N, prev := Q } := by
    unfold Diag.moveEdge
    have e1 : (D.copyEdge x y).prev y = D.prev x := cy _ _ _
    have e2 : (D.copyEdge x y).next (y + 1) = D.next (x + 1) := cy' _ _ _
    have e3 : (D.copyEdge x y).prev (y + 1) = D.prev (x + 1) := cy' _ _ _
    have e4 : (D.copyEdge x y).next y = D.next x := cy _ _ _
    rw [relinkEdge_eq (by rw [e1, e2]; exact hpn1), e1, e2]
    dsimp only [Option.bind_eq_bind, Option.bind_some]
    have m1 : (if D.next (x + 1) = some (y + 1) then some (y + 1) else (D.copyEdge x y).prev (y + 1)) = D.prev (x + 1) := by
      rw [if_neg (fun h => (ny _ ax' _ h).2 rfl), e3]
    have m2 : (if D.prev x = some y then some y else (D.copyEdge x y).next y) = D.next x := by
      rw [if_neg (fun h => (py _ ax _ h).1 rfl), e4]
    rw [relinkEdge_eq]
    · simp only [m1, m2]
      rfl
    · dsimp only
      rw [m1, m2]
      exact hpn2
  refine ⟨_, hmove, ?_⟩
  -- the renaming
  have t_x : tau x y x = y := by simp [tau]
  have t_x' : tau x y (x + 1) = y + 1 := by simp [tau]
  have t_o : ∀ i, i ≠ x → i ≠ x + 1 → tau x y i = i := by intro i h1 h2; simp [tau, h1, h2]
  have hA' : ∀ i, ((A i ∧ i ≠ x ∧ i ≠ x + 1) ∨ i = y ∨ i = y + 1) ↔ ∃ o, A o ∧ i = tau x y o := by
    intro i
    constructor
    · rintro (⟨a, b, c⟩ | rfl | rfl)
      · exact ⟨i, a, (t_o i b c).symm⟩
      · exact ⟨x, ax, t_x.symm⟩
      · exact ⟨x + 1, ax', t_x'.symm⟩
    · rintro ⟨o, ho, rfl⟩
      by_cases h1 : o = x
      · rw [h1, t_x]; exact Or.inr (Or.inl rfl)
      · by_cases h2 : o = x + 1
        · rw [h2, t_x']; exact Or.inr (Or.inr rfl)
        · rw [t_o o h1 h2]; exact Or.inl ⟨ho, h1, h2⟩
  have t_tw : ∀ o, tw (tau x y o) = tau x y (tw o) := by
    intro o
    by_cases h1 : o = x
    · rw [h1, t_x, tx, t_x', ty]
    · by_cases h2 : o = x + 1
      · rw [h2, t_x', tx', t_x, ty']
      · rw [t_o o h1 h2, t_o]
        · rw [ne_eq, tw_eq_comm, tx]; exact h2
        · rw [ne_eq, tw_eq_comm, tx']; exact h1
  have hf : ∀ {α : Type} (f : Nat → α) o, A o → upd (upd f y (f x)) (y + 1) (f (x + 1)) (tau x y o) = f o := by
    intro α f o ho
    by_cases h1 : o = x
    · rw [h1, t_x, cy]
    · by_cases h2 : o = x + 1
      · rw [h2, t_x', cy']
      · rw [t_o o h1 h2, co _ _ _ _ ho]
  have hN : ∀ o, A o → N (tau x y o) = (D.next o).map (tau x y) := by
    intro o ho
    show (if D.prev (x + 1) = some (tau x y o) then some (y + 1) else if D.prev x = some (tau x y o) then some y else upd (upd D.next y (D.next x)) (y + 1) (D.next (x + 1)) (tau x y o)) = _
    rw [hf _ o ho]
    have fixn : ∀ j, D.next o = some j → j ≠ x → j ≠ x + 1 → some j = (some j).map (tau x y) := by
      intro j _ a b
      rw [Option.map_some, t_o j a b]
    have fix0 : (∀ j, D.next o = some j → j ≠ x ∧ j ≠ x + 1) → D.next o = (D.next o).map (tau x y) := by
      intro hh
      cases hj : D.next o with
      | none => rfl
      | some j => exact fixn j hj (hh j hj).1 (hh j hj).2
    by_cases h1 : o = x
    · subst h1
      rw [t_x, if_neg (fun h => (py _ ax' _ h).1 rfl), if_neg (fun h => (py _ ax _ h).1 rfl)]
      exact fix0 (fun j hj => ⟨fun e => n1 (e ▸ hj), fun e => n2 (e ▸ hj)⟩)
    · by_cases h2 : o = x + 1
      · subst h2
        rw [t_x', if_neg (fun h => (py _ ax' _ h).2 rfl), if_neg (fun h => (py _ ax _ h).2 rfl)]
        exact fix0 (fun j hj => ⟨fun e => n4 (e ▸ hj), fun e => n3 (e ▸ hj)⟩)
      · rw [t_o o h1 h2]
        by_cases c1 : D.prev (x + 1) = some o
        · rw [if_pos c1, (g.pn _ ax' _ c1).2, Option.map_some, t_x']
        · rw [if_neg c1]
          by_cases c2 : D.prev x = some o
          · rw [if_pos c2, (g.pn _ ax _ c2).2, Option.map_some, t_x]
          · rw [if_neg c2]
            exact fix0 (fun j hj => ⟨fun e => c2 (e ▸ (g.np o ho j hj).2.1), fun e => c1 (e ▸ (g.np o ho j hj).2.1)⟩)
  have hQ : ∀ o, A o → Q (tau x y o) = (D.prev o).map (tau x y) := by
    intro o ho
    show (if D.next x = some (tau x y o) then some y else if D.next (x + 1) = some (tau x y o) then some (y + 1) else upd (upd D.prev y (D.prev x)) (y + 1) (D.prev (x + 1)) (tau x y o)) = _
    rw [hf _ o ho]
    have fix0 : (∀ j, D.prev o = some j → j ≠ x ∧ j ≠ x + 1) → D.prev o = (D.prev o).map (tau x y) := by
      intro hh
      cases hj : D.prev o with
      | none => rfl
      | some j => rw [Option.map_some, t_o j (hh j hj).1 (hh j hj).2]
    by_cases h1 : o = x
    · subst h1
      rw [t_x, if_neg (fun h => (ny _ ax _ h).1 rfl), if_neg (fun h => (ny _ ax' _ h).1 rfl)]
      exact fix0 (fun j hj => ⟨fun e => p1 (e ▸ hj), fun e => p2 (e ▸ hj)⟩)
    · by_cases h2 : o = x + 1
      · subst h2
        rw [t_x', if_neg (fun h => (ny _ ax _ h).2 rfl), if_neg (fun h => (ny _ ax' _ h).2 rfl)]
        exact fix0 (fun j hj => ⟨fun e => p4 (e ▸ hj), fun e => p3 (e ▸ hj)⟩)
      · rw [t_o o h1 h2]
        by_cases c1 : D.next x = some o
        · rw [if_pos c1, (g.np _ ax _ c1).2.1, Option.map_some, t_x]
        · rw [if_neg c1]
          by_cases c2 : D.next (x + 1) = some o
          · rw [if_pos c2, (g.np _ ax' _ c2).2.1, Option.map_some, t_x']
          · rw [if_neg c2]
            exact fix0 (fun j hj => ⟨fun e => c1 (e ▸ (g.pn o ho j hj).2), fun e => c2 (e ▸ (g.pn o ho j hj).2)⟩)
  have t_inj : ∀ a b, A a → A b → tau x y a = tau x y b → a = b := by
    intro a b ha hb h
    have na : a ≠ y ∧ a ≠ y + 1 := ⟨fun e => ay (e ▸ ha), fun e => ay' (e ▸ ha)⟩
    have nb : b ≠ y ∧ b ≠ y + 1 := ⟨fun e => ay (e ▸ hb), fun e => ay' (e ▸ hb)⟩
    unfold tau at h
    split_ifs at h <;> omega
  have hv0 : ∀ o, A o → (D.copyEdge x y).v0 (tau x y o) = D.v0 o := fun o ho => hf D.v0 o ho
  have hcell : ∀ o, A o → (D.copyEdge x y).cell (tau x y o) = D.cell o := fun o ho => hf D.cell o ho
  have htlt : ∀ o, A o → tau x y o < D.ne := by
    intro o ho
    have := g.lt o ho
    have := g.lt _ ax'
    unfold tau
    split_ifs <;> omega
  refine ⟨⟨?_, ?_, ?_, ?_, ?_, ?_, ?_, ?_, ?_⟩, ?_, rfl, rfl, rfl, hcell, hv0, fun o _ => t_tw o⟩
  · intro i hi
    rw [hA'] at hi
    obtain ⟨o, ho, rfl⟩ := hi
    exact htlt o ho
  · intro i hi
    rw [hA'] at hi ⊢
    obtain ⟨o, ho, rfl⟩ := hi
    exact ⟨tw o, g.tw o ho, t_tw o⟩
  · intro i hi
    show upd (upd D.twin y (y + 1)) (y + 1) y i = tw i
    rcases hi with ⟨a, b, c⟩ | rfl | rfl
    · rw [co _ _ _ _ a]; exact g.twin i a
    · rw [cy, ty]
    · rw [cy', ty']
  · intro i hi
    rw [hA'] at hi
    obtain ⟨o, ho, rfl⟩ := hi
    show (D.copyEdge x y).cell (tau x y o) < _
    rw [hcell o ho]
    exact g.cell o ho
  · intro i hi
    rw [hA'] at hi
    obtain ⟨o, ho, rfl⟩ := hi
    show (D.copyEdge x y).cell (tw (tau x y o)) ≠ (D.copyEdge x y).cell (tau x y o)
    rw [t_tw, hcell o ho, hcell _ (g.tw o ho)]
    exact g.diff o ho
  · intro i hi j hj
    rw [hA'] at hi
    obtain ⟨o, ho, rfl⟩ := hi
    have hj' : N (tau x y o) = some j := hj
    rw [hN o ho] at hj'
    obtain ⟨k, hk, rfl⟩ := Option.map_eq_some_iff.1 hj'
    obtain ⟨a, b, c, d⟩ := g.np o ho k hk
    refine ⟨(hA' _).2 ⟨k, a, rfl⟩, ?_, ?_, ?_⟩
    · show Q (tau x y k) = _
      rw [hQ k a, b, Option.map_some]
    · show (D.copyEdge x y).cell (tau x y k) = (D.copyEdge x y).cell (tau x y o)
      rw [hcell k a, hcell o ho, c]
    · show (D.copyEdge x y).v0 (tau x y k) = (D.copyEdge x y).v0 (tw (tau x y o))
      rw [t_tw, hv0 k a, hv0 _ (g.tw o ho), d]
  · intro i hi j hj
    rw [hA'] at hi
    obtain ⟨o, ho, rfl⟩ := hi
    have hj' : Q (tau x y o) = some j := hj
    rw [hQ o ho] at hj'
    obtain ⟨k, hk, rfl⟩ := Option.map_eq_some_iff.1 hj'
    obtain ⟨a, b⟩ := g.pn o ho k hk
    refine ⟨(hA' _).2 ⟨k, a, rfl⟩, ?_⟩
    show N (tau x y k) = _
    rw [hN k a, b, Option.map_some]
  · intro i hi
    rw [hA'] at hi
    obtain ⟨o, ho, rfl⟩ := hi
    show Q (tau x y o) = none ↔ (D.copyEdge x y).v0 (tau x y o) = none
    rw [hQ o ho, hv0 o ho, Option.map_eq_none_iff]
    exact g.pv o ho
  · intro i hi
    rw [hA'] at hi
    obtain ⟨o, ho, rfl⟩ := hi
    show N (tau x y o) = none ↔ (D.copyEdge x y).v0 (tw (tau x y o)) = none
    rw [hN o ho, t_tw, hv0 _ (g.tw o ho), Option.map_eq_none_iff]
    exact g.nv o ho
  · intro hvr i hi v hv
    rw [hA'] at hi
    obtain ⟨o, ho, rfl⟩ := hi
    have hv' : (D.copyEdge x y).v0 (tau x y o) = some v := hv
    rw [hv0 o ho] at hv'
    exact hvr o ho v hv'

/-! ## Removing all degenerate edges -/

/-- The half-edges in use when the loop is at `x` with the next free place at `y`. -/
def Rng (x y n i : Nat) : Prop := i < y ∨ x ≤ i ∧ i < n

theorem G.congr {A B : Nat → Prop} {D : Diag P} (g : G A D) (h : ∀ i, B i ↔ A i) : G B D :=
  have : B = A := funext fun i => propext (h i)
  this ▸ g

theorem VR.congr {A B : Nat → Prop} {D : Diag P} (g : VR A D) (h : ∀ i, B i ↔ A i) : VR B D :=
  fun i hi => g i ((h i).1 hi)

theorem degenerate_spec {A : Nat → Prop} {D : Diag P} (g : G A D) (hv : VR A D) {eq : P → P → Bool} (hrefl : ∀ p, eq p p = true) {x : Nat} (ax : A x) :
    ∃ b, D.degenerate eq x = some b ∧ (b = true → D.v0 x ≠ none ∧ D.v0 (tw x) ≠ none) ∧
      (b = false → ¬ (D.v0 x = D.v0 (tw x) ∧ D.v0 x ≠ none)) := by
  unfold Diag.degenerate
  rw [g.twin x ax]
  cases h1 : D.v0 x with
  | none => exact ⟨false, rfl, by simp, by simp⟩
  | some v1 =>
    cases h2 : D.v0 (tw x) with
    | none => exact ⟨false, rfl, by simp, by simp⟩
    | some v2 =>
      have l1 := hv x ax v1 h1
      have l2 := hv _ (g.tw x ax) v2 h2
      simp only [List.getElem?_eq_getElem l1, List.getElem?_eq_getElem l2]
      refine ⟨_, rfl, by simp, ?_⟩
      rintro hb ⟨he, _⟩
      simp only [Option.some.injEq] at he
      subst he
      rw [hrefl] at hb
      cases hb

theorem cleanEdges_spec {eq : P → P → Bool} (hrefl : ∀ p, eq p p = true) : ∀ (k x y : Nat) (D : Diag P), x % 2 = 0 → y % 2 = 0 → y ≤ x →
    D.ne = x + 2 * k → G (Rng x y D.ne) D → VR (Rng x y D.ne) D →
    ∃ D', D.cleanEdges eq k x y = some D' ∧ G (fun i => i < D'.ne) D' ∧ VR (fun i => i < D'.ne) D' ∧ D'.ne % 2 = 0 ∧
      D'.cells = D.cells ∧ D'.verts = D.verts ∧
      ((∃ i, Rng x y D.ne i ∧ D.v0 i = none ∧ D.v0 (tw i) ≠ none) → ∃ i, i < D'.ne ∧ D'.v0 i = none ∧ D'.v0 (tw i) ≠ none)
  | 0, x, y, D, hx, hy, hyx, hn, g, hv => by
    refine ⟨_, rfl, ?_, ?_, hy, rfl, rfl, ?_⟩
    · have g' := g.congr (B := fun i => i < y) (fun i => by unfold Rng; omega)
      exact ⟨fun i hi => hi, g'.tw, g'.twin, g'.cell, g'.diff, g'.np, g'.pn, g'.pv, g'.nv⟩
    · exact hv.congr (B := fun i => i < y) (fun i => by unfold Rng; omega)
    · rintro ⟨i, h1, h2, h3⟩
      exact ⟨i, by dsimp only; unfold Rng at h1; omega, h2, h3⟩
  | k + 1, x, y, D, hx, hy, hyx, hn, g, hv => by
    have ax : Rng x y D.ne x := by unfold Rng; omega
    have tx : tw x = x + 1 := by unfold tw; simp [hx]
    obtain ⟨b, hb, hb1, hb2⟩ := degenerate_spec g hv hrefl ax
    rw [Diag.cleanEdges, hb]
    dsimp only [Option.bind_eq_bind, Option.bind_some]
    cases b with
    | true =>
      rw [if_pos rfl]
      obtain ⟨D1, q1, q2, q3, q4, q5, q6, _, q8⟩ := removeEdge_spec g ⟨ax, (hb1 rfl).1⟩ ⟨g.tw x ax, (hb1 rfl).2⟩
      rw [q1]
      dsimp only [Option.bind_some]
      have hset : ∀ i, Rng (x + 2) y D1.ne i ↔ Rng x y D.ne i ∧ i ≠ x ∧ i ≠ tw x := by
        intro i; rw [tx, q4]; unfold Rng; omega
      obtain ⟨D', r1, r2, r3, r4, r5, r6, r7⟩ := cleanEdges_spec hrefl k (x + 2) y D1 (by omega) hy (by omega) (by omega) (q2.congr hset) ((q3 hv).congr hset)
      refine ⟨D', r1, r2, r3, r4, by rw [r5, q5], by rw [r6, q6], ?_⟩
      rintro ⟨i, h1, h2, h3⟩
      refine r7 ⟨i, (hset i).2 ⟨h1, ?_, ?_⟩, (q8 i h1).2 h2, fun z => h3 ((q8 _ (g.tw i h1)).1 z)⟩
      · rintro rfl; exact (hb1 rfl).1 h2
      · rintro rfl; exact (hb1 rfl).2 h2
    | false =>
      rw [if_neg (by simp)]
      by_cases hxy : x = y
      · rw [if_neg (by simpa using hxy)]
        have hset : ∀ i, Rng (x + 2) (y + 2) D.ne i ↔ Rng x y D.ne i := by intro i; unfold Rng; omega
        obtain ⟨D', r1, r2, r3, r4, r5, r6, r7⟩ := cleanEdges_spec hrefl k (x + 2) (y + 2) D (by omega) (by omega) (by omega) (by omega) (g.congr hset) (hv.congr hset)
        exact ⟨D', r1, r2, r3, r4, r5, r6, fun ⟨i, h1, h2⟩ => r7 ⟨i, (hset i).2 h1, h2⟩⟩
      · rw [if_pos hxy]
        obtain ⟨D1, q1, q2, q3, q4, q5, q6, _, q8, q9⟩ := moveEdge_spec g hx hy (by omega) ax (by unfold Rng; omega) (by unfold Rng; omega) (hb2 rfl)
        rw [q1]
        dsimp only [Option.bind_some]
        have hset : ∀ i, Rng (x + 2) (y + 2) D1.ne i ↔ (Rng x y D.ne i ∧ i ≠ x ∧ i ≠ x + 1) ∨ i = y ∨ i = y + 1 := by
          intro i; rw [q4]; unfold Rng; omega
        obtain ⟨D', r1, r2, r3, r4, r5, r6, r7⟩ := cleanEdges_spec hrefl k (x + 2) (y + 2) D1 (by omega) (by omega) (by omega) (by omega) (q2.congr hset) ((q3 hv).congr hset)
        refine ⟨D', r1, r2, r3, r4, by rw [r5, q5], by rw [r6, q6], ?_⟩
        rintro ⟨i, h1, h2, h3⟩
        refine r7 ⟨tau x y i, (hset _).2 ?_, by rw [q8 i h1]; exact h2, by rw [q9 i h1, q8 _ (g.tw i h1)]; exact h3⟩
        unfold tau
        by_cases e1 : i = x
        · rw [if_pos e1]; exact Or.inr (Or.inl rfl)
        · rw [if_neg e1]
          by_cases e2 : i = x + 1
          · rw [if_pos e2]; exact Or.inr (Or.inr rfl)
          · rw [if_neg e2]; exact Or.inl ⟨h1, e1, e2⟩

/-! ## Incident edges -/

theorem setIncident_spec : ∀ (k i : Nat) (F : Full P),
    (setIncident k i F).D = F.D ∧
    (∀ c e, (setIncident k i F).cinc c = some e → F.cinc c = some e ∨ i ≤ e ∧ e < i + k ∧ F.D.cell e = c) ∧
    (∀ e, i ≤ e → e < i + k → (setIncident k i F).cinc (F.D.cell e) ≠ none) ∧
    (∀ c, F.cinc c ≠ none → (setIncident k i F).cinc c ≠ none) ∧
    (∀ v e, (setIncident k i F).vinc v = some e → F.vinc v = some e ∨ i ≤ e ∧ e < i + k ∧ F.D.v0 e = some v) ∧
    (∀ e v, i ≤ e → e < i + k → F.D.v0 e = some v → (setIncident k i F).vinc v ≠ none) ∧
    (∀ v, F.vinc v ≠ none → (setIncident k i F).vinc v ≠ none)
  | 0, i, F => by
    refine ⟨rfl, fun c e h => Or.inl h, fun e h1 h2 => by omega, fun c h => h, fun v e h => Or.inl h, fun e v h1 h2 => by omega, fun v h => h⟩
  | k + 1, i, F => by
    rw [setIncident]
    obtain ⟨a1, a2, a3, a4, a5, a6, a7⟩ := setIncident_spec k (i + 1) { F with
        cinc := upd F.cinc (F.D.cell i) (some i)
        vinc := match F.D.v0 i with | none => F.vinc | some v => upd F.vinc v (some i) }
    dsimp only at a1 a2 a3 a4 a5 a6 a7
    refine ⟨a1, ?_, ?_, ?_, ?_, ?_, ?_⟩
    · intro c e h
      rcases a2 c e h with h | ⟨h1, h2, h3⟩
      · unfold upd at h
        split at h
        · rename_i hc
          cases h
          exact Or.inr ⟨by omega, by omega, hc.symm⟩
        · exact Or.inl h
      · exact Or.inr ⟨by omega, by omega, h3⟩
    · intro e h1 h2
      rcases Nat.lt_or_ge i e with h | h
      · exact a3 e (by omega) (by omega)
      · have : e = i := by omega
        subst this
        exact a4 _ (by rw [upd_same]; simp)
    · intro c h
      refine a4 c ?_
      unfold upd
      split
      · simp
      · exact h
    · intro v e h
      rcases a5 v e h with h | ⟨h1, h2, h3⟩
      · cases hv : F.D.v0 i with
        | none => rw [hv] at h; exact Or.inl h
        | some u =>
          rw [hv] at h
          dsimp only at h
          unfold upd at h
          split at h
          · rename_i hc
            cases h
            exact Or.inr ⟨by omega, by omega, by rw [hv, hc]⟩
          · exact Or.inl h
      · exact Or.inr ⟨by omega, by omega, h3⟩
    · intro e v h1 h2 h3
      rcases Nat.lt_or_ge i e with h | h
      · exact a6 e v (by omega) (by omega) h3
      · have : e = i := by omega
        subst this
        refine a7 v ?_
        rw [h3]
        dsimp only
        rw [upd_same]; simp
    · intro v h
      refine a7 v ?_
      cases hv : F.D.v0 i with
      | none => exact h
      | some u =>
        unfold upd
        dsimp only
        split
        · simp
        · exact h

/-! ## Removing vertices without edges -/

theorem G.withVerts {A : Nat → Prop} {D : Diag P} (g : G A D) (vs : List P) : G A { D with verts := vs } :=
  ⟨g.lt, g.tw, g.twin, g.cell, g.diff, g.np, g.pn, g.pv, g.nv⟩

/-- Giving a whole cycle a new start vertex keeps the structure. -/
theorem relabelCycle_G {A : Nat → Prop} {D : Diag P} (g : G A D) {e : Nat} (he : Started A D e) {y : Nat} {w : Nat → Option Nat}
    (h1 : ∀ i, InOrbit (rho D) e i → w i = some y) (h2 : ∀ i, ¬ InOrbit (rho D) e i → w i = D.v0 i) : G A { D with v0 := w } := by
  have hwn : ∀ i, A i → (w i = none ↔ D.v0 i = none) := by
    intro i hi
    by_cases ho : InOrbit (rho D) e i
    · rw [h1 i ho]
      exact ⟨fun x => absurd x (by simp), fun x => absurd x (ho.mem g.rho_started he).2⟩
    · rw [h2 i ho]
  refine ⟨g.lt, g.tw, g.twin, g.cell, g.diff, ?_, g.pn, ?_, ?_⟩
  · intro i hi j hj
    obtain ⟨a, b, c, d⟩ := g.np i hi j hj
    refine ⟨a, b, c, ?_⟩
    dsimp only
    have hsj : Started A D j := ⟨a, fun x => by rw [(g.pv j a).2 x] at b; cases b⟩
    have hrj : rho D j = tw i := rho_some b
    by_cases ho : InOrbit (rho D) e j
    · rw [h1 j ho, h1 _ (by rw [← hrj]; exact ho.step)]
    · have ho' : ¬ InOrbit (rho D) e (tw i) := by
        rw [← hrj]
        exact fun x => ho (InOrbit.back (n := D.ne) g.rho_started (fun i h => g.lt i h.1) g.rho_inj he hsj x)
      rw [h2 j ho, h2 _ ho', d]
  · intro i hi
    dsimp only
    rw [hwn i hi]; exact g.pv i hi
  · intro i hi
    dsimp only
    rw [hwn _ (g.tw i hi)]; exact g.nv i hi

theorem moveVertex_spec {A : Nat → Prop} {F : Full P} (g : G A F.D) {x y e : Nat} (hx : x < F.D.verts.length) (he : Started A F.D e) :
    ∃ F', moveVertex F x y e = some F' ∧ G A F'.D ∧ F'.cinc = F.cinc ∧ F'.vinc = upd F.vinc y (some e) ∧
      F'.D.ne = F.D.ne ∧ F'.D.cells = F.D.cells ∧ F'.D.verts.length = F.D.verts.length ∧ F'.D.cell = F.D.cell ∧ F'.D.twin = F.D.twin ∧
      F'.D.prev = F.D.prev ∧ F'.D.next = F.D.next ∧
      (∀ i, InOrbit (rho F.D) e i → F'.D.v0 i = some y) ∧ (∀ i, ¬ InOrbit (rho F.D) e i → F'.D.v0 i = F.D.v0 i) := by
  unfold moveVertex
  rw [List.getElem?_eq_getElem hx]
  dsimp only [Option.bind_eq_bind, Option.bind_some]
  -- the walk does not look at the start vertices
  obtain ⟨k, k1, k2, k3, k4⟩ := orbit_period (n := F.D.ne) g.rho_started (fun i h => g.lt i h.1) g.rho_inj he
  have hrot : ∀ m, ({ F.D with verts := F.D.verts.set y F.D.verts[x], v0 := upd F.D.v0 e (some y) } : Diag P).rotNext ((rho F.D)^[m] e) = some ((rho F.D)^[m + 1] e) := by
    intro m
    rw [Function.iterate_succ_apply']
    exact g.rotNext (iterate_mem g.rho_started he m)
  obtain ⟨w, q1, q2, q3⟩ := relabel_go (v := some y) k3 k4 (F.D.ne + 1) 1 _ hrot (le_refl _) k1 (by omega)
  have h0 := hrot 0
  rw [Function.iterate_zero, id] at h0
  rw [h0]
  dsimp only [Option.bind_some]
  rw [q1]
  have hp : Function.IsPeriodicPt (rho F.D) k e := k3
  have w1 : ∀ i, InOrbit (rho F.D) e i → w i = some y := by
    rintro i ⟨m, rfl⟩
    rw [← hp.iterate_mod_apply m]
    rcases Nat.eq_zero_or_pos (m % k) with hm | hm
    · rw [hm]
      show w e = _
      rw [q3 e]
      · dsimp only; rw [upd_same]
      · rintro ⟨m', a, b, c⟩
        exact k4 m' a b c.symm
    · exact q2 _ ⟨m % k, hm, Nat.mod_lt _ (by omega), rfl⟩
  have w2 : ∀ i, ¬ InOrbit (rho F.D) e i → w i = F.D.v0 i := by
    intro i hi
    rw [q3 i (fun ⟨m, _, _, c⟩ => hi ⟨m, c⟩)]
    dsimp only
    rw [upd_ne]
    rintro rfl
    exact hi (InOrbit.self _ _)
  exact ⟨_, rfl, (relabelCycle_G g he w1 w2).withVerts _, rfl, rfl, rfl, rfl, by simp, rfl, rfl, rfl, rfl, w1, w2⟩

theorem cleanVerts_spec {A : Nat → Prop} : ∀ (k x y : Nat) (F : Full P), G A F.D → y ≤ x → F.D.verts.length = x + k →
    (∀ v e, x ≤ v → F.vinc v = some e → Started A F.D e) →
    ∃ F', cleanVerts k x y F = some F' ∧ G A F'.D ∧ F'.cinc = F.cinc ∧ F'.D.ne = F.D.ne ∧ F'.D.cells = F.D.cells ∧ F'.D.cell = F.D.cell ∧
      (∀ i, A i → (F'.D.v0 i = none ↔ F.D.v0 i = none)) ∧
      (F'.D.verts = [] → y = 0 ∧ ∀ v, x ≤ v → v < x + k → F.vinc v = none)
  | 0, x, y, F, g, hy, hl, hv => by
    refine ⟨_, rfl, g.withVerts _, rfl, rfl, rfl, rfl, fun _ _ => Iff.rfl, ?_⟩
    intro h
    dsimp only at h
    have := congrArg List.length h
    simp only [List.length_take, List.length_nil] at this
    constructor
    · by_contra h0
      -- the kept vertices are not more than there are
      have : F.D.verts.length = 0 := by omega
      omega
    · intro v h1 h2; omega
  | k + 1, x, y, F, g, hy, hl, hv => by
    rw [cleanVerts]
    cases hx : F.vinc x with
    | none =>
      dsimp only
      obtain ⟨F', a1, a2, a3, a4, a5, a6, a7, a8⟩ := cleanVerts_spec k (x + 1) y F g (by omega) (by omega) (fun v e h1 h2 => hv v e (by omega) h2)
      refine ⟨F', a1, a2, a3, a4, a5, a6, a7, fun h => ?_⟩
      obtain ⟨b1, b2⟩ := a8 h
      refine ⟨b1, fun v h1 h2 => ?_⟩
      rcases Nat.lt_or_ge x v with q | q
      · exact b2 v (by omega) (by omega)
      · have : v = x := by omega
        rw [this]; exact hx
    | some e =>
      dsimp only [Option.bind_eq_bind]
      have he := hv x e (le_refl _) hx
      by_cases hxy : x = y
      · rw [if_neg (by simpa using hxy)]
        obtain ⟨F', a1, a2, a3, a4, a5, a6, a7, a8⟩ := cleanVerts_spec k (x + 1) (y + 1) F g (by omega) (by omega) (fun v e h1 h2 => hv v e (by omega) h2)
        refine ⟨F', a1, a2, a3, a4, a5, a6, a7, fun h => ?_⟩
        have := (a8 h).1
        omega
      · rw [if_pos hxy]
        obtain ⟨F1, b1, b2, b3, b4, b5, b6, b7, b8, b9, b10, b11, b12, b13⟩ := moveVertex_spec (y := y) g (by omega : x < F.D.verts.length) he
        rw [b1]
        dsimp only [Option.bind_some]
        have hn : ∀ i, A i → (F1.D.v0 i = none ↔ F.D.v0 i = none) := by
          intro i hi
          by_cases ho : InOrbit (rho F.D) e i
          · rw [b12 i ho]
            exact ⟨fun x => absurd x (by simp), fun x => absurd x (ho.mem g.rho_started he).2⟩
          · rw [b13 i ho]
        obtain ⟨F', a1, a2, a3, a4, a5, a6, a7, a8⟩ := cleanVerts_spec k (x + 1) (y + 1) F1 b2 (by omega) (by omega) (by
          intro v e' h1 h2
          rw [b4, upd_ne _ _ (by omega)] at h2
          obtain ⟨c1, c2⟩ := hv v e' (by omega) h2
          exact ⟨c1, fun x => c2 ((hn e' c1).1 x)⟩)
        refine ⟨F', a1, a2, by rw [a3, b3], by rw [a4, b5], by rw [a5, b6], by rw [a6, b8], fun i hi => (a7 i hi).trans (hn i hi), fun h => ?_⟩
        have := (a8 h).1
        omega

/-! ## Linking the unbounded edges -/

/-- The structure once unbounded edges may be linked. -/
structure L (D : Diag P) : Prop where
  even : D.ne % 2 = 0
  twin : ∀ i < D.ne, D.twin i = tw i
  cell : ∀ i < D.ne, D.cell i < D.cells
  np : ∀ i < D.ne, ∀ j, D.next i = some j → j < D.ne ∧ D.prev j = some i ∧ D.cell j = D.cell i ∧ D.v0 j = D.v0 (tw i)
  pn : ∀ i < D.ne, ∀ j, D.prev i = some j → j < D.ne ∧ D.next j = some i
  pv : ∀ i < D.ne, D.prev i = none → D.v0 i = none
  nv : ∀ i < D.ne, D.next i = none → D.v0 (tw i) = none

theorem G.toL {D : Diag P} (g : G (fun i => i < D.ne) D) (he : D.ne % 2 = 0) : L D :=
  ⟨he, g.twin, g.cell, g.np, g.pn, fun i hi => (g.pv i hi).1, fun i hi => (g.nv i hi).1⟩

/-- A partial function made total. -/
def tot (g : Nat → Option Nat) (i : Nat) : Nat := (g i).getD i

theorem tot_some {g : Nat → Option Nat} {i j : Nat} (h : g i = some j) : tot g i = j := by unfold tot; rw [h]; rfl

/-- Following an injective partial function on a finite set ends or returns to its start. -/
theorem walk {g : Nat → Option Nat} {n : Nat} (hg : ∀ i < n, ∀ j, g i = some j → j < n)
    (inj : ∀ i j, i < n → j < n → ∀ p, g i = some p → g j = some p → i = j) {s : Nat} (hs : s < n) :
    (∃ k, k < n ∧ g ((tot g)^[k] s) = none ∧ (∀ m, m < k → g ((tot g)^[m] s) ≠ none) ∧ ∀ m, 1 ≤ m → m ≤ k → (tot g)^[m] s ≠ s) ∨
    (∃ k, 1 ≤ k ∧ k ≤ n ∧ (tot g)^[k] s = s ∧ (∀ m, g ((tot g)^[m] s) ≠ none) ∧ ∀ m, 1 ≤ m → m < k → (tot g)^[m] s ≠ s) := by
  classical
  have hlt : ∀ i, i < n → tot g i < n := by
    intro i hi
    cases h : g i with
    | none => unfold tot; rw [h]; exact hi
    | some j => rw [tot_some h]; exact hg i hi j h
  have hit : ∀ m, (tot g)^[m] s < n := fun m => iterate_mem (S := fun i => i < n) hlt hs m
  by_cases hall : ∀ m, g ((tot g)^[m] s) ≠ none
  · right
    have := orbit_period (f := tot g) (S := fun i => i < n ∧ ∃ m, i = (tot g)^[m] s) (n := n)
      (by rintro i ⟨h1, m, rfl⟩; exact ⟨hlt _ h1, m + 1, by rw [Function.iterate_succ_apply']⟩)
      (fun i h => h.1)
      (by
        rintro i j ⟨h1, m1, rfl⟩ ⟨h2, m2, rfl⟩ h
        obtain ⟨a, ha⟩ := Option.ne_none_iff_exists'.1 (hall m1)
        obtain ⟨b, hb⟩ := Option.ne_none_iff_exists'.1 (hall m2)
        rw [tot_some ha, tot_some hb] at h
        exact inj _ _ h1 h2 a ha (h ▸ hb)) (x := s) ⟨hs, 0, rfl⟩
    obtain ⟨k, a, b, c, d⟩ := this
    exact ⟨k, a, b, c, hall, d⟩
  · left
    have hex : ∃ m, g ((tot g)^[m] s) = none := by
      by_contra h
      exact hall (fun m hm => h ⟨m, hm⟩)
    have hk := Nat.find_spec hex
    have hmin : ∀ m, m < Nat.find hex → g ((tot g)^[m] s) ≠ none := fun m hm => Nat.find_min hex hm
    generalize Nat.find hex = k at hk hmin
    -- equal points are equally far from the start
    have hcancel : ∀ a b, a + b ≤ k → (tot g)^[a] s = (tot g)^[a + b] s → (tot g)^[b] s = s := by
      intro a
      induction a with
      | zero => intro b _ h; rw [Nat.zero_add] at h; exact h.symm
      | succ a ih =>
        intro b hab h
        refine ih b (by omega) ?_
        obtain ⟨p, hp⟩ := Option.ne_none_iff_exists'.1 (hmin a (by omega))
        obtain ⟨q, hq⟩ := Option.ne_none_iff_exists'.1 (hmin (a + b) (by omega))
        have e1 : (tot g)^[a + 1] s = p := by rw [Function.iterate_succ_apply', tot_some hp]
        have e2 : (tot g)^[a + 1 + b] s = q := by rw [show a + 1 + b = (a + b) + 1 by omega, Function.iterate_succ_apply', tot_some hq]
        rw [e1, e2] at h
        exact inj _ _ (hit _) (hit _) p hp (h ▸ hq)
    have hne : ∀ m, 1 ≤ m → m ≤ k → (tot g)^[m] s ≠ s := by
      intro m h1 h2 h3
      have : g ((tot g)^[k - m] s) = none := by
        rw [← hk]
        congr 1
        rw [show k = (k - m) + m by omega, Function.iterate_add_apply, h3]
        congr 1
        omega
      exact hmin (k - m) (by omega) this
    refine ⟨k, ?_, hk, hmin, hne⟩
    by_contra hkn
    let f : Fin (n + 1) → Fin n := fun a => ⟨(tot g)^[a] s, hit _⟩
    obtain ⟨a, b, hab, hf⟩ := Fintype.exists_ne_map_eq_of_card_lt f (by simp)
    have hf' : (tot g)^[(a : Nat)] s = (tot g)^[(b : Nat)] s := congrArg Fin.val hf
    have hne' : (a : Nat) ≠ b := fun e => hab (Fin.ext e)
    have ha := a.2
    have hb := b.2
    rcases Nat.lt_or_gt_of_ne hne' with hlt' | hlt'
    · exact hne (b - a) (by omega) (by omega) (hcancel a (b - a) (by omega) (by rw [hf']; congr 1; omega))
    · exact hne (a - b) (by omega) (by omega) (hcancel b (a - b) (by omega) (by rw [← hf']; congr 1; omega))

theorem leftEnd_end {D : Diag P} {s k : Nat} (h0 : D.prev ((tot D.prev)^[k] s) = none) (h1 : ∀ m, m < k → D.prev ((tot D.prev)^[m] s) ≠ none)
    (h2 : ∀ m, 1 ≤ m → m ≤ k → (tot D.prev)^[m] s ≠ s) : ∀ (fuel j : Nat), j ≤ k → k < fuel + j → D.leftEnd s fuel ((tot D.prev)^[j] s) = some ((tot D.prev)^[k] s)
  | 0, j, a, b => by omega
  | fuel + 1, j, a, b => by
    rw [Diag.leftEnd]
    by_cases hj : j = k
    · subst hj; rw [h0]
    · obtain ⟨p, hp⟩ := Option.ne_none_iff_exists'.1 (h1 j (by omega))
      have e : (tot D.prev)^[j + 1] s = p := by rw [Function.iterate_succ_apply', tot_some hp]
      rw [hp]
      dsimp only
      rw [← e, if_neg (h2 (j + 1) (by omega) (by omega))]
      exact leftEnd_end h0 h1 h2 fuel (j + 1) (by omega) (by omega)

theorem leftEnd_cycle {D : Diag P} {s k : Nat} (h0 : (tot D.prev)^[k] s = s) (h1 : ∀ m, D.prev ((tot D.prev)^[m] s) ≠ none)
    (h2 : ∀ m, 1 ≤ m → m < k → (tot D.prev)^[m] s ≠ s) : ∀ (fuel j : Nat), j < k → k ≤ fuel + j → D.leftEnd s fuel ((tot D.prev)^[j] s) = some s
  | 0, j, a, b => by omega
  | fuel + 1, j, a, b => by
    rw [Diag.leftEnd]
    obtain ⟨p, hp⟩ := Option.ne_none_iff_exists'.1 (h1 j)
    have e : (tot D.prev)^[j + 1] s = p := by rw [Function.iterate_succ_apply', tot_some hp]
    rw [hp]
    dsimp only
    by_cases hj : j + 1 = k
    · rw [← e, hj, h0, if_pos rfl]
    · rw [← e, if_neg (h2 (j + 1) (by omega) (by omega))]
      exact leftEnd_cycle h0 h1 h2 fuel (j + 1) (by omega) (by omega)

theorem rightEnd_end {D : Diag P} {s k : Nat} (h0 : D.next ((tot D.next)^[k] s) = none) (h1 : ∀ m, m < k → D.next ((tot D.next)^[m] s) ≠ none) :
    ∀ (fuel j : Nat), j ≤ k → k < fuel + j → D.rightEnd fuel ((tot D.next)^[j] s) = some ((tot D.next)^[k] s)
  | 0, j, a, b => by omega
  | fuel + 1, j, a, b => by
    rw [Diag.rightEnd]
    by_cases hj : j = k
    · subst hj; rw [h0]
    · obtain ⟨p, hp⟩ := Option.ne_none_iff_exists'.1 (h1 j (by omega))
      have e : (tot D.next)^[j + 1] s = p := by rw [Function.iterate_succ_apply', tot_some hp]
      rw [hp]
      dsimp only
      rw [← e]
      exact rightEnd_end h0 h1 fuel (j + 1) (by omega) (by omega)

theorem walkNext_trans {D : Diag P} : ∀ (a b : Nat) {i j k : Nat}, D.walkNext a i = some j → D.walkNext b j = some k → D.walkNext (a + b) i = some k
  | 0, b, i, j, k, h1, h2 => by
    cases h1
    rw [Nat.zero_add]; exact h2
  | a + 1, b, i, j, k, h1, h2 => by
    rw [Diag.walkNext] at h1
    rw [show a + 1 + b = (a + b) + 1 by omega, Diag.walkNext]
    cases hn : D.next i with
    | none => rw [hn] at h1; cases h1
    | some p =>
      rw [hn] at h1
      exact walkNext_trans a b h1 h2

theorem walkNext_mono {D D' : Diag P} (h : ∀ i j, D.next i = some j → D'.next i = some j) : ∀ (k : Nat) {i j : Nat}, D.walkNext k i = some j → D'.walkNext k i = some j
  | 0, i, j, h1 => h1
  | k + 1, i, j, h1 => by
    rw [Diag.walkNext] at h1 ⊢
    cases hn : D.next i with
    | none => rw [hn] at h1; cases h1
    | some p =>
      rw [hn] at h1
      rw [h i p hn]
      exact walkNext_mono h k h1

/-- Going back along `prev` and forward along `next`. -/
theorem walk_back {D : Diag P} (l : L D) {s : Nat} (hs : s < D.ne) : ∀ (k : Nat), (∀ m, m < k → D.prev ((tot D.prev)^[m] s) ≠ none) →
    (tot D.prev)^[k] s < D.ne ∧ D.walkNext k ((tot D.prev)^[k] s) = some s ∧ D.cell ((tot D.prev)^[k] s) = D.cell s
  | 0, _ => ⟨hs, rfl, rfl⟩
  | k + 1, h => by
    obtain ⟨a, b, c⟩ := walk_back l hs k (fun m hm => h m (by omega))
    obtain ⟨p, hp⟩ := Option.ne_none_iff_exists'.1 (h k (by omega))
    rw [Function.iterate_succ_apply', tot_some hp]
    obtain ⟨d, e⟩ := l.pn _ a p hp
    refine ⟨d, ?_, ?_⟩
    · rw [Diag.walkNext, e]; exact b
    · rw [← (l.np p d _ e).2.2.1, c]

theorem walk_forth {D : Diag P} (l : L D) {s : Nat} (hs : s < D.ne) : ∀ (k : Nat), (∀ m, m < k → D.next ((tot D.next)^[m] s) ≠ none) →
    (tot D.next)^[k] s < D.ne ∧ D.walkNext k s = some ((tot D.next)^[k] s) ∧ D.cell ((tot D.next)^[k] s) = D.cell s
  | 0, _ => ⟨hs, rfl, rfl⟩
  | k + 1, h => by
    obtain ⟨a, b, c⟩ := walk_forth l hs k (fun m hm => h m (by omega))
    obtain ⟨p, hp⟩ := Option.ne_none_iff_exists'.1 (h k (by omega))
    rw [Function.iterate_succ_apply', tot_some hp]
    obtain ⟨d, e, f, _⟩ := l.np _ a p hp
    refine ⟨d, ?_, by rw [f, c]⟩
    refine walkNext_trans k 1 b ?_
    rw [Diag.walkNext, hp]; rfl

theorem linkCell_spec {D : Diag P} (l : L D) {s : Nat} (hs : s < D.ne) :
    ∃ D', D.linkCell s = some D' ∧ L D' ∧ D'.ne = D.ne ∧ D'.cells = D.cells ∧ D'.cell = D.cell ∧ D'.v0 = D.v0 ∧ D'.verts = D.verts ∧ D'.twin = D.twin ∧
      (∀ i j, D.next i = some j → D'.next i = some j) ∧ ∃ k, 1 ≤ k ∧ D'.walkNext k s = some s := by
  unfold Diag.linkCell
  have hp := walk (g := D.prev) (n := D.ne) (fun i hi j hj => (l.pn i hi j hj).1)
    (fun i j hi hj p h1 h2 => by
      have a := (l.pn i hi p h1).2
      have b := (l.pn j hj p h2).2
      rw [a] at b
      exact Option.some.inj b) hs
  rcases hp with ⟨k, k1, k2, k3, k4⟩ | ⟨k, k1, k2, k3, k4, k5⟩
  · have hle := leftEnd_end k2 k3 k4 (D.ne + 1) 0 (by omega) (by omega)
    rw [Function.iterate_zero, id] at hle
    rw [hle]
    dsimp only [Option.bind_eq_bind, Option.bind_some]
    rw [k2]
    dsimp only
    obtain ⟨l1, l2, l3⟩ := walk_back l hs k k3
    generalize hlf : (tot D.prev)^[k] s = lf at k2 l1 l2 l3
    have hn := walk (g := D.next) (n := D.ne) (fun i hi j hj => (l.np i hi j hj).1)
      (fun i j hi hj p h1 h2 => by
        have a := (l.np i hi p h1).2.1
        have b := (l.np j hj p h2).2.1
        rw [a] at b
        exact Option.some.inj b) hs
    rcases hn with ⟨m, m1, m2, m3, m4⟩ | ⟨m, m1, m2, m3, m4, m5⟩
    · have hre := rightEnd_end m2 m3 (D.ne + 1) 0 (by omega) (by omega)
      rw [Function.iterate_zero, id] at hre
      rw [hre]
      obtain ⟨r1, r2, r3⟩ := walk_forth l hs m m3
      generalize (tot D.next)^[m] s = rt at m2 r1 r2 r3
      have hnx : ∀ i, upd D.next rt (some lf) i = if i = rt then some lf else D.next i := fun _ => rfl
      have hpx : ∀ i, upd D.prev lf (some rt) i = if i = lf then some rt else D.prev i := fun _ => rfl
      have hmono : ∀ i j, D.next i = some j → upd D.next rt (some lf) i = some j := by
        intro i j hij
        rw [hnx, if_neg]
        · exact hij
        · rintro rfl; rw [m2] at hij; cases hij
      refine ⟨_, rfl, ⟨l.even, l.twin, l.cell, ?_, ?_, ?_, ?_⟩, rfl, rfl, rfl, rfl, rfl, rfl, hmono, ?_⟩
      · intro i hi j hj
        dsimp only at hj ⊢
        rw [hnx] at hj
        rw [hpx]
        by_cases hir : i = rt
        · rw [if_pos hir, Option.some.injEq] at hj
          subst hj
          refine ⟨l1, by rw [if_pos rfl, hir], by rw [l3, hir, r3], ?_⟩
          rw [l.pv _ l1 k2, hir, l.nv _ r1 m2]
        · rw [if_neg hir] at hj
          obtain ⟨a, b, c, d⟩ := l.np i hi j hj
          refine ⟨a, ?_, c, d⟩
          rw [if_neg]
          · exact b
          · rintro rfl; rw [k2] at b; cases b
      · intro i hi j hj
        dsimp only at hj ⊢
        rw [hpx] at hj
        rw [hnx]
        by_cases hil : i = lf
        · rw [if_pos hil, Option.some.injEq] at hj
          subst hj
          exact ⟨r1, by rw [if_pos rfl, hil]⟩
        · rw [if_neg hil] at hj
          obtain ⟨a, b⟩ := l.pn i hi j hj
          refine ⟨a, ?_⟩
          rw [if_neg]
          · exact b
          · rintro rfl; rw [m2] at b; cases b
      · intro i hi h
        dsimp only at h
        rw [hpx] at h
        by_cases hil : i = lf
        · rw [if_pos hil] at h; cases h
        · rw [if_neg hil] at h; exact l.pv i hi h
      · intro i hi h
        dsimp only at h
        rw [hnx] at h
        by_cases hir : i = rt
        · rw [if_pos hir] at h; cases h
        · rw [if_neg hir] at h; exact l.nv i hi h
      · refine ⟨m + (1 + k), by omega, ?_⟩
        refine walkNext_trans m (1 + k) (walkNext_mono hmono m r2) (walkNext_trans 1 k (j := lf) ?_ (walkNext_mono hmono k l2))
        rw [Diag.walkNext]
        dsimp only
        rw [hnx, if_pos rfl]; rfl
    · exfalso
      -- `next` returns to `s`, so `prev` never ends
      have hS : ∀ i, (∃ q, i = (tot D.next)^[q] s) → ∃ p, D.prev i = some p ∧ ∃ q, p = (tot D.next)^[q] s := by
        have hpos : ∀ q, ∃ p, D.prev ((tot D.next)^[q + 1] s) = some p ∧ ∃ q, p = (tot D.next)^[q] s := by
          intro q
          obtain ⟨p, hp⟩ := Option.ne_none_iff_exists'.1 (m4 q)
          have hb := (walk_forth l hs q (fun m _ => m4 m)).1
          rw [Function.iterate_succ_apply', tot_some hp]
          exact ⟨_, (l.np _ hb p hp).2.1, q, rfl⟩
        rintro i ⟨q, rfl⟩
        cases q with
        | succ q => exact hpos q
        | zero =>
          have := hpos (m - 1)
          rw [show m - 1 + 1 = m by omega, m3] at this
          exact this
      have hall : ∀ q, ∃ r, (tot D.prev)^[q] s = (tot D.next)^[r] s := by
        intro q
        induction q with
        | zero => exact ⟨0, rfl⟩
        | succ q ih =>
          obtain ⟨p, a, b⟩ := hS _ ih
          rw [Function.iterate_succ_apply', tot_some a]
          exact b
      obtain ⟨p, a, _⟩ := hS lf (hlf ▸ hall k)
      rw [k2] at a; cases a
  · have hle := leftEnd_cycle k3 k4 k5 (D.ne + 1) 0 (by omega) (by omega)
    rw [Function.iterate_zero, id] at hle
    rw [hle]
    dsimp only [Option.bind_eq_bind, Option.bind_some]
    obtain ⟨p, hp⟩ := Option.ne_none_iff_exists'.1 (k4 0)
    rw [Function.iterate_zero, id] at hp
    rw [hp]
    refine ⟨D, rfl, l, rfl, rfl, rfl, rfl, rfl, rfl, fun _ _ h => h, k, k1, ?_⟩
    have := (walk_back l hs k (fun m _ => k4 m)).2.1
    rw [k3] at this
    exact this

theorem linkCells_spec {cinc : Nat → Option Nat} : ∀ (k c : Nat) (D : Diag P), L D → (∀ c s, cinc c = some s → s < D.ne) →
    ∃ D', linkCells cinc k c D = some D' ∧ L D' ∧ D'.ne = D.ne ∧ D'.cells = D.cells ∧ D'.cell = D.cell ∧ D'.v0 = D.v0 ∧ D'.verts = D.verts ∧
      (∀ i j, D.next i = some j → D'.next i = some j) ∧
      (∀ c' s, c ≤ c' → c' < c + k → cinc c' = some s → ∃ m, 1 ≤ m ∧ D'.walkNext m s = some s)
  | 0, c, D, l, hc => ⟨D, rfl, l, rfl, rfl, rfl, rfl, rfl, fun _ _ h => h, fun c' s h1 h2 => by omega⟩
  | k + 1, c, D, l, hc => by
    rw [linkCells]
    cases hs : cinc c with
    | none =>
      dsimp only
      obtain ⟨D', a1, a2, a3, a4, a5, a6, a7, a8, a9⟩ := linkCells_spec k (c + 1) D l hc
      refine ⟨D', a1, a2, a3, a4, a5, a6, a7, a8, fun c' s h1 h2 h3 => ?_⟩
      rcases Nat.lt_or_ge c c' with q | q
      · exact a9 c' s (by omega) (by omega) h3
      · have : c' = c := by omega
        rw [this, hs] at h3; cases h3
    | some s =>
      dsimp only [Option.bind_eq_bind]
      obtain ⟨D1, b1, b2, b3, b4, b5, b6, b7, b8, b9, m, b10, b11⟩ := linkCell_spec l (hc c s hs)
      rw [b1]
      dsimp only [Option.bind_some]
      obtain ⟨D', a1, a2, a3, a4, a5, a6, a7, a8, a9⟩ := linkCells_spec k (c + 1) D1 b2 (fun c s h => by rw [b3]; exact hc c s h)
      refine ⟨D', a1, a2, by rw [a3, b3], by rw [a4, b4], by rw [a5, b5], by rw [a6, b6], by rw [a7, b7], fun i j h => a8 i j (b9 i j h), fun c' s' h1 h2 h3 => ?_⟩
      rcases Nat.lt_or_ge c c' with q | q
      · exact a9 c' s' (by omega) (by omega) h3
      · have : c' = c := by omega
        rw [this, hs, Option.some.injEq] at h3
        subst h3
        exact ⟨m, b10, walkNext_mono a8 m b11⟩

/-! ### Diagrams without vertices -/

/-- The partner of a half-edge when only lines are left: the pairs are `(1, 2), (3, 4), ...`, the first and the last half-edge are alone. -/
def linePartner (n i : Nat) : Nat := if i = 0 ∨ i + 1 = n then i else if i % 2 = 1 then i + 1 else i - 1

theorem linkLines_spec : ∀ (k e : Nat) (D : Diag P), e % 2 = 1 → D.ne = e + 1 + 2 * k →
    (linkLines k e D).ne = D.ne ∧ (linkLines k e D).cells = D.cells ∧ (linkLines k e D).cell = D.cell ∧ (linkLines k e D).v0 = D.v0 ∧
    (linkLines k e D).verts = D.verts ∧ (linkLines k e D).twin = D.twin ∧
    (∀ i < e, (linkLines k e D).next i = D.next i ∧ (linkLines k e D).prev i = D.prev i) ∧
    (∀ i, e ≤ i → i < D.ne → (linkLines k e D).next i = some (linePartner D.ne i) ∧ (linkLines k e D).prev i = some (linePartner D.ne i))
  | 0, e, D, he, hn => by
    rw [linkLines]
    refine ⟨rfl, rfl, rfl, rfl, rfl, rfl, ?_, ?_⟩
    · intro i hi
      dsimp only
      rw [upd_ne _ _ (by omega), upd_ne _ _ (by omega)]
      exact ⟨rfl, rfl⟩
    · intro i h1 h2
      have : i = e := by omega
      subst this
      have : linePartner D.ne i = i := by unfold linePartner; rw [if_pos (by omega)]
      rw [this]
      dsimp only
      rw [upd_same, upd_same]
      exact ⟨rfl, rfl⟩
  | k + 1, e, D, he, hn => by
    rw [linkLines]
    obtain ⟨a1, a2, a3, a4, a5, a6, a7, a8⟩ := linkLines_spec k (e + 2)
      { D with
        next := upd (upd D.next e (some (e + 1))) (e + 1) (some e)
        prev := upd (upd D.prev e (some (e + 1))) (e + 1) (some e) } (by omega) (by dsimp only; omega)
    dsimp only at a1 a2 a3 a4 a5 a6 a7 a8
    refine ⟨a1, a2, a3, a4, a5, a6, ?_, ?_⟩
    · intro i hi
      obtain ⟨b1, b2⟩ := a7 i (by omega)
      rw [b1, b2, upd_ne _ _ (by omega), upd_ne _ _ (by omega), upd_ne _ _ (by omega), upd_ne _ _ (by omega)]
      exact ⟨rfl, rfl⟩
    · intro i h1 h2
      rcases Nat.lt_or_ge i (e + 2) with q | q
      · obtain ⟨b1, b2⟩ := a7 i q
        rw [b1, b2]
        rcases Nat.lt_or_ge i (e + 1) with q' | q'
        · have : i = e := by omega
          subst this
          have : linePartner D.ne i = i + 1 := by unfold linePartner; rw [if_neg (by omega), if_pos (by omega)]
          rw [this, upd_ne _ _ (by omega), upd_same, upd_ne _ _ (by omega), upd_same]
          exact ⟨rfl, rfl⟩
        · have : i = e + 1 := by omega
          subst this
          have : linePartner D.ne (e + 1) = e := by unfold linePartner; rw [if_neg (by omega), if_neg (by omega)]; omega
          rw [this, upd_same, upd_same]
          exact ⟨rfl, rfl⟩
      · exact a8 i q h2

theorem linePartner_lt {n i : Nat} (hn : n % 2 = 0) (hi : i < n) : linePartner n i < n := by
  unfold linePartner; split_ifs <;> omega

theorem linePartner_inv {n i : Nat} (hn : n % 2 = 0) (hi : i < n) : linePartner n (linePartner n i) = i := by
  by_cases h1 : i = 0 ∨ i + 1 = n
  · have : linePartner n i = i := by unfold linePartner; rw [if_pos h1]
    rw [this, this]
  · by_cases h2 : i % 2 = 1
    · have : linePartner n i = i + 1 := by unfold linePartner; rw [if_neg h1, if_pos h2]
      rw [this]
      unfold linePartner
      rw [if_neg (by omega), if_neg (by omega)]
      omega
    · have : linePartner n i = i - 1 := by unfold linePartner; rw [if_neg h1, if_neg h2]
      rw [this]
      unfold linePartner
      rw [if_neg (by omega), if_pos (by omega)]
      omega

/-! ## The whole clean-up -/

theorem L.halfEdges {D : Diag P} (l : L D) : HalfEdges D := by
  refine ⟨?_, fun e he f hf => ⟨(l.np e he f hf).1, (l.np e he f hf).2.1⟩, l.pn, fun e he f hf => (l.np e he f hf).2.2.1, ?_, l.cell⟩
  · intro e he
    have ht := (tw_lt l.even).2 he
    rw [l.twin e he, l.twin _ ht, tw_tw]
    refine ⟨ht, rfl, tw_ne e, ?_⟩
    unfold tw; split <;> omega
  · intro e he f hf
    rw [l.twin e he]
    exact (l.np e he f hf).2.2.2

theorem DInv.toG {D : Diag P} (h : DInv D) (hs : NoSelfEdge D) : G (fun i => i < D.ne) D :=
  ⟨fun _ hi => hi, fun _ hi => (tw_lt h.even).2 hi, h.twin, h.cell, fun i hi => by rw [← h.twin i hi]; exact hs i hi, h.np, h.pn, h.pv, h.nv⟩

/-- Without vertices nothing is degenerate. -/
theorem cleanEdges_none {eq : P → P → Bool} : ∀ (k x : Nat) (D : Diag P), D.ne = x + 2 * k → (∀ i < D.ne, D.v0 i = none) →
    D.cleanEdges eq k x x = some D
  | 0, x, D, hn, hv => by rw [Diag.cleanEdges]; congr 1; cases D; dsimp only at hn; subst hn; rfl
  | k + 1, x, D, hn, hv => by
    rw [Diag.cleanEdges]
    have : D.degenerate eq x = some false := by
      unfold Diag.degenerate
      rw [hv x (by omega)]
    rw [this]
    dsimp only [Option.bind_eq_bind, Option.bind_some]
    rw [if_neg (by simp), if_neg (by simp)]
    exact cleanEdges_none k (x + 2) D (by omega) hv

theorem build_spec {D : Diag P} (h : DInv D) (hs : NoSelfEdge D) {eq : P → P → Bool} (hrefl : ∀ p, eq p p = true)
    (hl : D.verts = [] → LineChain D) :
    ∃ F, build eq D = some F ∧ HalfEdges F.D ∧ F.D.cells = D.cells ∧
      (∀ e < F.D.ne, ∃ s, F.cinc (F.D.cell e) = some s) ∧
      (∀ c s, F.cinc c = some s → s < F.D.ne ∧ F.D.cell s = c ∧ ∃ k, 1 ≤ k ∧ F.D.walkNext k s = some s) := by
  have hR : ∀ i, Rng 0 0 D.ne i ↔ i < D.ne := fun i => by unfold Rng; omega
  have hev := h.even
  obtain ⟨D1, a1, a2, a3, a4, a5, a6, a7⟩ := cleanEdges_spec hrefl (D.ne / 2) 0 0 D rfl rfl (le_refl _) (by omega)
    ((h.toG hs).congr hR) (VR.congr (fun i hi v hv => h.vr i hi v hv) hR)
  unfold build
  rw [a1]
  dsimp only [Option.bind_eq_bind, Option.bind_some]
  obtain ⟨b1, b2, b3, _, b5, b6, _⟩ := setIncident_spec D1.ne 0 (⟨D1, fun _ => none, fun _ => none⟩ : Full P)
  generalize setIncident D1.ne 0 (⟨D1, fun _ => none, fun _ => none⟩ : Full P) = F1 at b1 b2 b3 b5 b6
  dsimp only at b1 b2 b3 b5 b6
  have hci : ∀ c s, F1.cinc c = some s → s < D1.ne ∧ D1.cell s = c := by
    intro c s hcs
    rcases b2 c s hcs with q | ⟨_, q1, q2⟩
    · cases q
    · exact ⟨by omega, q2⟩
  have hce : ∀ e < D1.ne, ∃ s, F1.cinc (D1.cell e) = some s := fun e he => Option.ne_none_iff_exists'.1 (b3 e (by omega) (by omega))
  obtain ⟨F2, c1, c2, c3, c4, c5, c6, c7, c8⟩ := cleanVerts_spec (A := fun i => i < D1.ne) F1.D.verts.length 0 0 F1 (by rw [b1]; exact a2) (le_refl _) (by omega)
    (by
      intro v e _ hve
      rcases b5 v e hve with q | ⟨_, q1, q2⟩
      · cases q
      · refine ⟨by omega, ?_⟩
        rw [b1, q2]; simp)
  rw [c1]
  dsimp only [Option.bind_some]
  rw [b1] at c4 c5 c6 c7
  have hl2 : L F2.D := G.toL (by rw [c4]; exact c2) (by rw [c4]; exact a4)
  by_cases hv : F2.D.verts = []
  · rw [if_pos hv]
    -- no half-edge has a start
    have hnone : ∀ i < D1.ne, D1.v0 i = none := by
      intro i hi
      by_contra hne
      obtain ⟨v, hv'⟩ := Option.ne_none_iff_exists'.1 hne
      have := b6 i v (by omega) (by omega) hv'
      exact this ((c8 hv).2 v (by omega) (by rw [b1, Nat.zero_add]; exact a3 i hi v hv'))
    by_cases hn0 : F2.D.ne = 0
    · rw [if_pos hn0]
      refine ⟨F2, rfl, hl2.halfEdges, by rw [c5, a5], ?_, ?_⟩
      · intro e he; omega
      · intro c s hcs
        rw [c3] at hcs
        have := (hci c s hcs).1
        omega
    · rw [if_neg hn0]
      -- so the sweep made no vertex either, and nothing was removed
      have hDv : D.verts = [] := by
        by_contra hne
        obtain ⟨i, i1, i2, i3⟩ := h.ray hne
        obtain ⟨j, j1, j2, j3⟩ := a7 ⟨i, (hR i).2 i1, i2, i3⟩
        exact j3 (hnone _ ((tw_lt a4).2 j1))
      have hD0 : ∀ i < D.ne, D.v0 i = none := by
        intro i hi
        by_contra hne
        obtain ⟨v, hv'⟩ := Option.ne_none_iff_exists'.1 hne
        have := h.vr i hi v hv'
        rw [hDv] at this
        simp at this
      have hDD : D1 = D := by
        have := cleanEdges_none (eq := eq) (D.ne / 2) 0 D (by omega) hD0
        rw [this] at a1
        exact (Option.some.inj a1).symm
      have hlc := hl hDv
      rw [← hDD] at hlc
      have hnn : ∀ i < D1.ne, F2.D.v0 i = none := fun i hi => (c7 i hi).2 (hnone i hi)
      obtain ⟨e1, e2, e3, e4, e5, e6, e7, e8⟩ := linkLines_spec (F2.D.ne / 2 - 1) 1
        { F2.D with next := upd F2.D.next 0 (some 0), prev := upd F2.D.prev 0 (some 0) } rfl (by dsimp only; omega)
      generalize hDl : linkLines (F2.D.ne / 2 - 1) 1 { F2.D with next := upd F2.D.next 0 (some 0), prev := upd F2.D.prev 0 (some 0) } = Dl at e1 e2 e3 e4 e5 e6 e7 e8
      dsimp only at e1 e2 e3 e4 e5 e6 e7 e8
      have hlink : ∀ i < F2.D.ne, Dl.next i = some (linePartner F2.D.ne i) ∧ Dl.prev i = some (linePartner F2.D.ne i) := by
        intro i hi
        rcases Nat.eq_zero_or_pos i with rfl | hi0
        · obtain ⟨f1, f2⟩ := e7 0 (by omega)
          rw [f1, f2, upd_same, upd_same]
          have : linePartner F2.D.ne 0 = 0 := by unfold linePartner; rw [if_pos (Or.inl rfl)]
          rw [this]
          exact ⟨rfl, rfl⟩
        · exact e8 i (by omega) hi
      have hev2 : F2.D.ne % 2 = 0 := hl2.even
      have hLl : L Dl := by
        refine ⟨by rw [e1]; exact hev2, ?_, ?_, ?_, ?_, ?_, ?_⟩
        · intro i hi; rw [e6]; exact hl2.twin i (by rw [e1] at hi; exact hi)
        · intro i hi; rw [e3, e2]; exact hl2.cell i (by rw [e1] at hi; exact hi)
        · intro i hi j hj
          rw [e1] at hi
          rw [(hlink i hi).1, Option.some.injEq] at hj
          subst hj
          have hlt := linePartner_lt hev2 hi
          refine ⟨by rw [e1]; exact hlt, by rw [(hlink _ hlt).2, linePartner_inv hev2 hi], ?_, ?_⟩
          · rw [e3, c6]
            unfold linePartner
            split_ifs with g1 g2
            · rfl
            · have := hlc (i / 2) (by omega)
              rw [show 2 * (i / 2) + 2 = i + 1 by omega, show 2 * (i / 2) + 1 = i by omega] at this
              exact this
            · have := hlc (i / 2 - 1) (by omega)
              rw [show 2 * (i / 2 - 1) + 2 = i by omega, show 2 * (i / 2 - 1) + 1 = i - 1 by omega] at this
              exact this.symm
          · rw [e4, hnn _ (by omega), hnn _ (by rw [← c4]; exact (tw_lt hev2).2 hi)]
        · intro i hi j hj
          rw [e1] at hi
          rw [(hlink i hi).2, Option.some.injEq] at hj
          subst hj
          have hlt := linePartner_lt hev2 hi
          exact ⟨by rw [e1]; exact hlt, by rw [(hlink _ hlt).1, linePartner_inv hev2 hi]⟩
        · intro i hi _; rw [e4]; exact hnn i (by omega)
        · intro i hi _; rw [e4]; exact hnn _ (by rw [← c4]; exact (tw_lt hev2).2 (by omega))
      refine ⟨_, rfl, by dsimp only; exact hLl.halfEdges, by dsimp only; rw [e2, c5, a5], ?_, ?_⟩
      · intro e he
        dsimp only at he ⊢
        rw [e3, c6, c3]
        exact hce e (by omega)
      · intro c s hcs
        dsimp only at hcs ⊢
        rw [c3] at hcs
        obtain ⟨f1, f2⟩ := hci c s hcs
        refine ⟨by omega, by rw [e3, c6]; exact f2, 2, by omega, ?_⟩
        have hs2 : s < F2.D.ne := by omega
        rw [Diag.walkNext, (hlink s hs2).1]
        show Dl.walkNext 1 _ = _
        rw [Diag.walkNext, (hlink _ (linePartner_lt hev2 hs2)).1]
        show some _ = _
        rw [linePartner_inv hev2 hs2]
  · rw [if_neg hv]
    obtain ⟨D', d1, d2, d3, d4, d5, d6, d7, d8, d9⟩ := linkCells_spec F2.D.cells 0 F2.D hl2 (cinc := F2.cinc) (by
      intro c s hcs
      rw [c3] at hcs
      rw [c4]
      exact (hci c s hcs).1)
    rw [d1]
    refine ⟨_, rfl, d2.halfEdges, by dsimp only; rw [d4, c5, a5], ?_, ?_⟩
    · intro e he
      dsimp only at he ⊢
      rw [d5, c6, c3]
      exact hce e (by rw [d3, c4] at he; exact he)
    · intro c s hcs
      dsimp only at hcs ⊢
      have hcs' := hcs
      rw [c3] at hcs'
      obtain ⟨e1, e2⟩ := hci c s hcs'
      refine ⟨by rw [d3, c4]; exact e1, by rw [d5, c6]; exact e2, ?_⟩
      refine d9 c s (by omega) ?_ hcs
      rw [Nat.zero_add, c5, ← e2]
      exact a2.cell s e1

/-! ### Nothing to remove -/

theorem cleanEdges_keep {eq : P → P → Bool} : ∀ (k x : Nat) (D : Diag P), D.ne = x + 2 * k → (∀ i < D.ne, D.degenerate eq i = some false) →
    D.cleanEdges eq k x x = some D
  | 0, x, D, hn, hv => by rw [Diag.cleanEdges]; congr 1; cases D; dsimp only at hn; subst hn; rfl
  | k + 1, x, D, hn, hv => by
    rw [Diag.cleanEdges, hv x (by omega)]
    dsimp only [Option.bind_eq_bind, Option.bind_some]
    rw [if_neg (by simp), if_neg (by simp)]
    exact cleanEdges_keep k (x + 2) D (by omega) hv

theorem cleanVerts_keep : ∀ (k x : Nat) (F : Full P), F.D.verts.length = x + k → (∀ v < F.D.verts.length, F.vinc v ≠ none) →
    cleanVerts k x x F = some F
  | 0, x, F, hn, hv => by
    rw [cleanVerts, List.take_of_length_le (by omega)]
  | k + 1, x, F, hn, hv => by
    rw [cleanVerts]
    obtain ⟨e, he⟩ := Option.ne_none_iff_exists'.1 (hv x (by omega))
    rw [he]
    dsimp only [Option.bind_eq_bind]
    rw [if_neg (by simp)]
    exact cleanVerts_keep k (x + 1) F (by omega) hv

/-- Where no edge is degenerate the clean-up only links. -/
theorem build_keep {D : Diag P} (h : DInv D) {eq : P → P → Bool} (hd : ∀ i < D.ne, D.degenerate eq i = some false) (hv : D.verts ≠ []) :
    ∃ F, build eq D = some F ∧ F.D.ne = D.ne ∧ F.D.cells = D.cells ∧ F.D.cell = D.cell ∧ F.D.v0 = D.v0 ∧ F.D.verts = D.verts ∧
      (∀ i j, D.next i = some j → F.D.next i = some j) ∧
      (∀ v < D.verts.length, ∃ e < D.ne, F.vinc v = some e ∧ D.v0 e = some v) := by
  have hev := h.even
  unfold build
  rw [cleanEdges_keep (D.ne / 2) 0 D (by omega) hd]
  dsimp only [Option.bind_eq_bind, Option.bind_some]
  obtain ⟨b1, b2, b3, _, b5, b6, _⟩ := setIncident_spec D.ne 0 (⟨D, fun _ => none, fun _ => none⟩ : Full P)
  generalize setIncident D.ne 0 (⟨D, fun _ => none, fun _ => none⟩ : Full P) = F1 at b1 b2 b3 b5 b6
  dsimp only at b1 b2 b3 b5 b6
  rw [cleanVerts_keep F1.D.verts.length 0 F1 (by omega) (by
    intro v hv
    rw [b1] at hv
    obtain ⟨i, i1, i2⟩ := h.cov v hv
    exact b6 i v (by omega) (by omega) i2)]
  dsimp only [Option.bind_some]
  rw [if_neg (by rw [b1]; exact hv)]
  obtain ⟨D', d1, d2, d3, d4, d5, d6, d7, d8, d9⟩ := linkCells_spec F1.D.cells 0 F1.D
    (by rw [b1]; exact ⟨h.even, h.twin, h.cell, h.np, h.pn, fun i hi => (h.pv i hi).1, fun i hi => (h.nv i hi).1⟩) (cinc := F1.cinc) (by
      intro c s hcs
      rw [b1]
      rcases b2 c s hcs with q | ⟨_, q1, q2⟩
      · cases q
      · omega)
  rw [d1]
  rw [b1] at d3 d4 d5 d6 d7 d8
  refine ⟨_, rfl, d3, d4, d5, d6, d7, d8, ?_⟩
  intro v hv
  dsimp only
  obtain ⟨i, i1, i2⟩ := h.cov v hv
  obtain ⟨e, he⟩ := Option.ne_none_iff_exists'.1 (b6 i v (by omega) (by omega) i2)
  rcases b5 v e he with q | ⟨_, q1, q2⟩
  · cases q
  · exact ⟨e, by omega, he, q2⟩

end Verif.Voronoi
