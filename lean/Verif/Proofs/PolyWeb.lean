import Verif.Model.PolyForm
import Verif.Proofs.PolyPath
import Verif.Proofs.PolyLam
/-!
# The open chains of polygon formation: heap operations keep them apart
-/
namespace Verif.Proofs.PolyWeb
open Verif.PolyForm Verif.Proofs.PolyPath Verif.Proofs.PolyLam

def oth (H : Heap) (t : Nat) : Nat := (H.tail t).other
def pth (H : Heap) (t : Nat) : List Int := (H.tail t).path
def vrt (H : Heap) (t : Nat) : Bool := (H.tail t).vert
def fv (H : Heap) (i j : Int) (t : Nat) : Int := F i j (vrt H t) (pth H t)
def ps (S : List Nat) (t : Nat) : Int := (S.idxOf t : Int)

/-- The type of the last coordinate. -/
def lastT (n : Nat) (v : Bool) : Bool := if n % 2 = 0 then !v else v

structure Web (X : Int) (H : Heap) (S : List Nat) : Prop where
  nodup : S.Nodup
  om : ∀ t ∈ S, oth H t ∈ S
  one : ∀ t ∈ S, oth H t ≠ t
  oo : ∀ t ∈ S, oth H (oth H t) = t
  rev : ∀ t ∈ S, pth H (oth H t) = (pth H t).reverse
  vt : ∀ t ∈ S, vrt H (oth H t) = lastT (pth H t).length (vrt H t)
  len : ∀ t ∈ S, 2 ≤ (pth H t).length
  nd : ∀ t ∈ S, ND (pth H t)
  xle : ∀ t ∈ S, Xle X (vrt H t) (pth H t)
  fresh : ∀ t ∈ S, t < H.fresh
  lam : ∀ i j, i < X → Lam (ps S) (· ∈ S) (oth H) (fv H i j)

theorem ps_inj {S : List Nat} {a b : Nat} (ha : a ∈ S) (h : ps S a = ps S b) : a = b := by
  unfold ps at h
  exact (List.idxOf_inj ha).1 (by omega)

theorem web_paired {X : Int} {H : Heap} {S : List Nat} (h : Web X H S) (i j : Int) : Paired (ps S) (· ∈ S) (oth H) (fv H i j) where
  inj := fun _ _ ha _ e => ps_inj ha e
  om := h.om
  one := h.one
  oo := h.oo
  neg := fun t ht => by
    unfold fv
    rw [h.rev t ht, h.vt t ht, lastT, F_reverse]

/-- Web depends on paths, directions and links of the members only. -/
theorem web_congr {X : Int} {H H' : Heap} {S : List Nat} (h : Web X H S) (ho : ∀ t ∈ S, oth H' t = oth H t)
    (hp : ∀ t ∈ S, pth H' t = pth H t) (hv : ∀ t ∈ S, vrt H' t = vrt H t) (hf : H.fresh ≤ H'.fresh) : Web X H' S where
  nodup := h.nodup
  om := fun t ht => by rw [ho t ht]; exact h.om t ht
  one := fun t ht => by rw [ho t ht]; exact h.one t ht
  oo := fun t ht => by rw [ho t ht, ho _ (h.om t ht)]; exact h.oo t ht
  rev := fun t ht => by rw [ho t ht, hp _ (h.om t ht), hp t ht]; exact h.rev t ht
  vt := fun t ht => by rw [ho t ht, hv _ (h.om t ht), hp t ht, hv t ht]; exact h.vt t ht
  len := fun t ht => by rw [hp t ht]; exact h.len t ht
  nd := fun t ht => by rw [hp t ht]; exact h.nd t ht
  xle := fun t ht => by rw [hp t ht, hv t ht]; exact h.xle t ht
  fresh := fun t ht => by have := h.fresh t ht; omega
  lam := fun i j hi => lam_congr (h.lam i j hi) (fun _ ha => ha) ho (fun a ha => by
    unfold fv; rw [hp _ (h.om a ha), hv _ (h.om a ha)])

/-- A later column. -/
theorem web_later {X Y : Int} {H : Heap} {S : List Nat} (h : Web X H S) (hXY : X ≤ Y)
    (hl : ∀ i j, i < Y → Lam (ps S) (· ∈ S) (oth H) (fv H i j)) : Web Y H S :=
  { h with xle := fun t ht => Xle_mono hXY _ _ (h.xle t ht), lam := hl }

theorem setPath_oth (H : Heap) (t : Nat) (p : List Int) (v : Bool) (n : Nat) : oth (H.setPath t p v) n = oth H n := by
  unfold oth Heap.setPath; dsimp only; split_ifs <;> rfl

theorem setPath_self (H : Heap) (t : Nat) (p : List Int) (v : Bool) : pth (H.setPath t p v) t = p ∧ vrt (H.setPath t p v) t = v := by
  unfold pth vrt Heap.setPath; simp

theorem setPath_other {H : Heap} {t : Nat} (h : oth H t ≠ t) (p : List Int) (v : Bool) :
    pth (H.setPath t p v) (oth H t) = p.reverse ∧ vrt (H.setPath t p v) (oth H t) = vrt H (oth H t) := by
  unfold oth at h
  unfold pth vrt Heap.setPath oth; simp [h]

theorem setPath_ne {H : Heap} {t n : Nat} (h1 : n ≠ t) (h2 : n ≠ oth H t) (p : List Int) (v : Bool) :
    (H.setPath t p v).tail n = H.tail n := by
  unfold oth at h2
  unfold Heap.setPath; simp [h1, h2]

theorem setPath_holes (H : Heap) (t : Nat) (p : List Int) (v : Bool) (n : Nat) : ((H.setPath t p v).tail n).holes = (H.tail n).holes := by
  unfold Heap.setPath; dsimp only; split_ifs <;> rfl

theorem lastT_lastT (n : Nat) (v : Bool) : lastT n (lastT n v) = v := by unfold lastT; split_ifs <;> simp

/-- Changing a chain at the end `t` without touching what it counts left of `X`. -/
theorem web_setPath {X : Int} {H : Heap} {S : List Nat} (h : Web X H S) {t : Nat} (ht : t ∈ S) {p : List Int} {v : Bool}
    (hF : ∀ i j, i < X → F i j v p = fv H i j t) (hlen : 2 ≤ p.length) (hnd : ND p) (hx : Xle X v p)
    (hpar : lastT p.length v = lastT (pth H t).length (vrt H t)) : Web X (H.setPath t p v) S := by
  have hone := h.one t ht
  obtain ⟨s1, s2⟩ := setPath_self H t p v
  obtain ⟨o1, o2⟩ := setPath_other hone p v
  have hvo := h.vt t ht
  have hvo' : vrt (H.setPath t p v) (oth H t) = lastT p.length v := by rw [o2, hvo, hpar]
  have key : ∀ (P : Nat → Prop), P t → P (oth H t) → (∀ n ∈ S, n ≠ t → n ≠ oth H t → P n) → ∀ n ∈ S, P n := by
    intro P p1 p2 p3 n hn
    by_cases e : n = t
    · rw [e]; exact p1
    by_cases e' : n = oth H t
    · rw [e']; exact p2
    exact p3 n hn e e'
  have far : ∀ n ∈ S, n ≠ t → n ≠ oth H t → oth H n ≠ t ∧ oth H n ≠ oth H t := by
    intro n hn h1 h2
    refine ⟨fun e => h2 ?_, fun e => h1 ?_⟩
    · rw [← e, h.oo n hn]
    · rw [← h.oo n hn, e, h.oo t ht]
  have same : ∀ n, n ≠ t → n ≠ oth H t → pth (H.setPath t p v) n = pth H n ∧ vrt (H.setPath t p v) n = vrt H n := by
    intro n h1 h2; unfold pth vrt; rw [setPath_ne h1 h2]; exact ⟨rfl, rfl⟩
  have hfv : ∀ i j, i < X → ∀ n ∈ S, fv (H.setPath t p v) i j n = fv H i j n := by
    intro i j hi
    refine key _ ?_ ?_ ?_
    · unfold fv; rw [s1, s2]; exact hF i j hi
    · have e : fv H i j (oth H t) = - fv H i j t := (web_paired h i j).neg t ht
      rw [e, ← hF i j hi]
      unfold fv
      rw [o1, hvo', lastT, F_reverse]
    · intro n _ h1 h2; unfold fv; rw [(same n h1 h2).1, (same n h1 h2).2]
  constructor
  · exact h.nodup
  · intro n hn; rw [setPath_oth]; exact h.om n hn
  · intro n hn; rw [setPath_oth]; exact h.one n hn
  · intro n hn; rw [setPath_oth, setPath_oth]; exact h.oo n hn
  · refine key _ ?_ ?_ ?_
    · rw [setPath_oth, s1, o1]
    · rw [setPath_oth, h.oo t ht, s1, o1, List.reverse_reverse]
    · intro n hn h1 h2
      obtain ⟨f1, f2⟩ := far n hn h1 h2
      rw [setPath_oth, (same _ f1 f2).1, (same n h1 h2).1]; exact h.rev n hn
  · refine key _ ?_ ?_ ?_
    · rw [setPath_oth, s1, s2, hvo']
    · rw [setPath_oth, h.oo t ht, s2, o1, hvo', List.length_reverse, lastT_lastT]
    · intro n hn h1 h2
      obtain ⟨f1, f2⟩ := far n hn h1 h2
      rw [setPath_oth, (same _ f1 f2).2, (same n h1 h2).1, (same n h1 h2).2]; exact h.vt n hn
  · refine key _ ?_ ?_ ?_
    · rw [s1]; exact hlen
    · rw [o1, List.length_reverse]; exact hlen
    · intro n hn h1 h2; rw [(same n h1 h2).1]; exact h.len n hn
  · refine key _ ?_ ?_ ?_
    · rw [s1]; exact hnd
    · rw [o1]; exact ND_reverse p hnd
    · intro n hn h1 h2; rw [(same n h1 h2).1]; exact h.nd n hn
  · refine key _ ?_ ?_ ?_
    · rw [s1, s2]; exact hx
    · rw [o1, hvo']; exact Xle_reverse X p v hx
    · intro n hn h1 h2; rw [(same n h1 h2).1, (same n h1 h2).2]; exact h.xle n hn
  · exact h.fresh
  · intro i j hi
    exact lam_congr (h.lam i j hi) (fun _ ha => ha) (fun a _ => setPath_oth H t p v a) (fun a ha => hfv i j hi _ (h.om a ha))

/-! ### Lists of ends -/

theorem ps_append {A B : List Nat} {a : Nat} : ps (A ++ B) a = if a ∈ A then (A.idxOf a : Int) else A.length + B.idxOf a := by
  unfold ps
  split_ifs with h
  · rw [List.idxOf_append_of_mem h]
  · rw [List.idxOf_append_of_notMem h]; push_cast; omega

theorem ps_mid {A B : List Nat} {t u a : Nat} (ht : a ≠ t) (hu : a ≠ u) :
    ps (A ++ t :: u :: B) a = if a ∈ A then (A.idxOf a : Int) else A.length + 2 + B.idxOf a := by
  rw [ps_append]
  split_ifs with h
  · rfl
  · rw [List.idxOf_cons_ne _ ht.symm, List.idxOf_cons_ne _ hu.symm]; push_cast; omega

theorem mem_lt {A : List Nat} {a : Nat} (h : a ∈ A) : (A.idxOf a : Int) < A.length := by
  have := List.idxOf_lt_length_of_mem h; omega

theorem ps_order {A B : List Nat} {t u : Nat} {a b : Nat} (h1 : a ≠ t) (h2 : a ≠ u) (h3 : b ≠ t) (h4 : b ≠ u) :
    ps (A ++ B) a < ps (A ++ B) b ↔ ps (A ++ t :: u :: B) a < ps (A ++ t :: u :: B) b := by
  rw [ps_mid h1 h2, ps_mid h3 h4, ps_append, ps_append]
  split_ifs with ha hb hb
  · exact Iff.rfl
  · have := mem_lt ha; omega
  · have := mem_lt hb; omega
  · omega

theorem ps_adj {A B : List Nat} {t u : Nat} (hn : (A ++ t :: u :: B).Nodup) :
    ps (A ++ t :: u :: B) t = A.length ∧ ps (A ++ t :: u :: B) u = A.length + 1 := by
  have h := List.nodup_append.1 hn
  have ht : t ∉ A := fun h' => h.2.2 t h' t (by simp) rfl
  have hu : u ∉ A := fun h' => h.2.2 u h' u (by simp) rfl
  have htu : t ≠ u := by have := h.2.1; simp only [List.nodup_cons, List.mem_cons, not_or] at this; exact this.1.1
  rw [ps_append, ps_append, if_neg ht, if_neg hu, List.idxOf_cons_self, List.idxOf_cons_ne _ htu, List.idxOf_cons_self]
  simp

theorem mem_mid {A B : List Nat} {t u a : Nat} (hn : (A ++ t :: u :: B).Nodup) : a ∈ A ++ B ↔ a ∈ A ++ t :: u :: B ∧ a ≠ t ∧ a ≠ u := by
  have h := List.nodup_append.1 hn
  have h2 := h.2.1
  simp only [List.nodup_cons, List.mem_cons, not_or] at h2
  constructor
  · intro ha
    rcases List.mem_append.1 ha with ha | ha
    · exact ⟨by simp [ha], h.2.2 a ha t (by simp), h.2.2 a ha u (by simp)⟩
    · exact ⟨by simp [ha], fun e => h2.1.2 (e ▸ ha), fun e => h2.2.1 (e ▸ ha)⟩
  · rintro ⟨ha, h3, h4⟩
    simp only [List.mem_append, List.mem_cons] at ha ⊢
    rcases ha with ha | ha | ha | ha
    · exact Or.inl ha
    · exact absurd ha h3
    · exact absurd ha h4
    · exact Or.inr ha

theorem nodup_mid {A B : List Nat} {t u : Nat} (hn : (A ++ t :: u :: B).Nodup) : (A ++ B).Nodup := by
  refine hn.sublist ?_
  exact List.Sublist.append (List.Sublist.refl A) ((List.sublist_cons_self u B).trans (List.sublist_cons_self t _))

/-- Dropping a closed chain. -/
theorem web_close {X : Int} {H : Heap} {A B : List Nat} {t u : Nat} (h : Web X H (A ++ t :: u :: B)) (hc : oth H t = u) :
    Web X H (A ++ B) := by
  have hm := fun a => mem_mid (a := a) h.nodup
  have ht : t ∈ A ++ t :: u :: B := by simp
  have hu : oth H u = t := by rw [← hc]; exact h.oo t ht
  have om : ∀ a ∈ A ++ B, oth H a ∈ A ++ B := by
    intro a ha
    obtain ⟨h1, h2, h3⟩ := (hm a).1 ha
    refine (hm _).2 ⟨h.om a h1, fun e => h3 ?_, fun e => h2 ?_⟩
    · rw [← h.oo a h1, e, hc]
    · rw [← h.oo a h1, e, hu]
  refine { nodup := nodup_mid h.nodup, om := om, one := fun a ha => h.one a ((hm a).1 ha).1,
           oo := fun a ha => h.oo a ((hm a).1 ha).1, rev := fun a ha => h.rev a ((hm a).1 ha).1,
           vt := fun a ha => h.vt a ((hm a).1 ha).1, len := fun a ha => h.len a ((hm a).1 ha).1,
           nd := fun a ha => h.nd a ((hm a).1 ha).1, xle := fun a ha => h.xle a ((hm a).1 ha).1,
           fresh := fun a ha => h.fresh a ((hm a).1 ha).1, lam := fun i j hi => ?_ }
  have l1 : Lam (ps (A ++ t :: u :: B)) (· ∈ A ++ B) (oth H) (fv H i j) :=
    lam_congr (h.lam i j hi) (fun a ha => ((hm a).1 ha).1) (fun _ _ => rfl) (fun _ _ => rfl)
  exact lam_order om l1 (fun a b ha hb => ps_order ((hm a).1 ha).2.1 ((hm a).1 ha).2.2 ((hm b).1 hb).2.1 ((hm b).1 hb).2.2)

/-- A new pair of ends. -/
theorem web_new {X y : Int} {H : Heap} {A B : List Nat} (h : Web X H (A ++ B)) :
    Web X (H.newPair X y).1 (A ++ (H.fresh + 1) :: H.fresh :: B) := by
  have hA : H.fresh ∉ A ++ B := fun hm => by have := h.fresh _ hm; omega
  have hA' : H.fresh + 1 ∉ A ++ B := fun hm => by have := h.fresh _ hm; omega
  have hn : (A ++ (H.fresh + 1) :: H.fresh :: B).Nodup := by
    have h0 := List.nodup_append.1 h.nodup
    simp only [List.mem_append, not_or] at hA hA'
    refine List.nodup_append.2 ⟨h0.1, ?_, ?_⟩
    · simp only [List.nodup_cons, List.mem_cons, not_or]
      exact ⟨⟨by omega, hA'.2⟩, hA.2, h0.2.1⟩
    · intro a ha b hb e
      subst e
      simp only [List.mem_cons] at hb
      rcases hb with hb | hb | hb
      · exact hA'.1 (hb ▸ ha)
      · exact hA.1 (hb ▸ ha)
      · exact h0.2.2 a ha a hb rfl
  have hm := fun a => mem_mid (a := a) hn
  have t1 : (H.newPair X y).1.tail H.fresh = ⟨[X, y], true, H.fresh + 1, []⟩ := by simp [Heap.newPair]
  have t2 : (H.newPair X y).1.tail (H.fresh + 1) = ⟨[y, X], false, H.fresh, []⟩ := by simp [Heap.newPair]
  have t3 : ∀ n ∈ A ++ B, (H.newPair X y).1.tail n = H.tail n := by
    intro n hn'
    have := h.fresh n hn'
    simp only [Heap.newPair]
    rw [if_neg (by omega), if_neg (by omega)]
  have split : ∀ n, n ∈ A ++ (H.fresh + 1) :: H.fresh :: B ↔ n ∈ A ++ B ∨ n = H.fresh + 1 ∨ n = H.fresh := by
    intro n
    simp only [List.mem_append, List.mem_cons]
    tauto
  have key : ∀ (P : Nat → Prop), P H.fresh → P (H.fresh + 1) → (∀ n ∈ A ++ B, P n) → ∀ n ∈ A ++ (H.fresh + 1) :: H.fresh :: B, P n := by
    intro P p1 p2 p3 n hn'
    rcases (split n).1 hn' with hh | rfl | rfl
    · exact p3 n hh
    · exact p2
    · exact p1
  have o1 : oth (H.newPair X y).1 H.fresh = H.fresh + 1 := by unfold oth; rw [t1]
  have o2 : oth (H.newPair X y).1 (H.fresh + 1) = H.fresh := by unfold oth; rw [t2]
  have o3 : ∀ n ∈ A ++ B, oth (H.newPair X y).1 n = oth H n := fun n hn' => by unfold oth; rw [t3 n hn']
  have p1 : pth (H.newPair X y).1 H.fresh = [X, y] := by unfold pth; rw [t1]
  have p2 : pth (H.newPair X y).1 (H.fresh + 1) = [y, X] := by unfold pth; rw [t2]
  have p3 : ∀ n ∈ A ++ B, pth (H.newPair X y).1 n = pth H n := fun n hn' => by unfold pth; rw [t3 n hn']
  have v1 : vrt (H.newPair X y).1 H.fresh = true := by unfold vrt; rw [t1]
  have v2 : vrt (H.newPair X y).1 (H.fresh + 1) = false := by unfold vrt; rw [t2]
  have v3 : ∀ n ∈ A ++ B, vrt (H.newPair X y).1 n = vrt H n := fun n hn' => by unfold vrt; rw [t3 n hn']
  constructor
  · exact hn
  · exact key _ (by rw [o1]; simp) (by rw [o2]; simp) (fun n hn' => by rw [o3 n hn']; exact (split _).2 (Or.inl (h.om n hn')))
  · exact key _ (by rw [o1]; omega) (by rw [o2]; omega) (fun n hn' => by rw [o3 n hn']; exact h.one n hn')
  · exact key _ (by rw [o1, o2]) (by rw [o2, o1]) (fun n hn' => by rw [o3 n hn', o3 _ (h.om n hn')]; exact h.oo n hn')
  · exact key _ (by rw [o1, p1, p2]; rfl) (by rw [o2, p1, p2]; rfl) (fun n hn' => by rw [o3 n hn', p3 n hn', p3 _ (h.om n hn')]; exact h.rev n hn')
  · exact key _ (by rw [o1, p1, v1, v2]; simp [lastT]) (by rw [o2, p2, v1, v2]; simp [lastT]) (fun n hn' => by rw [o3 n hn', p3 n hn', v3 n hn', v3 _ (h.om n hn')]; exact h.vt n hn')
  · exact key _ (by rw [p1]; simp) (by rw [p2]; simp) (fun n hn' => by rw [p3 n hn']; exact h.len n hn')
  · exact key _ (by rw [p1]; trivial) (by rw [p2]; trivial) (fun n hn' => by rw [p3 n hn']; exact h.nd n hn')
  · exact key _ (by rw [p1, v1]; simp [Xle]) (by rw [p2, v2]; simp [Xle]) (fun n hn' => by rw [p3 n hn', v3 n hn']; exact h.xle n hn')
  · have hf : (H.newPair X y).1.fresh = H.fresh + 2 := rfl
    exact key _ (by omega) (by omega) (fun n hn' => by have := h.fresh n hn'; omega)
  · intro i j hi
    have hadj := ps_adj hn
    have hp : Paired (ps (A ++ (H.fresh + 1) :: H.fresh :: B)) (· ∈ A ++ B) (oth H) (fv H i j) :=
      { web_paired h i j with inj := fun a b ha hb e => ps_inj ((split a).2 (Or.inl ha)) e }
    have hl : Lam (ps (A ++ (H.fresh + 1) :: H.fresh :: B)) (· ∈ A ++ B) (oth H) (fv H i j) :=
      lam_order h.om (h.lam i j hi) (fun a b ha hb => (ps_order ((hm a).1 ha).2.1 ((hm a).1 ha).2.2 ((hm b).1 hb).2.1 ((hm b).1 hb).2.2).symm)
    have := (lam_new (o' := oth (H.newPair X y).1) (F' := fv (H.newPair X y).1 i j) (p := H.fresh + 1) (q := H.fresh) hp hl (by omega) hA' hA
      o2 o1 (by unfold fv; rw [p2, F_two]) (by unfold fv; rw [p1, F_two])
      o3 (fun a ha => by unfold fv; rw [p3 a ha, v3 a ha]) (by omega)
      (fun a ha => by
        refine ⟨fun e => ((hm a).1 ha).2.1 (ps_inj ((split a).2 (Or.inl ha)) e), fun e => ((hm a).1 ha).2.2 (ps_inj ((split a).2 (Or.inl ha)) e)⟩)).1
    exact lam_congr this (fun a ha => (split a).1 ha) (fun _ _ => rfl) (fun _ _ => rfl)

theorem link_one {H : Heap} (o1 o2 : Nat) (p : List Int) : (H.link o1 o2 p).tail o1 = { H.tail o1 with path := p, other := o2 } := by
  simp [Heap.link]
theorem link_two {H : Heap} {o1 o2 : Nat} (h : o2 ≠ o1) (p : List Int) :
    (H.link o1 o2 p).tail o2 = { H.tail o2 with path := p.reverse, other := o1 } := by
  simp [Heap.link, h]
theorem link_ne {H : Heap} {o1 o2 n : Nat} (h1 : n ≠ o1) (h2 : n ≠ o2) (p : List Int) : (H.link o1 o2 p).tail n = H.tail n := by
  simp [Heap.link, h1, h2]

/-- What a joint must look like: one end vertical at `X`, the other horizontal, and no segment of
length zero appears. -/
structure Joint (X : Int) (H : Heap) (t u : Nat) : Prop where
  ori : vrt H u = !vrt H t
  x : if vrt H t then (pth H t).head? = some X else (pth H u).head? = some X
  nd1 : ∀ a b, (pth H t)[1]? = some a → (pth H u).head? = some b → a ≠ b
  nd2 : ∀ a b, (pth H t).head? = some a → (pth H u)[1]? = some b → a ≠ b

/-- The value of a joined path. -/
theorem F_join {X : Int} {H : Heap} {S : List Nat} (h : Web X H S) {t u : Nat} (ht : t ∈ S) (hj : Joint X H t u) (hu : u ∈ S) {i : Int} (hi : i < X) (j : Int) :
    F i j (vrt H (oth H t)) (pth H (oth H t) ++ pth H u) = fv H i j (oth H t) + fv H i j u := by
  have hr := h.rev t ht
  have hv := h.vt t ht
  have hlt := h.len t ht
  have hlu := h.len u hu
  have hori := hj.ori
  have hx := hj.x
  unfold fv
  cases hvt : vrt H t with
  | true =>
    rw [hvt] at hx hv hori
    simp only [if_true, Bool.not_true] at hx hori
    obtain ⟨r, hpr⟩ : ∃ r, pth H t = X :: r := by
      cases hp : pth H t with
      | nil => rw [hp] at hx; simp at hx
      | cons a r => rw [hp] at hx; simp at hx; exact ⟨r, by rw [hx]⟩
    rw [hr, hv, hori, hpr, List.reverse_cons, List.append_assoc, List.singleton_append]
    have e : lastT (X :: r).length true = decide (r.reverse.length % 2 = 0) := by
      unfold lastT; simp only [List.length_cons, List.length_reverse]
      by_cases hh : r.length % 2 = 0
      · rw [if_neg (by omega)]; simp [hh]
      · rw [if_pos (by omega)]; simp [hh]
    rw [F_split hi j _ _ _ e, F_split hi j [] _ _ e, F_nil]; ring
  | false =>
    rw [hvt] at hx hv hori
    simp only [Bool.false_eq_true, if_false, Bool.not_false] at hx hori
    obtain ⟨r, hpr⟩ : ∃ r, pth H u = X :: r := by
      cases hp : pth H u with
      | nil => rw [hp] at hx; simp at hx
      | cons a r => rw [hp] at hx; simp at hx; exact ⟨r, by rw [hx]⟩
    rw [hr, hv, hori, hpr]
    have e : lastT (pth H t).length false = decide ((pth H t).reverse.length % 2 = 0) := by
      unfold lastT; rw [List.length_reverse]
      by_cases hh : (pth H t).length % 2 = 0 <;> simp [hh]
    rw [F_split hi j _ _ _ e, F_x]

/-- Joining two chains. -/
theorem web_join {X : Int} {H : Heap} {A B : List Nat} {t u : Nat} (h : Web X H (A ++ t :: u :: B)) (hne : oth H t ≠ u) (hj : Joint X H t u) :
    Web X (H.link (oth H t) (oth H u) (pth H (oth H t) ++ pth H u)) (A ++ B) ∧
    ∀ i j, i < X → ∀ n, fv (H.link (oth H t) (oth H u) (pth H (oth H t) ++ pth H u)) i j n =
      if n = oth H t then fv H i j n + fv H i j u else if n = oth H u then fv H i j n + fv H i j t else fv H i j n := by
  have hm := fun a => mem_mid (a := a) h.nodup
  have ht : t ∈ A ++ t :: u :: B := by simp
  have hu : u ∈ A ++ t :: u :: B := by simp
  have hot := h.om t ht
  have hou := h.om u hu
  have htu : t ≠ u := by
    have := ps_adj h.nodup
    intro e; subst e; omega
  have hoe : oth H t ≠ oth H u := fun e => htu (by rw [← h.oo t ht, e, h.oo u hu])
  have hut : oth H u ≠ t := fun e => hne (by rw [← e, h.oo u hu])
  have e1 := h.one t ht
  have e2 := h.one u hu
  set o1 := oth H t with ho1
  set o2 := oth H u with ho2
  set p := pth H o1 ++ pth H u with hp
  have hprev : p.reverse = pth H o2 ++ pth H t := by
    rw [hp, List.reverse_append, ho2, h.rev u hu, ho1, h.rev t ht, List.reverse_reverse]
  have L1 := link_one (H := H) o1 o2 p
  have L2 := link_two (H := H) hoe.symm p
  have L3 := fun n (h1 : n ≠ o1) (h2 : n ≠ o2) => link_ne (H := H) h1 h2 p
  set H' := H.link o1 o2 p with hH'
  have O1 : oth H' o1 = o2 := by unfold oth; rw [L1]
  have O2 : oth H' o2 = o1 := by unfold oth; rw [L2]
  have O3 : ∀ n, n ≠ o1 → n ≠ o2 → oth H' n = oth H n := fun n a b => by unfold oth; rw [L3 n a b]
  have P1 : pth H' o1 = p := by unfold pth; rw [L1]
  have P2 : pth H' o2 = p.reverse := by unfold pth; rw [L2]
  have P3 : ∀ n, n ≠ o1 → n ≠ o2 → pth H' n = pth H n := fun n a b => by unfold pth; rw [L3 n a b]
  have V : ∀ n, vrt H' n = vrt H n := by
    intro n
    by_cases a : n = o1
    · rw [a]; unfold vrt; rw [L1]
    by_cases b : n = o2
    · rw [b]; unfold vrt; rw [L2]
    unfold vrt; rw [L3 n a b]
  -- the joint seen from the other side
  have hj' : Joint X H u t := by
    refine ⟨by rw [hj.ori]; simp, ?_, fun a b ha hb => (hj.nd2 b a hb ha).symm, fun a b ha hb => (hj.nd1 b a hb ha).symm⟩
    have := hj.x
    rw [hj.ori]
    cases hv : vrt H t with
    | true => rw [hv] at this; simpa using this
    | false => rw [hv] at this; simpa using this
  have hfv : ∀ i j, i < X → ∀ n, fv H' i j n =
      if n = o1 then fv H i j n + fv H i j u else if n = o2 then fv H i j n + fv H i j t else fv H i j n := by
    intro i j hi n
    by_cases a : n = o1
    · rw [if_pos a, a]
      have := F_join h ht hj hu hi j
      rw [← ho1, ← hp] at this
      rw [← this]; unfold fv; rw [P1, V]
    rw [if_neg a]
    by_cases b : n = o2
    · rw [if_pos b, b]
      have := F_join h hu hj' ht hi j
      rw [← ho2, ← hprev] at this
      rw [← this]; unfold fv; rw [P2, V]
    rw [if_neg b]; unfold fv; rw [P3 n a b, V]
  have mo1 : o1 ∈ A ++ B := (hm _).2 ⟨hot, e1, hne⟩
  have mo2 : o2 ∈ A ++ B := (hm _).2 ⟨hou, hut, e2⟩
  have hoo : ∀ a ∈ A ++ B, a ≠ o1 → a ≠ o2 → oth H a ∈ A ++ B ∧ oth H a ≠ o1 ∧ oth H a ≠ o2 := by
    intro a ha h3 h4
    obtain ⟨ha, h1, h2⟩ := (hm a).1 ha
    refine ⟨(hm _).2 ⟨h.om a ha, fun e => h3 ?_, fun e => h4 ?_⟩, fun e => h1 ?_, fun e => h2 ?_⟩
    · rw [ho1, ← e, h.oo a ha]
    · rw [ho2, ← e, h.oo a ha]
    · rw [← h.oo a ha, e, ho1, h.oo t ht]
    · rw [← h.oo a ha, e, ho2, h.oo u hu]
  have key : ∀ (P : Nat → Prop), P o1 → P o2 → (∀ n ∈ A ++ B, n ≠ o1 → n ≠ o2 → P n) → ∀ n ∈ A ++ B, P n := by
    intro P p1 p2 p3 n hn
    by_cases a : n = o1
    · rw [a]; exact p1
    by_cases b : n = o2
    · rw [b]; exact p2
    exact p3 n hn a b
  -- shapes
  have hvo1 : vrt H o1 = lastT (pth H t).length (vrt H t) := h.vt t ht
  have hvo2 : vrt H o2 = lastT (pth H u).length (vrt H u) := h.vt u hu
  have hl1 : (pth H o1).length = (pth H t).length := by rw [ho1, h.rev t ht, List.length_reverse]
  have hl2 : (pth H o2).length = (pth H u).length := by rw [ho2, h.rev u hu, List.length_reverse]
  have hpl : p.length = (pth H t).length + (pth H u).length := by rw [hp, List.length_append, hl1]
  have hlt := h.len t ht
  have hlu := h.len u hu
  have hvv : vrt H o2 = lastT p.length (vrt H o1) := by
    rw [hvo2, hvo1, hj.ori, hpl]
    unfold lastT
    by_cases a : (pth H t).length % 2 = 0 <;> by_cases b : (pth H u).length % 2 = 0
    · rw [if_pos a, if_pos b, if_pos (by omega)]
    · rw [if_pos a, if_neg b, if_neg (by omega)]
    · rw [if_neg a, if_pos b, if_neg (by omega)]; simp
    · rw [if_neg a, if_neg b, if_pos (by omega)]
  have hnd : ND p := by
    obtain ⟨a, b, r, hr⟩ : ∃ a b r, pth H t = a :: b :: r := by
      match hh : pth H t with
      | [] => rw [hh] at hlt; simp at hlt
      | [_] => rw [hh] at hlt; simp at hlt
      | a :: b :: r => exact ⟨a, b, r, rfl⟩
    obtain ⟨c, d, q, hq⟩ : ∃ c d q, pth H u = c :: d :: q := by
      match hh : pth H u with
      | [] => rw [hh] at hlu; simp at hlu
      | [_] => rw [hh] at hlu; simp at hlu
      | a :: b :: r => exact ⟨a, b, r, rfl⟩
    have n1 := hj.nd1 b c (by rw [hr]; rfl) (by rw [hq]; rfl)
    have n2 := hj.nd2 a d (by rw [hr]; rfl) (by rw [hq]; rfl)
    have no := h.nd o1 hot
    rw [hp, hq]
    rw [ho1, h.rev t ht, hr] at no ⊢
    have e : (a :: b :: r).reverse = r.reverse ++ [b, a] := by simp
    rw [e] at no ⊢
    exact ND_append b a c d q n1 n2 (by rw [← hq]; exact h.nd u hu) _ no
  have hxp : Xle X (vrt H o1) p := by
    rw [hp, Xle_append]
    refine ⟨h.xle o1 hot, ?_⟩
    have : (if (pth H o1).length % 2 = 0 then vrt H o1 else !vrt H o1) = vrt H u := by
      rw [hl1, hvo1, hj.ori]; unfold lastT
      by_cases a : (pth H t).length % 2 = 0
      · rw [if_pos a, if_pos a]
      · rw [if_neg a, if_neg a]
    rw [this]; exact h.xle u hu
  refine ⟨?_, hfv⟩
  constructor
  · exact nodup_mid h.nodup
  · exact key _ (by rw [O1]; exact mo2) (by rw [O2]; exact mo1) (fun n hn a b => by rw [O3 n a b]; exact (hoo n hn a b).1)
  · exact key _ (by rw [O1]; exact hoe.symm) (by rw [O2]; exact hoe) (fun n hn a b => by rw [O3 n a b]; exact h.one n ((hm n).1 hn).1)
  · exact key _ (by rw [O1, O2]) (by rw [O2, O1]) (fun n hn a b => by
      rw [O3 n a b, O3 _ (hoo n hn a b).2.1 (hoo n hn a b).2.2]; exact h.oo n ((hm n).1 hn).1)
  · exact key _ (by rw [O1, P1, P2]) (by rw [O2, P1, P2, List.reverse_reverse]) (fun n hn a b => by
      rw [O3 n a b, P3 _ (hoo n hn a b).2.1 (hoo n hn a b).2.2, P3 n a b]; exact h.rev n ((hm n).1 hn).1)
  · exact key _ (by rw [O1, P1, V, V]; exact hvv) (by rw [O2, P2, V, V, List.length_reverse, hvv, lastT_lastT]) (fun n hn a b => by
      rw [O3 n a b, P3 n a b, V, V]; exact h.vt n ((hm n).1 hn).1)
  · exact key _ (by rw [P1]; omega) (by rw [P2, List.length_reverse]; omega) (fun n hn a b => by rw [P3 n a b]; exact h.len n ((hm n).1 hn).1)
  · exact key _ (by rw [P1]; exact hnd) (by rw [P2]; exact ND_reverse p hnd) (fun n hn a b => by rw [P3 n a b]; exact h.nd n ((hm n).1 hn).1)
  · exact key _ (by rw [P1, V]; exact hxp) (by rw [P2, V, hvv]; exact Xle_reverse X p _ hxp) (fun n hn a b => by
      rw [P3 n a b, V]; exact h.xle n ((hm n).1 hn).1)
  · intro n hn
    have hf : H'.fresh = H.fresh := by rw [hH']; rfl
    rw [hf]; exact h.fresh n ((hm n).1 hn).1
  · intro i j hi
    have hadj := ps_adj h.nodup
    have hq := hfv i j hi
    have := lam_join (o' := oth H') (F' := fv H' i j) (web_paired h i j) (h.lam i j hi) ht hu (by omega) hne O1 O2 (fun a x y => O3 a x y)
      (by rw [hq, if_pos rfl]) (by rw [hq, if_neg hoe.symm, if_pos rfl]) (fun a x y => by rw [hq, if_neg x, if_neg y])
    have l1 : Lam (ps (A ++ t :: u :: B)) (· ∈ A ++ B) (oth H') (fv H' i j) :=
      lam_congr this.1 (fun a ha => (hm a).1 ha) (fun _ _ => rfl) (fun _ _ => rfl)
    exact lam_order (fun a ha => (hm _).2 (this.2.om a ((hm a).1 ha))) l1
      (fun a b ha hb => ps_order ((hm a).1 ha).2.1 ((hm a).1 ha).2.2 ((hm b).1 hb).2.1 ((hm b).1 hb).2.2)

end Verif.Proofs.PolyWeb
