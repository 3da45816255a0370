import Verif.Proofs.PolyInv
/-!
# One column of polygon formation: the map and the scan position
-/
namespace Verif.Proofs.PolyCol
open Verif.PolyForm Verif.Proofs.PolyPath Verif.Proofs.PolyLam Verif.Proofs.PolyWeb Verif.Proofs.PolyInv Verif.Interval

/-! ### the map -/

def Srt (m : List (Int × Nat)) : Prop := m.Pairwise (fun a b => a.1 < b.1)

theorem find_none {m : List (Int × Nat)} {k : Int} (h : ∀ e ∈ m, e.1 ≠ k) : mfind m k = none := by
  unfold mfind
  rw [Option.map_eq_none_iff, List.find?_eq_none]
  intro e he; simpa using h e he

theorem find_mid {D U : List (Int × Nat)} {k : Int} {t : Nat} (h : ∀ e ∈ D, e.1 < k) : mfind (D ++ (k, t) :: U) k = some t := by
  unfold mfind
  have hD : List.find? (fun e : Int × Nat => decide (e.1 = k)) D = none := by
    rw [List.find?_eq_none]; intro e he; have := h e he; simp; omega
  rw [List.find?_append, hD]; simp

theorem insert_mid (k : Int) (v : Nat) : ∀ {D U : List (Int × Nat)}, (∀ e ∈ D, e.1 < k) → (∀ e ∈ U, k < e.1) → minsert k v (D ++ U) = D ++ (k, v) :: U
  | [], [], _, _ => rfl
  | [], e :: U, _, h => by
    have := h e (by simp)
    rw [List.nil_append, minsert, if_neg (by omega), if_neg (by omega)]; rfl
  | e :: D, U, h, h' => by
    have := h e (by simp)
    rw [List.cons_append, minsert, if_pos this, insert_mid k v (fun e he => h e (by simp [he])) h']; rfl

theorem filter_ne_self {L : List (Int × Nat)} {k : Int} (h : ∀ e ∈ L, e.1 ≠ k) : L.filter (fun e => e.1 ≠ k) = L := by
  rw [List.filter_eq_self]; intro e he; simpa using h e he

theorem erase_mid {D U : List (Int × Nat)} {k : Int} {t : Nat} (h : ∀ e ∈ D, e.1 < k) (h' : ∀ e ∈ U, k < e.1) :
    merase (D ++ (k, t) :: U) k = D ++ U := by
  unfold merase
  rw [List.filter_append, List.filter_cons_of_neg (by simp), filter_ne_self (fun e he => by have := h e he; omega),
    filter_ne_self (fun e he => by have := h' e he; omega)]

theorem map_self {L : List (Int × Nat)} {k : Int} {v : Nat} (h : ∀ e ∈ L, e.1 ≠ k) : L.map (fun e => if e.1 = k then (k, v) else e) = L := by
  conv_rhs => rw [← List.map_id L]
  exact List.map_congr_left (fun e he => if_neg (h e he))

theorem set_mid {D U : List (Int × Nat)} {k : Int} {t v : Nat} (h : ∀ e ∈ D, e.1 < k) (h' : ∀ e ∈ U, k < e.1) :
    mset (D ++ (k, t) :: U) k v = D ++ (k, v) :: U := by
  unfold mset
  rw [List.map_append, List.map_cons, map_self (fun e he => by have := h e he; omega), map_self (fun e he => by have := h' e he; omega)]
  simp

theorem next_mid {D U : List (Int × Nat)} {k : Int} (h : ∀ e ∈ D, e.1 ≤ k) (h' : ∀ e ∈ U, k < e.1) : mnext (D ++ U) k = U.head?.map (·.1) := by
  unfold mnext
  have hD : List.find? (fun e : Int × Nat => decide (k < e.1)) D = none := by
    rw [List.find?_eq_none]; intro e he; have := h e he; simp; omega
  rw [List.find?_append, hD, Option.none_or]
  cases U with
  | nil => rfl
  | cons e U => rw [List.find?_cons_of_pos (by have := h' e (by simp); simpa using this)]; rfl

def NmOk (nm : Option Int) (U : List (Int × Nat)) : Prop := ∀ p, nm = some p → ∀ e ∈ U, p ≤ e.1

theorem findAt_eq {D U : List (Int × Nat)} {nm : Option Int} {k : Int} (hn : NmOk nm U) (hD : ∀ e ∈ D, e.1 < k) :
    findAtNext (D ++ U) nm k = mfind (D ++ U) k := by
  unfold findAtNext
  cases nm with
  | none => rfl
  | some p =>
    dsimp only
    split_ifs with h1 h2
    · rfl
    · symm; refine find_none (fun e he => ?_)
      rcases List.mem_append.1 he with a | a
      · have := hD e a; omega
      · have := hn p rfl e a; omega
    · rw [show p = k by omega]

theorem srt_append {D U : List (Int × Nat)} : Srt (D ++ U) ↔ Srt D ∧ Srt U ∧ ∀ a ∈ D, ∀ b ∈ U, a.1 < b.1 := List.pairwise_append

theorem srt_mid {D U : List (Int × Nat)} {k : Int} (v : Nat) (h : Srt (D ++ U)) (h1 : ∀ e ∈ D, e.1 < k) (h2 : ∀ e ∈ U, k < e.1) : Srt (D ++ (k, v) :: U) := by
  rw [srt_append] at h ⊢
  refine ⟨h.1, List.pairwise_cons.2 ⟨h2, h.2.1⟩, fun a ha b hb => ?_⟩
  rcases List.mem_cons.1 hb with rfl | hb
  · exact h1 a ha
  · exact h.2.2 a ha b hb

theorem srt_drop {D U : List (Int × Nat)} {e : Int × Nat} (h : Srt (D ++ e :: U)) : Srt (D ++ U) ∧ (∀ a ∈ D, a.1 < e.1) ∧ ∀ b ∈ U, e.1 < b.1 := by
  rw [srt_append] at h ⊢
  have h2 := List.pairwise_cons.1 h.2.1
  exact ⟨⟨h.1, h2.2, fun a ha b hb => h.2.2 a ha b (by simp [hb])⟩, fun a ha => h.2.2 a ha e (by simp), h2.1⟩

/-- Entries up to a row. -/
def cnt (L : List (Int × Nat)) (j : Int) : Int := ((L.filter (fun e => e.1 ≤ j)).length : Int)

theorem cnt_nil (j : Int) : cnt [] j = 0 := rfl
theorem cnt_cons (e : Int × Nat) (L : List (Int × Nat)) (j : Int) : cnt (e :: L) j = (if e.1 ≤ j then 1 else 0) + cnt L j := by
  unfold cnt
  by_cases h : e.1 ≤ j
  · rw [List.filter_cons_of_pos (by simpa using h), if_pos h, List.length_cons]; push_cast; ring
  · rw [List.filter_cons_of_neg (by simpa using h), if_neg h]; ring
theorem cnt_append (L M : List (Int × Nat)) (j : Int) : cnt (L ++ M) j = cnt L j + cnt M j := by
  unfold cnt; rw [List.filter_append, List.length_append]; push_cast; ring
theorem cnt_all {L : List (Int × Nat)} {j : Int} (h : ∀ e ∈ L, e.1 ≤ j) : cnt L j = L.length := by
  unfold cnt; rw [List.filter_eq_self.2 (fun e he => by simpa using h e he)]
theorem cnt_none {L : List (Int × Nat)} {j : Int} (h : ∀ e ∈ L, j < e.1) : cnt L j = 0 := by
  unfold cnt
  rw [List.filter_eq_nil_iff.2 (fun e he => by have := h e he; simp; omega)]; rfl
theorem cnt_nonneg (L : List (Int × Nat)) (j : Int) : 0 ≤ cnt L j := by unfold cnt; omega

/-! ### ends in the map -/

def Ent (H : Heap) (e : Int × Nat) : Prop := vrt H e.2 = false ∧ (pth H e.2).head? = some e.1
def Old (X : Int) (H : Heap) (t : Nat) : Prop := ∃ x, (pth H t)[1]? = some x ∧ x < X

theorem take2 {p q : List Int} (h : q.take 2 = p.take 2) : q.head? = p.head? ∧ q[1]? = p[1]? := by
  constructor
  · have := congrArg List.head? h
    simpa [List.head?_take] using this
  · have := congrArg (fun l : List Int => l[1]?) h
    simpa [List.getElem?_take] using this

theorem ent_near {H H' : Heap} {e : Int × Nat} (h : Ent H e) (n : Near H H' e.2) : Ent H' e :=
  ⟨n.1.trans h.1, (take2 n.2).1.trans h.2⟩

theorem old_near {X : Int} {H H' : Heap} {t : Nat} (h : Old X H t) (n : Near H H' t) : Old X H' t := by
  obtain ⟨x, h1, h2⟩ := h
  exact ⟨x, (take2 n.2).2.trans h1, h2⟩

theorem ent_path {X : Int} {H : Heap} {S : List Nat} (w : Web X H S) {e : Int × Nat} (hs : e.2 ∈ S) (h : Ent H e) : ∃ x q, pth H e.2 = e.1 :: x :: q := by
  have hl := w.len _ hs
  have h2 := h.2
  match hh : pth H e.2 with
  | [] => rw [hh] at hl; simp at hl
  | [_] => rw [hh] at hl; simp at hl
  | a :: b :: r => rw [hh] at h2; simp at h2; exact ⟨b, r, by rw [h2]⟩

/-! ### totals -/

def pdv (H : Heap) (i j : Int) : Option Nat → Int
  | none => 0
  | some c => W i j (pth H c) + hs H i j c + hs H i j (oth H c)

def ov (H : Heap) (i j : Int) (o : Nat) : Int := - W i j (pth H o) + hs H i j o

def tot (H : Heap) (S out : List Nat) (pd : Option Nat) (i j : Int) : Int := cs H S i j + (out.map (ov H i j)).sum + pdv H i j pd

theorem tot_op {fr : Bool} {X : Int} {H H' : Heap} {S S' Z out : List Nat} {pd : Option Nat} (g : G fr X H S Z) (o : Op X H S H' S')
    (hout : ∀ n ∈ out, n ∈ Z) (hpd : ∀ c, pd = some c → c ∈ Z) {i j : Int} (hi : i < X) :
    tot H' S' out pd i j = tot H S out pd i j ∧ ∀ n ∈ out, ov H' i j n = ov H i j n := by
  have e : ∀ z ∈ Z, H'.tail z = H.tail z := fun z hz => o.frame z (g.z.zS z hz).1 (g.z.zf z hz).1
  have e' : ∀ z ∈ Z, H'.tail (oth H z) = H.tail (oth H z) := fun z hz => o.frame _ (g.z.zS z hz).2 (g.z.zf z hz).2
  have hp : ∀ n, (∀ h ∈ (H.tail n).holes, pth H' h = pth H h) := fun n h hm => by unfold pth; rw [e h (g.hol n h hm).2]
  have hz : ∀ z ∈ Z, hs H' i j z = hs H i j z := fun z hz => hs_congr (by rw [e z hz]) (hp z)
  have hz' : ∀ z ∈ Z, hs H' i j (oth H z) = hs H i j (oth H z) := fun z hz => hs_congr (by rw [e' z hz]) (hp _)
  have hov : ∀ n ∈ out, ov H' i j n = ov H i j n := fun n hn => by
    unfold ov pth; rw [hz n (hout n hn), e n (hout n hn)]
  refine ⟨?_, hov⟩
  unfold tot
  rw [o.cs i j hi]
  congr 1
  · congr 2
    exact List.map_congr_left hov
  · cases pd with
    | none => rfl
    | some c =>
      have hc := hpd c rfl
      have eo : oth H' c = oth H c := by unfold oth; rw [e c hc]
      unfold pdv pth; dsimp only; rw [eo, hz c hc, hz' c hc, e c hc]

/-- Only the holes differ. -/
theorem g_holes {fr : Bool} {X : Int} {H H' : Heap} {S Z : List Nat} (g : G fr X H S Z)
    (he : ∀ n, oth H' n = oth H n ∧ pth H' n = pth H n ∧ vrt H' n = vrt H n) (hf : H'.fresh = H.fresh)
    (hh : ∀ t, ∀ h ∈ (H'.tail t).holes, fr = false ∧ h ∈ Z) (hn : ∀ i j, i < X → Nest H' S i j) : G fr X H' S Z where
  web := web_congr g.web (fun n _ => (he n).1) (fun n _ => (he n).2.1) (fun n _ => (he n).2.2) (by omega)
  par := fun t ht => by rw [(he t).1]; exact g.par t ht
  z := { zS := fun z hz => by rw [(he z).1]; exact g.z.zS z hz
         zf := fun z hz => by rw [(he z).1, hf]; exact g.z.zf z hz
         vt := fun z hz => by rw [(he z).1, (he (oth H z)).2.2, (he z).2.2]; exact g.z.vt z hz
         rev := fun z hz => by rw [(he z).1, (he (oth H z)).2.1, (he z).2.1]; exact g.z.rev z hz
         loop := fun z hz => by rw [(he z).2.1]; exact g.z.loop z hz
         rng := fun z hz => by rw [(he z).2.1]; exact g.z.rng z hz
         xle := fun z hz => by rw [(he z).2.1]; exact g.z.xle z hz }
  hol := hh
  nest := hn

/-- A closed hole that is not placed yet lies in the gap above position `q`. -/
structure Pend (H : Heap) (S : List Nat) (c : Nat) (q i j : Int) : Prop where
  sum : -1 ≤ (S.map (hs H i j)).sum + pdv H i j (some c)
  rel : ∀ h, h = c ∨ h ∈ (H.tail c).holes ∨ h ∈ (H.tail (oth H c)).holes → HR (ps S) (· ∈ S) (oth H) (fv H i j) q (- W i j (pth H h))

theorem pend_new {fr : Bool} {X y i j q q' : Int} {H : Heap} {A B Z : List Nat} {c : Nat} (g : G fr X H (A ++ B) Z) (hc : c ∈ Z) (hq : Shf A.length q q')
    (h : Pend H (A ++ B) c q' i j) : Pend (H.newPair X y).1 (A ++ (H.fresh + 1) :: H.fresh :: B) c q i j := by
  have t4 : ∀ n, n < H.fresh → (H.newPair X y).1.tail n = H.tail n := fun n hn => by
    simp only [Heap.newPair]; rw [if_neg (by omega), if_neg (by omega)]
  have hzf := g.z.zf c hc
  have ho : oth (H.newPair X y).1 c = oth H c := by unfold oth; rw [t4 c hzf.1]
  have hp : ∀ z ∈ Z, pth (H.newPair X y).1 z = pth H z := fun z hz => by unfold pth; rw [t4 z (g.z.zf z hz).1]
  have hs1 : ∀ n, n < H.fresh → hs (H.newPair X y).1 i j n = hs H i j n := fun n hn =>
    hs_congr (by rw [t4 n hn]) (fun h hm => hp h (g.hol n h hm).2)
  constructor
  · have := h.sum
    rw [hs_new g]
    unfold pdv at this ⊢
    dsimp only at this ⊢
    rw [ho, hp c hc, hs1 _ hzf.1, hs1 _ hzf.2]; exact this
  · intro k hk
    rw [ho, t4 _ hzf.1, t4 _ hzf.2] at hk
    have hkz : k ∈ Z := by
      rcases hk with rfl | a | a
      · exact hc
      · exact (g.hol _ _ a).2
      · exact (g.hol _ _ a).2
    rw [hp k hkz]
    exact hr_new g hq (h.rel k hk)

theorem ps_at {A B : List Nat} {t : Nat} (h : (A ++ t :: B).Nodup) : ps (A ++ t :: B) t = A.length := by
  have : t ∉ A := fun ha => (List.nodup_append.1 h).2.2 t ha t (by simp) rfl
  rw [ps_append, if_neg this, List.idxOf_cons_self]; simp

theorem addHoles_eq (H : Heap) (t n : Nat) (hs : List Nat) : oth (H.addHoles t hs) n = oth H n ∧ pth (H.addHoles t hs) n = pth H n ∧ vrt (H.addHoles t hs) n = vrt H n := by
  unfold oth pth vrt Heap.addHoles; dsimp only; split_ifs <;> exact ⟨rfl, rfl, rfl⟩

theorem addHoles_holes (H : Heap) (t n : Nat) (hs : List Nat) : ((H.addHoles t hs).tail n).holes = if n = t then (H.tail n).holes ++ hs else (H.tail n).holes := by
  unfold Heap.addHoles; dsimp only; split_ifs <;> rfl

/-- A closed hole given to an open end. -/
theorem g_addHole {X : Int} {H : Heap} {S Z out : List Nat} (g : G false X H S Z) {t hole : Nat} (ht : t ∈ S) (hh : hole ∈ Z)
    (hout : ∀ n ∈ out, n ∈ Z ∧ n ≠ hole ∧ n ≠ oth H hole) (hpe : ∀ i j, i < X → Pend H S hole (gp (ps S t)) i j) :
    ∃ H', H.addHole t hole false = some (H', t) ∧ G false X H' S Z ∧ (∀ n, Near H H' n) ∧ (∀ n, pth H' n = pth H n) ∧
      (∀ n, oth H' n = oth H n) ∧ (∀ n, vrt H' n = vrt H n) ∧ H'.fresh = H.fresh ∧
      ∀ i j, tot H' S out none i j = tot H S out (some hole) i j ∧ ∀ n ∈ out, ov H' i j n = ov H i j n := by
  have hz := g.z.zS hole hh
  have n1 : hole ≠ t := fun e => hz.1 (e ▸ ht)
  have n2 : oth H hole ≠ t := fun e => hz.2 (e ▸ ht)
  have n3 : oth H hole ≠ hole := by
    intro e
    have := g.z.vt hole hh
    rw [e] at this
    rw [this.1] at this
    exact absurd this.2 (by simp)
  set H1 := H.addHoles t [hole] with h1
  set H2 := H1.copyHoles t hole with h2
  have ho : (H2.tail hole).other = oth H hole := by
    change oth H2 hole = _
    rw [h2, (copyHoles_eq _ _ _ _).1, h1, (addHoles_eq _ _ _ _).1]
  set H3 := H2.copyHoles t (oth H hole) with h3
  have he : ∀ n, oth H3 n = oth H n ∧ pth H3 n = pth H n ∧ vrt H3 n = vrt H n := by
    intro n
    obtain ⟨a1, a2, a3⟩ := copyHoles_eq H2 t (oth H hole) n
    obtain ⟨b1, b2, b3⟩ := copyHoles_eq H1 t hole n
    obtain ⟨c1, c2, c3⟩ := addHoles_eq H t n [hole]
    exact ⟨a1.trans (b1.trans c1), a2.trans (b2.trans c2), a3.trans (b3.trans c3)⟩
  have hho : ∀ n, (H3.tail n).holes = if n = t then (H.tail t).holes ++ [hole] ++ (H.tail hole).holes ++ (H.tail (oth H hole)).holes
      else if n = hole ∨ n = oth H hole then [] else (H.tail n).holes := by
    intro n
    rw [h3, copyHoles_holes, h2, copyHoles_holes, copyHoles_holes, h1, addHoles_holes, addHoles_holes, addHoles_holes]
    rw [if_neg n1, if_neg n2, if_neg n3, if_neg n2]
    by_cases a : n = t
    · subst a; simp
    · rw [if_neg a, if_neg a, if_neg a, if_neg a]
      by_cases b : n = oth H hole
      · rw [if_pos b, if_pos (Or.inr b)]
      · rw [if_neg b]
        by_cases c : n = hole
        · rw [if_pos c, if_pos (Or.inl c)]
        · rw [if_neg c, if_neg (by tauto)]
  have hsn : ∀ i j n, n ≠ t → n ≠ hole → n ≠ oth H hole → hs H3 i j n = hs H i j n := fun i j n a b c =>
    hs_congr (by rw [hho n, if_neg a, if_neg (by tauto)]) (fun h _ => (he h).2.1)
  have hst : ∀ i j, hs H3 i j t = hs H i j t + (W i j (pth H hole) + hs H i j hole + hs H i j (oth H hole)) := by
    intro i j
    unfold hs
    rw [hho t, if_pos rfl]
    have : ∀ L : List Nat, L.map (fun h => W i j (pth H3 h)) = L.map (fun h => W i j (pth H h)) := fun L =>
      List.map_congr_left (fun h _ => by rw [(he h).2.1])
    rw [this]
    simp only [List.map_append, List.sum_append, List.map_cons, List.map_nil, List.sum_cons, List.sum_nil]
    ring
  have hS : ∀ n ∈ S, n ≠ hole ∧ n ≠ oth H hole := fun n hn => ⟨fun e => hz.1 (e ▸ hn), fun e => hz.2 (e ▸ hn)⟩
  have hsum : ∀ i j, (S.map (hs H3 i j)).sum = (S.map (hs H i j)).sum + pdv H i j (some hole) := fun i j => by
    rw [sum_update S g.web.nodup ht (f := hs H i j) (fun n hn hnt => hsn i j n hnt (hS n hn).1 (hS n hn).2), hst]
    unfold pdv; dsimp only; ring
  have hnest : ∀ i j, i < X → Nest H3 S i j := fun i j hi => by
    refine ⟨by rw [hsum]; exact (hpe i j hi).sum, fun b hb h hm => ?_⟩
    have fin : ∀ {q : Int}, HR (ps S) (· ∈ S) (oth H) (fv H i j) q (- W i j (pth H h)) → HR (ps S) (· ∈ S) (oth H3) (fv H3 i j) q (- W i j (pth H3 h)) := fun h0 => by
      rw [(he h).2.1]
      exact hr_congr h0 (fun _ ha => ha) (fun a _ => (he a).1) (fun a _ => by unfold fv; rw [(he _).2.1, (he _).2.2])
    rw [hho b] at hm
    split_ifs at hm with a a'
    · subst a
      simp only [List.mem_append, List.mem_singleton] at hm
      rcases hm with ((a | a) | a) | a
      · exact fin ((g.nest i j hi).rel b hb h a)
      · exact fin ((hpe i j hi).rel h (Or.inl a))
      · exact fin ((hpe i j hi).rel h (Or.inr (Or.inl a)))
      · exact fin ((hpe i j hi).rel h (Or.inr (Or.inr a)))
    · simp at hm
    · exact fin ((g.nest i j hi).rel b hb h hm)
  refine ⟨H3, ?_, g_holes g he rfl ?_ hnest, fun n => ⟨(he n).2.2, by rw [(he n).2.1]⟩, fun n => (he n).2.1, fun n => (he n).1, fun n => (he n).2.2, rfl, ?_⟩
  · unfold Heap.addHole
    simp only [Bool.not_false, if_true]
    rw [← h1, ← h2, ho]
  · intro n h hm
    rw [hho n] at hm
    split_ifs at hm
    · simp only [List.mem_append, List.mem_singleton] at hm
      rcases hm with ((a | a) | a) | a
      · exact g.hol _ h a
      · exact ⟨rfl, a ▸ hh⟩
      · exact g.hol _ h a
      · exact g.hol _ h a
    · simp at hm
    · exact g.hol _ h hm
  · intro i j
    have hov : ∀ n ∈ out, ov H3 i j n = ov H i j n := by
      intro n hn
      obtain ⟨a, b, c⟩ := hout n hn
      unfold ov
      rw [(he n).2.1, hsn i j n (fun e => (g.z.zS n a).1 (e ▸ ht)) b c]
    refine ⟨?_, hov⟩
    have hs0 := hsum i j
    unfold tot cs
    rw [hs0, wsum_congr (f := fv H3 i j) (g := fv H i j) S true (fun n _ => by unfold fv; rw [(he n).2.1, (he n).2.2]), List.map_congr_left hov]
    unfold pdv; dsimp only; ring

end Verif.Proofs.PolyCol
