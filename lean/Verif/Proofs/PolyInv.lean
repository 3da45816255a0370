import Verif.Proofs.PolyWeb
import Mathlib.Algebra.BigOperators.Group.List.Basic
/-!
# Invariants of the open and closed chains of polygon formation
-/
namespace Verif.Proofs.PolyInv
open Verif.PolyForm Verif.Proofs.PolyPath Verif.Proofs.PolyLam Verif.Proofs.PolyWeb

/-! ### Sums over every second end -/

def wsum (f : Nat → Int) : Bool → List Nat → Int
  | _, [] => 0
  | e, a :: r => (if e then 0 else f a) + wsum f (!e) r

def flip (n : Nat) (e : Bool) : Bool := if n % 2 = 0 then e else !e

theorem flip_succ (n : Nat) (e : Bool) : flip (n + 1) e = flip n (!e) := by
  unfold flip
  by_cases h : n % 2 = 0
  · rw [if_pos h, if_neg (by omega)]
  · rw [if_neg h, if_pos (by omega)]; simp

theorem wsum_append (f : Nat → Int) : ∀ (A B : List Nat) (e : Bool), wsum f e (A ++ B) = wsum f e A + wsum f (flip A.length e) B
  | [], B, e => by simp [wsum, flip]
  | a :: A, B, e => by rw [List.cons_append, wsum, wsum, wsum_append f A B, List.length_cons, flip_succ]; ring

theorem wsum_congr {f g : Nat → Int} : ∀ (A : List Nat) (e : Bool), (∀ a ∈ A, f a = g a) → wsum f e A = wsum g e A
  | [], _, _ => rfl
  | a :: A, e, h => by rw [wsum, wsum, h a (by simp), wsum_congr A (!e) (fun b hb => h b (by simp [hb]))]

theorem wsum_update {f g : Nat → Int} {x : Nat} : ∀ (A : List Nat) (e : Bool), A.Nodup → x ∈ A → (∀ a ∈ A, a ≠ x → g a = f a) →
    wsum g e A = wsum f e A + (if flip (A.idxOf x) e then 0 else g x - f x)
  | [], _, _, h, _ => by simp at h
  | a :: A, e, hn, hx, h => by
    rw [List.nodup_cons] at hn
    by_cases ha : a = x
    · subst ha
      rw [wsum, wsum, List.idxOf_cons_self, wsum_congr (f := g) (g := f) A (!e) (fun b hb => h b (by simp [hb]) (fun e' => hn.1 (e' ▸ hb)))]
      unfold flip
      cases e <;> simp
      ring
    · have hx' : x ∈ A := by
        rcases List.mem_cons.1 hx with h' | h'
        · exact absurd h'.symm ha
        · exact h'
      rw [wsum, wsum, wsum_update A (!e) hn.2 hx' (fun b hb => h b (by simp [hb])), h a (by simp) ha, List.idxOf_cons_ne _ ha, flip_succ]
      ring

theorem sum_update {f g : Nat → Int} {x : Nat} : ∀ (A : List Nat), A.Nodup → x ∈ A → (∀ a ∈ A, a ≠ x → g a = f a) →
    (A.map g).sum = (A.map f).sum + (g x - f x)
  | [], _, h, _ => by simp at h
  | a :: A, hn, hx, h => by
    rw [List.nodup_cons] at hn
    by_cases ha : a = x
    · subst ha
      have : A.map g = A.map f := List.map_congr_left (fun b hb => h b (by simp [hb]) (fun e' => hn.1 (e' ▸ hb)))
      rw [List.map_cons, List.map_cons, List.sum_cons, List.sum_cons, this]; ring
    · have hx' : x ∈ A := by
        rcases List.mem_cons.1 hx with h' | h'
        · exact absurd h'.symm ha
        · exact h'
      rw [List.map_cons, List.map_cons, List.sum_cons, List.sum_cons, sum_update A hn.2 hx' (fun b hb => h b (by simp [hb])), h a (by simp) ha]
      ring

/-! ### Closed loops -/

/-- Signed count of a closed loop whose first coordinate is an x. -/
def W (i j : Int) (p : List Int) : Int := F i j false (p.getLastD 0 :: p)

/-- A closed loop: at least four coordinates, in pairs, no segment of length zero. -/
def LoopP (p : List Int) : Prop := p.length % 2 = 0 ∧ 4 ≤ p.length ∧ ND (p ++ p.take 2)

theorem W_lt {i j X : Int} (h : i < X) (r : List Int) : W i j (X :: r) = F i j true (X :: r) := by
  unfold W; rw [F_y_gt h, F_x]

theorem W_ge {i j : Int} {p : List Int} (hl : p.length % 2 = 0) (hx : Xle i true p) : W i j p = 0 := by
  unfold W
  rcases List.eq_nil_or_concat' p with rfl | ⟨q, a, rfl⟩
  · simp [F]
  · have e : (q ++ [a]).getLastD 0 = a := by simp
    rw [e, F_tele i j (a :: (q ++ [a])) a a (by simp only [List.length_cons]; omega) rfl (by rw [List.getLast?_cons]; simp) ⟨fun h => absurd h (by simp), hx⟩]
    ring

structure ZOk (X : Int) (H : Heap) (S Z : List Nat) : Prop where
  zS : ∀ z ∈ Z, z ∉ S ∧ oth H z ∉ S
  zf : ∀ z ∈ Z, z < H.fresh ∧ oth H z < H.fresh
  vt : ∀ z ∈ Z, vrt H z = true ∧ vrt H (oth H z) = false
  rev : ∀ z ∈ Z, pth H (oth H z) = (pth H z).reverse
  loop : ∀ z ∈ Z, LoopP (pth H z)
  rng : ∀ z ∈ Z, ∀ i j, W i j (pth H z) = 0 ∨ W i j (pth H z) = -1
  xle : ∀ z ∈ Z, Xle X true (pth H z)

/-- What the holes of a tail count. -/
def hs (H : Heap) (i j : Int) (t : Nat) : Int := ((H.tail t).holes.map (fun h => W i j (pth H h))).sum

/-- What the open chains count, with their holes. -/
def cs (H : Heap) (S : List Nat) (i j : Int) : Int := wsum (fv H i j) true S + (S.map (hs H i j)).sum

/-- What happens to the ends and the rest of the heap. -/
structure Op (X : Int) (H : Heap) (S : List Nat) (H' : Heap) (S' : List Nat) : Prop where
  frame : ∀ n, n ∉ S → n < H.fresh → H'.tail n = H.tail n
  fresh : H.fresh ≤ H'.fresh
  sub : ∀ n ∈ S', n ∈ S ∨ H.fresh ≤ n
  cs : ∀ i j, i < X → cs H' S' i j = cs H S i j

theorem Op.trans {X : Int} {H1 H2 H3 : Heap} {S1 S2 S3 : List Nat} (h : Op X H1 S1 H2 S2) (h' : Op X H2 S2 H3 S3) : Op X H1 S1 H3 S3 where
  frame := fun n hn hf => by
    rw [h'.frame n (fun h2 => ?_) (by have := h.fresh; omega), h.frame n hn hf]
    rcases h.sub n h2 with a | a
    · exact hn a
    · omega
  fresh := le_trans h.fresh h'.fresh
  sub := fun n hn => by
    rcases h'.sub n hn with a | a
    · exact h.sub n a
    · right; have := h.fresh; omega
  cs := fun i j hi => by rw [h'.cs i j hi, h.cs i j hi]

/-- The holes given to open ends lie apart from each other, inside the chains that span their gap and
outside the others. -/
structure Nest (H : Heap) (S : List Nat) (i j : Int) : Prop where
  sum : -1 ≤ (S.map (hs H i j)).sum
  rel : ∀ b ∈ S, ∀ h ∈ (H.tail b).holes, HR (ps S) (· ∈ S) (oth H) (fv H i j) (gp (ps S b)) (- W i j (pth H h))

/-- A gap before and after two neighbours behind `n` ends are taken out. -/
def Shf (n : Nat) (q q' : Int) : Prop := (q ≤ (n : Int) - 1 ∧ q' = q) ∨ ((n : Int) + 1 ≤ q ∧ q' = q - 2)

theorem shf_le {A B : List Nat} {t u a : Nat} {q q' : Int} (h1 : a ≠ t) (h2 : a ≠ u) (hq : Shf A.length q q') :
    ps (A ++ B) a ≤ q' ↔ ps (A ++ t :: u :: B) a ≤ q := by
  rw [ps_mid h1 h2, ps_append]
  unfold Shf at hq
  split_ifs with ha
  · have := mem_lt ha; omega
  · have : (0 : Int) ≤ B.idxOf a := by omega
    omega

theorem shf_gp {A B : List Nat} {t u b : Nat} (h1 : b ≠ t) (h2 : b ≠ u) (hb : b ∈ A ++ B) :
    Shf A.length (gp (ps (A ++ t :: u :: B) b)) (gp (ps (A ++ B) b)) := by
  rw [ps_mid h1 h2, ps_append]
  unfold Shf gp
  split_ifs with ha
  · have := mem_lt ha; omega
  · have : (0 : Int) ≤ B.idxOf b := by omega
    omega

/-- Taking out two neighbours. -/
theorem hr_out {A B : List Nat} {t u : Nat} {o : Nat → Nat} {F : Nat → Int} {q q' v : Int} (hn : (A ++ t :: u :: B).Nodup)
    (om : ∀ a, a ∈ A ++ B → o a ∈ A ++ B) (hq : Shf A.length q q')
    (h : HR (ps (A ++ t :: u :: B)) (fun a => a ∈ A ++ t :: u :: B ∧ a ≠ t ∧ a ≠ u) o F q v) : HR (ps (A ++ B)) (· ∈ A ++ B) o F q' v := by
  have hm := fun a => mem_mid (a := a) hn
  have h' : HR (ps (A ++ t :: u :: B)) (· ∈ A ++ B) o F q v := fun c hc => h c ((hm c).1 hc)
  exact hr_order om h' (fun a b ha hb => ps_order ((hm a).1 ha).2.1 ((hm a).1 ha).2.2 ((hm b).1 hb).2.1 ((hm b).1 hb).2.2)
    (fun a ha => shf_le ((hm a).1 ha).2.1 ((hm a).1 ha).2.2 hq)

/-- Putting in two neighbours that count nothing. -/
theorem hr_in {A B : List Nat} {t u : Nat} {o o' : Nat → Nat} {F F' : Nat → Int} {q q' v : Int} (hn : (A ++ t :: u :: B).Nodup)
    (om : ∀ a, a ∈ A ++ B → o a ∈ A ++ B) (hq : Shf A.length q q') (h : HR (ps (A ++ B)) (· ∈ A ++ B) o F q' v)
    (ho1 : o' t = u) (ho2 : o' u = t) (hF : F' u = 0) (ho : ∀ a ∈ A ++ B, o' a = o a) (hF' : ∀ a ∈ A ++ B, F' a = F a) :
    HR (ps (A ++ t :: u :: B)) (· ∈ A ++ t :: u :: B) o' F' q v := by
  have hm := fun a => mem_mid (a := a) hn
  have hadj := ps_adj hn
  have h1 : HR (ps (A ++ t :: u :: B)) (· ∈ A ++ B) o F q v := hr_order om h
    (fun a b ha hb => (ps_order ((hm a).1 ha).2.1 ((hm a).1 ha).2.2 ((hm b).1 hb).2.1 ((hm b).1 hb).2.2).symm)
    (fun a ha => (shf_le ((hm a).1 ha).2.1 ((hm a).1 ha).2.2 hq).symm)
  intro c hc hlow
  by_cases e1 : c = t
  · subst e1
    rw [ho1, hF, hadj.1, hadj.2]
    unfold Shf at hq
    exact ⟨fun hs => by unfold Sp at hs; omega, fun _ => Or.inr rfl⟩
  by_cases e2 : c = u
  · subst e2; rw [ho2] at hlow; omega
  have hc' := (hm c).2 ⟨hc, e1, e2⟩
  rw [ho c hc'] at hlow ⊢
  rw [hF' _ (om c hc')]
  exact h1 c hc' hlow

/-- The invariant: `S` the open ends along the scanline, `Z` the closed loops, `fr` that holes are cut
open (then no tail has holes). -/
structure G (fr : Bool) (X : Int) (H : Heap) (S Z : List Nat) : Prop where
  web : Web X H S
  par : ∀ t ∈ S, (ps S t + ps S (oth H t)) % 2 = 1
  z : ZOk X H S Z
  hol : ∀ t, ∀ h ∈ (H.tail t).holes, fr = false ∧ h ∈ Z
  nest : ∀ i j, i < X → Nest H S i j

theorem zok_op {X : Int} {H H' : Heap} {S S' Z : List Nat} (h : ZOk X H S Z) (o : Op X H S H' S') : ZOk X H' S' Z := by
  have e : ∀ z ∈ Z, H'.tail z = H.tail z := fun z hz => o.frame z (h.zS z hz).1 (h.zf z hz).1
  have e' : ∀ z ∈ Z, H'.tail (oth H z) = H.tail (oth H z) := fun z hz => o.frame _ (h.zS z hz).2 (h.zf z hz).2
  have eo : ∀ z ∈ Z, oth H' z = oth H z := fun z hz => by unfold oth; rw [e z hz]
  have ep : ∀ z ∈ Z, pth H' z = pth H z := fun z hz => by unfold pth; rw [e z hz]
  have ep' : ∀ z ∈ Z, pth H' (oth H z) = pth H (oth H z) := fun z hz => by unfold pth; rw [e' z hz]
  have ev : ∀ z ∈ Z, vrt H' z = vrt H z := fun z hz => by unfold vrt; rw [e z hz]
  have ev' : ∀ z ∈ Z, vrt H' (oth H z) = vrt H (oth H z) := fun z hz => by unfold vrt; rw [e' z hz]
  have hsub : ∀ n, n ∉ S → n < H.fresh → n ∉ S' := fun n h1 h2 h3 => by
    rcases o.sub n h3 with a | a
    · exact h1 a
    · omega
  have hf := o.fresh
  constructor
  · intro z hz; rw [eo z hz]
    exact ⟨hsub z (h.zS z hz).1 (h.zf z hz).1, hsub _ (h.zS z hz).2 (h.zf z hz).2⟩
  · intro z hz; rw [eo z hz]; have := h.zf z hz; omega
  · intro z hz; rw [eo z hz, ev z hz, ev' z hz]; exact h.vt z hz
  · intro z hz; rw [eo z hz, ep z hz, ep' z hz]; exact h.rev z hz
  · intro z hz; rw [ep z hz]; exact h.loop z hz
  · intro z hz; rw [ep z hz]; exact h.rng z hz
  · intro z hz; rw [ep z hz]; exact h.xle z hz

/-- The first two coordinates and the direction of an end. -/
def Near (H H' : Heap) (n : Nat) : Prop := vrt H' n = vrt H n ∧ (pth H' n).take 2 = (pth H n).take 2

theorem Near.trans {H1 H2 H3 : Heap} {n : Nat} (h : Near H1 H2 n) (h' : Near H2 H3 n) : Near H1 H3 n :=
  ⟨h'.1.trans h.1, h'.2.trans h.2⟩

theorem Near.rfl {H : Heap} {n : Nat} : Near H H n := ⟨Eq.refl _, Eq.refl _⟩

theorem take2_reverse_snoc (p : List Int) (c : Int) (h : 2 ≤ p.length) : (c :: p).reverse.take 2 = p.reverse.take 2 := by
  rw [List.reverse_cons, List.take_append_of_le_length (by rw [List.length_reverse]; exact h)]

theorem hs_congr {H H' : Heap} {i j : Int} {t : Nat} (hh : (H'.tail t).holes = (H.tail t).holes) (hp : ∀ h ∈ (H.tail t).holes, pth H' h = pth H h) :
    hs H' i j t = hs H i j t := by
  unfold hs; rw [hh]
  congr 1
  exact List.map_congr_left (fun h hm => by rw [hp h hm])

variable {fr : Bool} {X : Int} {H : Heap} {S Z : List Nat}

theorem G.oth_inS (g : G fr X H S Z) {n : Nat} (hn : n ∈ Z) {t : Nat} (ht : t ∈ S) : n ≠ t ∧ n ≠ oth H t := by
  refine ⟨fun e => (g.z.zS n hn).1 (e ▸ ht), fun e => (g.z.zS n hn).1 (e ▸ g.web.om t ht)⟩

/-- Changing one end. -/
theorem g_set (g : G fr X H S Z) {t : Nat} (ht : t ∈ S) {p : List Int} {v : Bool}
    (hF : ∀ i j, i < X → F i j v p = fv H i j t) (hlen : 2 ≤ p.length) (hnd : ND p) (hx : Xle X v p)
    (hpar : lastT p.length v = lastT (pth H t).length (vrt H t)) :
    G fr X (H.setPath t p v) S Z ∧ Op X H S (H.setPath t p v) S := by
  have hw := web_setPath g.web ht hF hlen hnd hx hpar
  have hone := g.web.one t ht
  have hho : ∀ n, ((H.setPath t p v).tail n).holes = (H.tail n).holes := setPath_holes H t p v
  have hfv : ∀ i j, i < X → ∀ n ∈ S, fv (H.setPath t p v) i j n = fv H i j n := by
    intro i j hi n hn
    by_cases e : n = t
    · subst e
      unfold fv; rw [(setPath_self H n p v).1, (setPath_self H n p v).2]; exact hF i j hi
    by_cases e' : n = oth H t
    · have n1 := (web_paired hw i j).neg t ht
      have n2 := (web_paired g.web i j).neg t ht
      rw [setPath_oth] at n1
      rw [e', n1, n2]
      congr 1
      unfold fv; rw [(setPath_self H t p v).1, (setPath_self H t p v).2]; exact hF i j hi
    · unfold fv pth vrt; rw [setPath_ne e e']
  have op : Op X H S (H.setPath t p v) S := by
    refine ⟨fun n hn _ => setPath_ne (n := n) (fun e : n = t => hn (e ▸ ht)) (fun e : n = oth H t => hn (e ▸ g.web.om t ht)) p v, le_refl _, fun n hn => Or.inl hn, fun i j hi => ?_⟩
    unfold cs
    rw [wsum_congr S true (hfv i j hi)]
    congr 2
    refine List.map_congr_left (fun n hn => hs_congr (hho n) (fun h hm => ?_))
    obtain ⟨_, hz⟩ := g.hol n h hm
    obtain ⟨a, b⟩ := g.oth_inS hz ht
    unfold pth; rw [setPath_ne a b]
  refine ⟨⟨hw, fun n hn => by rw [setPath_oth]; exact g.par n hn, zok_op g.z op, fun n h hm => g.hol n h (by rw [hho] at hm; exact hm), fun i j hi => ⟨?_, ?_⟩⟩, op⟩
  · have : S.map (hs (H.setPath t p v) i j) = S.map (hs H i j) := List.map_congr_left (fun n hn => hs_congr (hho n) (fun h hm => by
      obtain ⟨a, b⟩ := g.oth_inS (g.hol n h hm).2 ht
      unfold pth; rw [setPath_ne a b]))
    rw [this]; exact (g.nest i j hi).sum
  · intro b hb h hm
    rw [hho] at hm
    obtain ⟨a1, a2⟩ := g.oth_inS (g.hol b h hm).2 ht
    have hph : pth (H.setPath t p v) h = pth H h := by unfold pth; rw [setPath_ne a1 a2]
    rw [hph]
    exact hr_congr ((g.nest i j hi).rel b hb h hm) (fun _ ha => ha) (fun a _ => setPath_oth H t p v a) (fun a ha => hfv i j hi _ (g.web.om a ha))

theorem lastT_succ (n : Nat) (v : Bool) : lastT (n + 1) (!v) = lastT n v := by
  unfold lastT
  by_cases h : n % 2 = 0
  · rw [if_pos h, if_neg (by omega)]
  · rw [if_neg h, if_pos (by omega)]; simp

/-- A further coordinate. -/
theorem g_push (g : G fr X H S Z) {t : Nat} (ht : t ∈ S) {l b c : Int} {r : List Int} (hp : pth H t = l :: b :: r)
    (hX : if vrt H t then l = X else c = X) (hc : c ≠ b) :
    ∃ H', H.push t c = some H' ∧ G fr X H' S Z ∧ Op X H S H' S ∧ pth H' t = c :: l :: b :: r ∧ vrt H' t = !vrt H t ∧
      (∀ n ∈ S, n ≠ t → Near H H' n) ∧ (∀ n, oth H' n = oth H n) ∧ (∀ n, (H'.tail n).holes = (H.tail n).holes) ∧ H'.fresh = H.fresh := by
  have hlen := g.web.len t ht
  have hg := g_set g ht (p := c :: l :: b :: r) (v := !vrt H t) (fun i j hi => ?_) (by simp) ?_ ?_ ?_
  · refine ⟨H.setPath t (c :: l :: b :: r) (!vrt H t), ?_, hg.1, hg.2, (setPath_self H t _ _).1, (setPath_self H t _ _).2, ?_, setPath_oth H t _ _, setPath_holes H t _ _, rfl⟩
    · unfold Heap.push; unfold pth at hp; rw [hp]; dsimp only; rw [if_neg hc]; rfl
    · intro n hn hnt
      by_cases e : n = oth H t
      · subst e
        obtain ⟨a, b'⟩ := setPath_other (g.web.one t ht) (c :: l :: b :: r) (!vrt H t)
        refine ⟨b', ?_⟩
        rw [a, g.web.rev t ht, hp]
        exact take2_reverse_snoc _ _ (by simp)
      · unfold Near pth vrt; rw [setPath_ne hnt e]; exact ⟨rfl, rfl⟩
  · cases hv : vrt H t with
    | true =>
      rw [hv] at hX; simp only [if_true] at hX
      unfold fv; rw [hp, hv, hX, Bool.not_true, F_y_gt hi, F_x]
    | false =>
      rw [hv] at hX; simp only [Bool.false_eq_true, if_false] at hX
      unfold fv; rw [hp, hv, Bool.not_false, F_x]
  · refine ⟨hc, ?_⟩
    have := g.web.nd t ht
    rw [hp] at this; exact this
  · have := g.web.xle t ht
    rw [hp] at this
    refine ⟨fun e => ?_, ?_⟩
    · cases hv : vrt H t with
      | true => rw [hv] at e; simp at e
      | false => rw [hv] at hX; simp only [Bool.false_eq_true, if_false] at hX; omega
    · rw [Bool.not_not]; exact this
  · rw [hp, List.length_cons, lastT_succ]

/-- A coordinate that takes the last one back. -/
theorem g_pop (g : G fr X H S Z) {t : Nat} (ht : t ∈ S) {l b : Int} {r : List Int} (hp : pth H t = l :: X :: b :: r)
    (hv : vrt H t = false) :
    ∃ H', H.push t X = some H' ∧ G fr X H' S Z ∧ Op X H S H' S ∧ pth H' t = X :: b :: r ∧ vrt H' t = true ∧
      (∀ n ∈ S, n ≠ t → Near H H' n) ∧ (∀ n, oth H' n = oth H n) ∧ (∀ n, (H'.tail n).holes = (H.tail n).holes) ∧ H'.fresh = H.fresh := by
  have hg := g_set g ht (p := X :: b :: r) (v := true) (fun i j hi => ?_) (by simp) ?_ ?_ ?_
  · refine ⟨H.setPath t (X :: b :: r) true, ?_, hg.1, hg.2, (setPath_self H t _ _).1, (setPath_self H t _ _).2, ?_, setPath_oth H t _ _, setPath_holes H t _ _, rfl⟩
    · unfold Heap.push; unfold pth at hp; unfold vrt at hv; rw [hp]; dsimp only; rw [if_pos rfl, hv]; rfl
    · intro n hn hnt
      by_cases e : n = oth H t
      · subst e
        obtain ⟨a, b'⟩ := setPath_other (g.web.one t ht) (X :: b :: r) true
        refine ⟨b', ?_⟩
        rw [a, g.web.rev t ht, hp]
        exact (take2_reverse_snoc _ _ (by simp)).symm
      · unfold Near pth vrt; rw [setPath_ne hnt e]; exact ⟨rfl, rfl⟩
  · unfold fv; rw [hp, hv, F_x, F_y_gt hi]
  · have := g.web.nd t ht
    rw [hp] at this; exact ND_tail this
  · have := g.web.xle t ht
    rw [hp, hv] at this
    exact this.2
  · rw [hp, hv]
    have := lastT_succ (X :: b :: r).length true
    rw [Bool.not_true] at this
    rw [List.length_cons (a := l), this]

/-! ### Joining -/

theorem copyHoles_eq (H : Heap) (t u n : Nat) : oth (H.copyHoles t u) n = oth H n ∧ pth (H.copyHoles t u) n = pth H n ∧ vrt (H.copyHoles t u) n = vrt H n := by
  unfold oth pth vrt Heap.copyHoles; dsimp only; split_ifs <;> exact ⟨rfl, rfl, rfl⟩

theorem copyHoles_holes (H : Heap) (t u n : Nat) : ((H.copyHoles t u).tail n).holes =
    if n = t then (H.tail n).holes ++ (H.tail u).holes else if n = u then [] else (H.tail n).holes := by
  unfold Heap.copyHoles; dsimp only; split_ifs <;> rfl

theorem tail_ext {a b : Tail} (h1 : a.path = b.path) (h2 : a.vert = b.vert) (h3 : a.other = b.other) (h4 : a.holes = b.holes) : a = b := by
  cases a; cases b; simp_all

theorem copyHoles_ne {H : Heap} {t u n : Nat} (h1 : n ≠ t) (h2 : n ≠ u) : (H.copyHoles t u).tail n = H.tail n := by
  unfold Heap.copyHoles; dsimp only; rw [if_neg h1, if_neg h2]

theorem link_comm {H : Heap} {o1 o2 : Nat} (h : o1 ≠ o2) (p : List Int) : H.link o1 o2 p = H.link o2 o1 p.reverse := by
  unfold Heap.link
  congr 1
  funext n
  by_cases a : n = o1
  · have : n ≠ o2 := fun e => h (a ▸ e)
    rw [if_pos a, if_neg this, if_pos a, List.reverse_reverse]
  · rw [if_neg a]
    by_cases b : n = o2
    · rw [if_pos b, if_pos b]
    · rw [if_neg b, if_neg b, if_neg a]

theorem link_holes (H : Heap) (o1 o2 n : Nat) (p : List Int) : ((H.link o1 o2 p).tail n).holes = (H.tail n).holes := by
  unfold Heap.link; dsimp only; split_ifs <;> rfl

theorem ps_par {A B : List Nat} {t u a : Nat} (h1 : a ≠ t) (h2 : a ≠ u) : ps (A ++ t :: u :: B) a % 2 = ps (A ++ B) a % 2 := by
  rw [ps_mid h1 h2, ps_append]; split_ifs <;> omega

theorem flip_true (S : List Nat) (x : Nat) : flip (S.idxOf x) true = decide (ps S x % 2 = 0) := by
  unfold flip ps
  by_cases h : S.idxOf x % 2 = 0
  · rw [if_pos h]; symm; rw [decide_eq_true_eq]; omega
  · rw [if_neg h]; symm; rw [Bool.not_true, decide_eq_false_iff_not]; omega

/-- Joining two neighbouring ends of different chains; `x` receives the holes of both. -/
theorem g_link {A B : List Nat} {t u : Nat} (g : G fr X H (A ++ t :: u :: B) Z) (hne : oth H t ≠ u) (hj : Joint X H t u)
    {H' : Heap} {x : Nat} {ys : List Nat} (hx : x = oth H t ∨ x = oth H u)
    (he : ∀ n, oth H' n = oth (H.link (oth H t) (oth H u) (pth H (oth H t) ++ pth H u)) n ∧
      pth H' n = pth (H.link (oth H t) (oth H u) (pth H (oth H t) ++ pth H u)) n ∧ vrt H' n = vrt H n)
    (hf : H'.fresh = H.fresh)
    (hh : ∀ n, (H'.tail n).holes = if n = x then (H.tail n).holes ++ ys else if n = t ∨ n = u then [] else (H.tail n).holes)
    (hys : ys.Perm ((H.tail t).holes ++ (H.tail u).holes)) :
    G fr X H' (A ++ B) Z ∧ Op X H (A ++ t :: u :: B) H' (A ++ B) ∧ (∀ n ∈ A ++ B, Near H H' n) := by
  obtain ⟨hw0, hfv0⟩ := web_join g.web hne hj
  have hm := fun a => mem_mid (a := a) g.web.nodup
  have ht : t ∈ A ++ t :: u :: B := by simp
  have hu : u ∈ A ++ t :: u :: B := by simp
  have hot := g.web.om t ht
  have hou := g.web.om u hu
  have hadj := ps_adj g.web.nodup
  have htu : t ≠ u := by intro e; subst e; omega
  have hoe : oth H t ≠ oth H u := fun e => htu (by rw [← g.web.oo t ht, e, g.web.oo u hu])
  have hut : oth H u ≠ t := fun e => hne (by rw [← e, g.web.oo u hu])
  have e1 := g.web.one t ht
  have e2 := g.web.one u hu
  have L1 := link_one (H := H) (oth H t) (oth H u) (pth H (oth H t) ++ pth H u)
  have L2 := link_two (H := H) hoe.symm (pth H (oth H t) ++ pth H u)
  have L3 := fun n (h1 : n ≠ oth H t) (h2 : n ≠ oth H u) => link_ne (H := H) h1 h2 (pth H (oth H t) ++ pth H u)
  have mo1 : oth H t ∈ A ++ B := (hm _).2 ⟨hot, e1, hne⟩
  have mo2 : oth H u ∈ A ++ B := (hm _).2 ⟨hou, hut, e2⟩
  set K := H.link (oth H t) (oth H u) (pth H (oth H t) ++ pth H u) with hK
  have hKf : K.fresh = H.fresh := by rw [hK]; rfl
  have hKv : ∀ n, vrt K n = vrt H n := by
    intro n
    by_cases a : n = oth H t
    · rw [a]; unfold vrt; rw [L1]
    by_cases b : n = oth H u
    · rw [b]; unfold vrt; rw [L2]
    unfold vrt; rw [L3 n a b]
  have hw : Web X H' (A ++ B) := web_congr hw0 (fun n _ => (he n).1) (fun n _ => (he n).2.1) (fun n _ => by rw [(he n).2.2, hKv]) (by omega)
  have hfv : ∀ i j, i < X → ∀ n, fv H' i j n =
      if n = oth H t then fv H i j n + fv H i j u else if n = oth H u then fv H i j n + fv H i j t else fv H i j n := by
    intro i j hi n
    rw [← hfv0 i j hi n]; unfold fv; rw [(he n).2.1, (he n).2.2, hKv]
  have hO1 : oth H' (oth H t) = oth H u := by rw [(he _).1]; change (K.tail (oth H t)).other = _; rw [L1]
  have hO2 : oth H' (oth H u) = oth H t := by rw [(he _).1]; change (K.tail (oth H u)).other = _; rw [L2]
  have hO3 : ∀ n, n ≠ oth H t → n ≠ oth H u → oth H' n = oth H n := fun n a b => by rw [(he _).1]; unfold oth; rw [L3 n a b]
  have hP1 : pth H' (oth H t) = pth H (oth H t) ++ pth H u := by rw [(he _).2.1]; exact congrArg Tail.path L1
  have hP2 : pth H' (oth H u) = (pth H (oth H t) ++ pth H u).reverse := by rw [(he _).2.1]; exact congrArg Tail.path L2
  have hP3 : ∀ n, n ≠ oth H t → n ≠ oth H u → pth H' n = pth H n := fun n a b => by rw [(he _).2.1]; unfold pth; rw [L3 n a b]
  have hxm : x ∈ A ++ B := by rcases hx with h | h <;> rw [h] <;> assumption
  have hxS := ((hm x).1 hxm).1
  have hpar1 := g.par t ht
  have hpar2 := g.par u hu
  have hpz : ∀ h ∈ Z, pth H' h = pth H h := fun h hz => hP3 h (g.oth_inS hz ht).2 (g.oth_inS hz hu).2
  have hnd := nodup_mid g.web.nodup
  -- the holes
  have hs1 : ∀ i j, ((A ++ B).map (hs H' i j)).sum = ((A ++ t :: u :: B).map (hs H i j)).sum := by
    intro i j
    rw [sum_update (A ++ B) hnd hxm (f := hs H i j) (fun n hn hnx => by
      refine hs_congr ?_ (fun h hmm => hpz h (g.hol n h hmm).2)
      rw [hh n, if_neg hnx, if_neg (by have := (hm n).1 hn; tauto)])]
    have : hs H' i j x - hs H i j x = hs H i j t + hs H i j u := by
      have a1 : hs H' i j x = hs H i j x + (ys.map (fun h => W i j (pth H h))).sum := by
        unfold hs
        rw [hh x, if_pos rfl, List.map_append, List.sum_append]
        congr 1
        · congr 1
          exact List.map_congr_left (fun h hmm => by rw [hpz h (g.hol x h hmm).2])
        · congr 1
          refine List.map_congr_left (fun h hmm => ?_)
          have := hys.mem_iff.1 hmm
          rw [List.mem_append] at this
          rw [hpz h (by rcases this with a | a; exacts [(g.hol _ h a).2, (g.hol _ h a).2])]
      have a2 : (ys.map (fun h => W i j (pth H h))).sum = hs H i j t + hs H i j u := by
        rw [(hys.map _).sum_eq, List.map_append, List.sum_append]; rfl
      omega
    rw [this]
    simp only [List.map_append, List.map_cons, List.sum_append, List.sum_cons]; ring
  have op : Op X H (A ++ t :: u :: B) H' (A ++ B) := by
    refine ⟨fun n hn _ => ?_, by omega, fun n hn => Or.inl ((hm n).1 hn).1, fun i j hi => ?_⟩
    · have n1 : n ≠ oth H t := fun e => hn (e ▸ hot)
      have n2 : n ≠ oth H u := fun e => hn (e ▸ hou)
      have n3 : n ≠ t := fun e => hn (e ▸ ht)
      have n4 : n ≠ u := fun e => hn (e ▸ hu)
      have n5 : n ≠ x := fun e => hn (e ▸ hxS)
      refine tail_ext (hP3 n n1 n2) (he n).2.2 (hO3 n n1 n2) ?_
      rw [hh n, if_neg n5, if_neg (by tauto)]
    · have ws1 : wsum (fv H' i j) true (A ++ B) = wsum (fv H i j) true (A ++ t :: u :: B) := by
        -- change one end after the other
        let f1 : Nat → Int := fun n => if n = oth H t then fv H i j n + fv H i j u else fv H i j n
        have w1 : wsum (fv H' i j) true (A ++ B) = wsum f1 true (A ++ B) + (if flip ((A ++ B).idxOf (oth H u)) true then 0 else fv H' i j (oth H u) - f1 (oth H u)) :=
          wsum_update (A ++ B) true hnd mo2 (fun n _ hno => by
            rw [hfv i j hi n, if_neg hno])
        have w2 : wsum f1 true (A ++ B) = wsum (fv H i j) true (A ++ B) + (if flip ((A ++ B).idxOf (oth H t)) true then 0 else f1 (oth H t) - fv H i j (oth H t)) :=
          wsum_update (A ++ B) true hnd mo1 (fun n _ hno => if_neg hno)
        have q1 : fv H' i j (oth H u) - f1 (oth H u) = fv H i j t := by
          have : f1 (oth H u) = fv H i j (oth H u) := if_neg hoe.symm
          rw [hfv i j hi, if_neg hoe.symm, if_pos rfl, this]; ring
        have q2 : f1 (oth H t) - fv H i j (oth H t) = fv H i j u := by
          have : f1 (oth H t) = fv H i j (oth H t) + fv H i j u := if_pos rfl
          rw [this]; ring
        have b1 := ps_par (A := A) (B := B) (a := oth H t) e1 hne
        have b2 := ps_par (A := A) (B := B) (a := oth H u) hut e2
        rw [w1, w2, q1, q2, flip_true, flip_true, wsum_append, wsum_append, wsum, wsum]
        rcases Int.emod_two_eq_zero_or_one (A.length : Int) with hA | hA
        · have f0 : flip A.length true = true := by unfold flip; rw [if_pos (by omega)]
          have c1 : ¬ ps (A ++ B) (oth H t) % 2 = 0 := by omega
          have c2 : ps (A ++ B) (oth H u) % 2 = 0 := by omega
          simp only [f0, c1, c2, decide_true, decide_false]
          simp; ring
        · have f0 : flip A.length true = false := by unfold flip; rw [if_neg (by omega)]; rfl
          have c1 : ps (A ++ B) (oth H t) % 2 = 0 := by omega
          have c2 : ¬ ps (A ++ B) (oth H u) % 2 = 0 := by omega
          simp only [f0, c1, c2, decide_true, decide_false]
          simp; ring
      unfold cs; rw [hs1 i j, ws1]
  have near : ∀ n ∈ A ++ B, Near H H' n := by
    intro n hn
    refine ⟨(he n).2.2, ?_⟩
    by_cases a : n = oth H t
    · rw [a, hP1, List.take_append_of_le_length (g.web.len _ hot)]
    by_cases b : n = oth H u
    · rw [b, hP2, List.reverse_append, ← g.web.rev u hu, List.take_append_of_le_length (g.web.len _ hou)]
    rw [hP3 n a b]
  have hnest : ∀ i j, i < X → Nest H' (A ++ B) i j := by
    intro i j hi
    have key : ∀ h ∈ Z, ∀ q q' q'', HR (ps (A ++ t :: u :: B)) (· ∈ A ++ t :: u :: B) (oth H) (fv H i j) q (- W i j (pth H h)) →
        Mv (ps (A ++ t :: u :: B) t) (ps (A ++ t :: u :: B) (oth H t)) (ps (A ++ t :: u :: B) (oth H u)) q q' → Shf A.length q' q'' →
        HR (ps (A ++ B)) (· ∈ A ++ B) (oth H') (fv H' i j) q'' (- W i j (pth H' h)) := by
      intro h hz q q' q'' h1 h2 h3
      rw [hpz h hz]
      have rv := g.z.rng h hz i j
      refine hr_out g.web.nodup hw.om h3 ?_
      exact hr_join (web_paired g.web i j) (g.web.lam i j hi) ht hu (by omega) hne hO1 hO2 hO3
        (by rw [hfv i j hi, if_pos rfl]) (by rw [hfv i j hi, if_neg hoe.symm, if_pos rfl])
        (fun a h4 h5 => by rw [hfv i j hi, if_neg h4, if_neg h5]) hpar1 hpar2 (by omega) h2 h1
    refine ⟨by rw [hs1 i j]; exact (g.nest i j hi).sum, fun b hb h hmm => ?_⟩
    have hb' := (hm b).1 hb
    have hsh := shf_gp hb'.2.1 hb'.2.2 hb
    have hbp : gp (ps (A ++ t :: u :: B) b) ≠ ps (A ++ t :: u :: B) t := by
      have q1 : ps (A ++ t :: u :: B) b ≠ ps (A ++ t :: u :: B) t := fun e => hb'.2.1 (ps_inj hb'.1 e)
      have q2 : ps (A ++ t :: u :: B) b ≠ ps (A ++ t :: u :: B) u := fun e => hb'.2.2 (ps_inj hb'.1 e)
      unfold gp; omega
    have stay : h ∈ (H.tail b).holes → HR (ps (A ++ B)) (· ∈ A ++ B) (oth H') (fv H' i j) (gp (ps (A ++ B) b)) (- W i j (pth H' h)) := fun h0 =>
      key h (g.hol b h h0).2 _ _ _ ((g.nest i j hi).rel b hb'.1 h h0) (Or.inl ⟨rfl, hbp⟩) hsh
    rw [hh b] at hmm
    split_ifs at hmm with hbx hbt
    · rcases List.mem_append.1 hmm with h0 | h0
      · exact stay h0
      · have hx' : gp (ps (A ++ t :: u :: B) b) = gp (ps (A ++ t :: u :: B) (oth H t)) ∨ gp (ps (A ++ t :: u :: B) b) = gp (ps (A ++ t :: u :: B) (oth H u)) := by
          rcases hx with e | e
          · left; rw [hbx, e]
          · right; rw [hbx, e]
        have h1 := hys.mem_iff.1 h0
        rcases List.mem_append.1 h1 with h1 | h1
        · refine key h (g.hol t h h1).2 _ _ _ ((g.nest i j hi).rel t ht h h1) (Or.inr ⟨?_, hx'⟩) hsh
          unfold gp; omega
        · refine key h (g.hol u h h1).2 _ _ _ ((g.nest i j hi).rel u hu h h1) (Or.inr ⟨?_, hx'⟩) hsh
          unfold gp; omega
    · simp at hmm
    · exact stay hmm
  refine ⟨⟨hw, fun n hn => ?_, zok_op g.z op, fun n h hmm => ?_, hnest⟩, op, near⟩
  · have hn' := (hm n).1 hn
    by_cases a : n = oth H t
    · rw [a, hO1, Int.add_emod, ← ps_par (t := t) (u := u) e1 hne, ← ps_par (t := t) (u := u) hut e2]; omega
    by_cases b : n = oth H u
    · rw [b, hO2, Int.add_emod, ← ps_par (t := t) (u := u) e1 hne, ← ps_par (t := t) (u := u) hut e2]; omega
    rw [hO3 n a b, Int.add_emod]
    have hon : oth H n ≠ t ∧ oth H n ≠ u := ⟨fun e => a (by rw [← e, g.web.oo n hn'.1]), fun e => b (by rw [← e, g.web.oo n hn'.1])⟩
    have := g.par n hn'.1
    rw [← ps_par (t := t) (u := u) hn'.2.1 hn'.2.2, ← ps_par (t := t) (u := u) hon.1 hon.2]; omega
  · rw [hh n] at hmm
    split_ifs at hmm
    · rw [List.mem_append] at hmm
      rcases hmm with a | a
      · exact g.hol n h a
      · have := hys.mem_iff.1 a
        rw [List.mem_append] at this
        rcases this with a | a; exacts [g.hol _ h a, g.hol _ h a]
    · simp at hmm
    · exact g.hol n h hmm

/-- `joinChains` on two neighbours, the lower one first. -/
theorem g_join {A B : List Nat} {t u : Nat} (g : G fr X H (A ++ t :: u :: B) Z) (hne : oth H t ≠ u) (hj : Joint X H t u) (solid : Bool) :
    ∃ H', H.joinChains t u solid = (H', [], none) ∧ G fr X H' (A ++ B) Z ∧ Op X H (A ++ t :: u :: B) H' (A ++ B) ∧
      (∀ n ∈ A ++ B, Near H H' n) ∧ H'.fresh = H.fresh := by
  have ht : t ∈ A ++ t :: u :: B := by simp
  have hu : u ∈ A ++ t :: u :: B := by simp
  have hadj := ps_adj g.web.nodup
  have htu : t ≠ u := by intro e; subst e; omega
  have e1 := g.web.one t ht
  set K := H.link (oth H t) (oth H u) (pth H (oth H t) ++ pth H u) with hK
  refine ⟨(K.copyHoles (oth H t) t).copyHoles (oth H t) u, ?_, ?_⟩
  · unfold Heap.joinChains; unfold oth at hne; rw [if_neg hne]; rfl
  have hKv : ∀ n, vrt K n = vrt H n := by intro n; unfold vrt; rw [hK]; unfold Heap.link; dsimp only; split_ifs <;> rfl
  have := g_link g hne hj (H' := (K.copyHoles (oth H t) t).copyHoles (oth H t) u) (x := oth H t) (ys := (H.tail t).holes ++ (H.tail u).holes) (Or.inl rfl)
    (fun n => by
      obtain ⟨a, b, c⟩ := copyHoles_eq (K.copyHoles (oth H t) t) (oth H t) u n
      obtain ⟨a', b', c'⟩ := copyHoles_eq K (oth H t) t n
      exact ⟨a.trans a', b.trans b', (c.trans c').trans (hKv n)⟩) rfl
    (fun n => by
      rw [copyHoles_holes, copyHoles_holes, copyHoles_holes, hK, link_holes, link_holes, link_holes]
      have hu0 : u ≠ oth H t := fun e => hne e.symm
      rw [if_neg hu0, if_neg htu.symm]
      by_cases a : n = oth H t
      · rw [if_pos a, if_pos a, if_pos a, List.append_assoc]
      · rw [if_neg a, if_neg a, if_neg a]
        by_cases b : n = u
        · rw [if_pos b, if_pos (Or.inr b)]
        · rw [if_neg b]
          by_cases c : n = t
          · rw [if_pos c, if_pos (Or.inl c)]
          · rw [if_neg c, if_neg (by tauto)]) (List.Perm.refl _)
  exact ⟨this.1, this.2.1, this.2.2, rfl⟩

/-- `joinChains` on two neighbours, the upper one first. -/
theorem g_join' {A B : List Nat} {t u : Nat} (g : G fr X H (A ++ t :: u :: B) Z) (hne : oth H t ≠ u) (hj : Joint X H t u) (solid : Bool) :
    ∃ H', H.joinChains u t solid = (H', [], none) ∧ G fr X H' (A ++ B) Z ∧ Op X H (A ++ t :: u :: B) H' (A ++ B) ∧
      (∀ n ∈ A ++ B, Near H H' n) ∧ H'.fresh = H.fresh := by
  have ht : t ∈ A ++ t :: u :: B := by simp
  have hu : u ∈ A ++ t :: u :: B := by simp
  have hadj := ps_adj g.web.nodup
  have htu : t ≠ u := by intro e; subst e; omega
  have hut : oth H u ≠ t := fun e => hne (by rw [← e, g.web.oo u hu])
  have hoe : oth H t ≠ oth H u := fun e => htu (by rw [← g.web.oo t ht, e, g.web.oo u hu])
  have hK : H.link (oth H u) (oth H t) (pth H (oth H u) ++ pth H t) = H.link (oth H t) (oth H u) (pth H (oth H t) ++ pth H u) := by
    rw [link_comm hoe.symm, List.reverse_append, ← g.web.rev t ht, g.web.rev u hu, List.reverse_reverse]
  refine ⟨((H.link (oth H t) (oth H u) (pth H (oth H t) ++ pth H u)).copyHoles (oth H u) u).copyHoles (oth H u) t, ?_, ?_⟩
  · unfold Heap.joinChains
    have : (H.tail u).other ≠ t := hut
    rw [if_neg this]
    dsimp only
    change (((H.link (oth H u) (oth H t) (pth H (oth H u) ++ pth H t)).copyHoles (oth H u) u).copyHoles (oth H u) t, [], none) = _
    rw [hK]
  set K := H.link (oth H t) (oth H u) (pth H (oth H t) ++ pth H u) with hKd
  have hKv : ∀ n, vrt K n = vrt H n := by intro n; unfold vrt; rw [hKd]; unfold Heap.link; dsimp only; split_ifs <;> rfl
  have := g_link g hne hj (H' := (K.copyHoles (oth H u) u).copyHoles (oth H u) t) (x := oth H u) (ys := (H.tail u).holes ++ (H.tail t).holes) (Or.inr rfl)
    (fun n => by
      obtain ⟨a, b, c⟩ := copyHoles_eq (K.copyHoles (oth H u) u) (oth H u) t n
      obtain ⟨a', b', c'⟩ := copyHoles_eq K (oth H u) u n
      exact ⟨a.trans a', b.trans b', (c.trans c').trans (hKv n)⟩) rfl
    (fun n => by
      rw [copyHoles_holes, copyHoles_holes, copyHoles_holes, hKd, link_holes, link_holes, link_holes]
      have hu0 : t ≠ oth H u := fun e => hut e.symm
      rw [if_neg hu0, if_neg htu]
      by_cases a : n = oth H u
      · rw [if_pos a, if_pos a, if_pos a, List.append_assoc]
      · rw [if_neg a, if_neg a, if_neg a]
        by_cases b : n = t
        · rw [if_pos b, if_pos (Or.inl b)]
        · rw [if_neg b]
          by_cases c : n = u
          · rw [if_pos c, if_pos (Or.inr c)]
          · rw [if_neg c, if_neg (by tauto)]) List.perm_append_comm
  exact ⟨this.1, this.2.1, this.2.2, rfl⟩

theorem hr_new {y i j : Int} {A B : List Nat} (g : G fr X H (A ++ B) Z) {q q' v : Int} (hq : Shf A.length q q')
    (h : HR (ps (A ++ B)) (· ∈ A ++ B) (oth H) (fv H i j) q' v) :
    HR (ps (A ++ (H.fresh + 1) :: H.fresh :: B)) (· ∈ A ++ (H.fresh + 1) :: H.fresh :: B) (oth (H.newPair X y).1) (fv (H.newPair X y).1 i j) q v := by
  have t1 : (H.newPair X y).1.tail H.fresh = ⟨[X, y], true, H.fresh + 1, []⟩ := by simp [Heap.newPair]
  have t2 : (H.newPair X y).1.tail (H.fresh + 1) = ⟨[y, X], false, H.fresh, []⟩ := by simp [Heap.newPair]
  have t4 : ∀ n, n < H.fresh → (H.newPair X y).1.tail n = H.tail n := fun n hn => by
    simp only [Heap.newPair]; rw [if_neg (by omega), if_neg (by omega)]
  refine hr_in (web_new (y := y) g.web).nodup g.web.om hq h ?_ ?_ ?_ ?_ ?_
  · unfold oth; rw [t2]
  · unfold oth; rw [t1]
  · unfold fv pth vrt; rw [t1, F_two]
  · intro a ha; unfold oth; rw [t4 a (g.web.fresh a ha)]
  · intro a ha; unfold fv pth vrt; rw [t4 a (g.web.fresh a ha)]

theorem hs_new {y i j : Int} {A B : List Nat} (g : G fr X H (A ++ B) Z) :
    ((A ++ (H.fresh + 1) :: H.fresh :: B).map (hs (H.newPair X y).1 i j)).sum = ((A ++ B).map (hs H i j)).sum := by
  have t1 : (H.newPair X y).1.tail H.fresh = ⟨[X, y], true, H.fresh + 1, []⟩ := by simp [Heap.newPair]
  have t2 : (H.newPair X y).1.tail (H.fresh + 1) = ⟨[y, X], false, H.fresh, []⟩ := by simp [Heap.newPair]
  have t4 : ∀ n, n < H.fresh → (H.newPair X y).1.tail n = H.tail n := fun n hn => by
    simp only [Heap.newPair]; rw [if_neg (by omega), if_neg (by omega)]
  have h1 : ∀ n ∈ A ++ B, hs (H.newPair X y).1 i j n = hs H i j n := fun n hn =>
    hs_congr (by rw [t4 n (g.web.fresh n hn)]) (fun h hm => by unfold pth; rw [t4 h (g.z.zf h (g.hol n h hm).2).1])
  have h2 : hs (H.newPair X y).1 i j (H.fresh + 1) = 0 := by unfold hs; rw [t2]; rfl
  have h3 : hs (H.newPair X y).1 i j H.fresh = 0 := by unfold hs; rw [t1]; rfl
  rw [List.map_append, List.map_cons, List.map_cons, h2, h3, List.map_congr_left (l := A) (fun n hn => h1 n (by simp [hn])),
    List.map_congr_left (l := B) (fun n hn => h1 n (by simp [hn])), List.sum_append, List.sum_cons, List.sum_cons, List.map_append, List.sum_append]
  omega

/-- A new pair of ends. -/
theorem g_new {y : Int} {A B : List Nat} (g : G fr X H (A ++ B) Z) :
    G fr X (H.newPair X y).1 (A ++ (H.fresh + 1) :: H.fresh :: B) Z ∧
    Op X H (A ++ B) (H.newPair X y).1 (A ++ (H.fresh + 1) :: H.fresh :: B) ∧ (∀ n ∈ A ++ B, Near H (H.newPair X y).1 n) ∧
    (H.newPair X y).1.tail H.fresh = ⟨[X, y], true, H.fresh + 1, []⟩ ∧
    (H.newPair X y).1.tail (H.fresh + 1) = ⟨[y, X], false, H.fresh, []⟩ ∧
    (∀ n, n ≠ H.fresh → n ≠ H.fresh + 1 → (H.newPair X y).1.tail n = H.tail n) := by
  have hw := web_new (y := y) g.web
  have t1 : (H.newPair X y).1.tail H.fresh = ⟨[X, y], true, H.fresh + 1, []⟩ := by simp [Heap.newPair]
  have t2 : (H.newPair X y).1.tail (H.fresh + 1) = ⟨[y, X], false, H.fresh, []⟩ := by simp [Heap.newPair]
  have t3 : ∀ n, n ≠ H.fresh → n ≠ H.fresh + 1 → (H.newPair X y).1.tail n = H.tail n := by
    intro n h1 h2; simp only [Heap.newPair]; rw [if_neg h1, if_neg h2]
  have t4 : ∀ n, n < H.fresh → (H.newPair X y).1.tail n = H.tail n := fun n hn => t3 n (by omega) (by omega)
  have hff : (H.newPair X y).1.fresh = H.fresh + 2 := rfl
  have split : ∀ n, n ∈ A ++ (H.fresh + 1) :: H.fresh :: B ↔ n ∈ A ++ B ∨ n = H.fresh + 1 ∨ n = H.fresh := by
    intro n; simp only [List.mem_append, List.mem_cons]; tauto
  have op : Op X H (A ++ B) (H.newPair X y).1 (A ++ (H.fresh + 1) :: H.fresh :: B) := by
    refine ⟨fun n _ hf => t4 n hf, by omega, fun n hn => ?_, fun i j _ => ?_⟩
    · rcases (split n).1 hn with a | a | a
      · exact Or.inl a
      · right; omega
      · right; omega
    · have f1 : ∀ n ∈ A ++ B, fv (H.newPair X y).1 i j n = fv H i j n := fun n hn => by
        unfold fv pth vrt; rw [t4 n (g.web.fresh n hn)]
      have f2 : fv (H.newPair X y).1 i j (H.fresh + 1) = 0 := by unfold fv pth vrt; rw [t2, F_two]
      have f3 : fv (H.newPair X y).1 i j H.fresh = 0 := by unfold fv pth vrt; rw [t1, F_two]
      have h1 : ∀ n ∈ A ++ B, hs (H.newPair X y).1 i j n = hs H i j n := fun n hn =>
        hs_congr (by rw [t4 n (g.web.fresh n hn)]) (fun h hm => by unfold pth; rw [t4 h (g.z.zf h (g.hol n h hm).2).1])
      have h2 : hs (H.newPair X y).1 i j (H.fresh + 1) = 0 := by unfold hs; rw [t2]; rfl
      have h3 : hs (H.newPair X y).1 i j H.fresh = 0 := by unfold hs; rw [t1]; rfl
      unfold cs
      rw [wsum_append, wsum_append, wsum, wsum, f2, f3, List.map_append, List.map_append, List.map_cons, List.map_cons, h2, h3,
        wsum_congr A true (fun n hn => f1 n (by simp [hn])), wsum_congr B _ (fun n hn => f1 n (by simp [hn])),
        List.map_congr_left (l := A) (fun n hn => h1 n (by simp [hn])), List.map_congr_left (l := B) (fun n hn => h1 n (by simp [hn]))]
      simp
  have hadj := ps_adj hw.nodup
  have hnest : ∀ i j, i < X → Nest (H.newPair X y).1 (A ++ (H.fresh + 1) :: H.fresh :: B) i j := by
    intro i j hi
    have hN := g.nest i j hi
    constructor
    · rw [hs_new g]; exact hN.sum
    · intro b hb h hmm
      rcases (split b).1 hb with a | a | a
      · have hb1 := g.web.fresh b a
        rw [t4 b hb1] at hmm
        have hz := (g.hol b h hmm).2
        have e : pth (H.newPair X y).1 h = pth H h := by unfold pth; rw [t4 h (g.z.zf h hz).1]
        rw [e]
        exact hr_new g (shf_gp (by omega) (by omega) a) (hN.rel b a h hmm)
      · rw [a, t2] at hmm; simp at hmm
      · rw [a, t1] at hmm; simp at hmm
  refine ⟨⟨hw, fun n hn => ?_, zok_op g.z op, fun n h hm => ?_, hnest⟩, op, fun n hn => ?_, t1, t2, t3⟩
  · have o1 : oth (H.newPair X y).1 H.fresh = H.fresh + 1 := by unfold oth; rw [t1]
    have o2 : oth (H.newPair X y).1 (H.fresh + 1) = H.fresh := by unfold oth; rw [t2]
    rcases (split n).1 hn with a | a | a
    · have o3 : oth (H.newPair X y).1 n = oth H n := by unfold oth; rw [t4 n (g.web.fresh n a)]
      have l1 := g.web.fresh n a
      have l2 := g.web.fresh _ (g.web.om n a)
      have := g.par n a
      rw [o3, Int.add_emod, ps_par (by omega) (by omega), ps_par (by omega) (by omega)]; omega
    · rw [a, o2]; omega
    · rw [a, o1]; omega
  · by_cases a : n = H.fresh
    · rw [a, t1] at hm; simp at hm
    by_cases b : n = H.fresh + 1
    · rw [b, t2] at hm; simp at hm
    rw [t3 n a b] at hm; exact g.hol n h hm
  · unfold Near pth vrt; rw [t4 n (g.web.fresh n hn)]; exact ⟨rfl, rfl⟩

/-! ### Closing -/

theorem hs_le (g : G fr X H S Z) (i j : Int) (t : Nat) : hs H i j t ≤ 0 := by
  unfold hs
  have : ∀ L : List Nat, (∀ h ∈ L, h ∈ Z) → (L.map (fun h => W i j (pth H h))).sum ≤ 0 := by
    intro L
    induction L with
    | nil => intro _; simp
    | cons a L ih =>
      intro h
      have h1 := g.z.rng a (h a (by simp)) i j
      have h2 := ih (fun b hb => h b (by simp [hb]))
      rw [List.map_cons, List.sum_cons]; omega
  exact this _ (fun h hh => (g.hol t h hh).2)

/-- A hole that counts. -/
theorem hs_neg (g : G fr X H S Z) {i j : Int} {t : Nat} (h : hs H i j t < 0) : ∃ k ∈ (H.tail t).holes, W i j (pth H k) = -1 := by
  by_contra hc
  push Not at hc
  have : hs H i j t = 0 := by
    unfold hs
    refine List.sum_eq_zero (fun x hx => ?_)
    obtain ⟨k, hk, rfl⟩ := List.mem_map.1 hx
    have := g.z.rng k (g.hol t k hk).2 i j
    have := hc k hk
    omega
  omega

theorem hr_close {A B : List Nat} {t u : Nat} (g : G fr X H (A ++ t :: u :: B) Z) (hc : oth H t = u) {i j q q' v : Int} (hq : Shf A.length q q')
    (h : HR (ps (A ++ t :: u :: B)) (· ∈ A ++ t :: u :: B) (oth H) (fv H i j) q v) : HR (ps (A ++ B)) (· ∈ A ++ B) (oth H) (fv H i j) q' v :=
  hr_out g.web.nodup (web_close g.web hc).om hq (fun c hc' => h c hc'.1)

/-- A chain whose ends meet becomes a closed loop. -/
theorem g_close {A B : List Nat} {t u : Nat} (g : G fr X H (A ++ t :: u :: B) Z) (hc : oth H t = u) (hj : Joint X H t u)
    (hv : vrt H t = true) : G fr X H (A ++ B) (t :: Z) ∧
    (∀ i j, i < X → W i j (pth H t) = fv H i j t ∧ fv H i j u = - fv H i j t) := by
  have ht : t ∈ A ++ t :: u :: B := by simp
  have hu : u ∈ A ++ t :: u :: B := by simp
  have hm := fun a => mem_mid (a := a) g.web.nodup
  have hadj := ps_adj g.web.nodup
  have hou : oth H u = t := by rw [← hc]; exact g.web.oo t ht
  have hvt := g.web.vt t ht
  have hvu : vrt H u = false := by rw [hj.ori, hv]; rfl
  rw [hc, hv, hvu] at hvt
  have hev : (pth H t).length % 2 = 0 := by
    unfold lastT at hvt
    by_contra h
    rw [if_neg h] at hvt; simp at hvt
  have hrev := g.web.rev t ht
  rw [hc] at hrev
  have hx := hj.x
  rw [hv] at hx; simp only [if_true] at hx
  have hlen := g.web.len t ht
  obtain ⟨b, r, hpr⟩ : ∃ b r, pth H t = X :: b :: r := by
    match hh : pth H t with
    | [] => rw [hh] at hlen; simp at hlen
    | [_] => rw [hh] at hlen; simp at hlen
    | a :: b :: r => rw [hh] at hx; simp at hx; exact ⟨b, r, by rw [hx]⟩
  have hlu := g.web.len u hu
  obtain ⟨y, x', q, hq⟩ : ∃ y x' q, pth H u = y :: x' :: q := by
    match hh : pth H u with
    | [] => rw [hh] at hlu; simp at hlu
    | [_] => rw [hh] at hlu; simp at hlu
    | a :: b :: r => exact ⟨a, b, r, rfl⟩
  have n1 : b ≠ y := hj.nd1 b y (by rw [hpr]; rfl) (by rw [hq]; rfl)
  have n2 : X ≠ x' := hj.nd2 X x' (by rw [hpr]; rfl) (by rw [hq]; rfl)
  have hpt : pth H t = q.reverse ++ [x', y] := by
    have : (pth H t).reverse.reverse = (y :: x' :: q).reverse := by rw [← hrev, hq]
    rw [List.reverse_reverse] at this; rw [this]; simp
  have hloop : LoopP (pth H t) := by
    refine ⟨hev, ?_, ?_⟩
    · have : r ≠ [] := by
        intro e; subst e
        rw [hpr] at hpt
        have : (q.reverse ++ [x', y]).length = 2 := by rw [← hpt]; rfl
        have hq0 : q = [] := by
          rw [List.length_append, List.length_reverse] at this; simp at this; exact this
        subst hq0; simp at hpt; exact n2 hpt.1
      have : 3 ≤ (pth H t).length := by
        rw [hpr]; cases r with
        | nil => exact absurd rfl this
        | cons _ _ => simp
      omega
    · have nd := g.web.nd t ht
      have e : (pth H t).take 2 = [X, b] := by rw [hpr]; rfl
      rw [e]
      rw [hpt] at nd ⊢
      exact ND_append x' y X b [] n2.symm n1.symm trivial _ nd
  have hxle := g.web.xle t ht
  rw [hv] at hxle
  have hW : ∀ i j, i < X → W i j (pth H t) = fv H i j t := fun i j hi => by unfold fv; rw [hv, hpr, W_lt hi]
  have hrng : ∀ i j, W i j (pth H t) = 0 ∨ W i j (pth H t) = -1 := by
    intro i j
    by_cases hi : i < X
    · have := (g.web.lam i j hi).rng t ht (by rw [hc]; omega)
      have n := (web_paired g.web i j).neg t ht
      rw [hc] at this n
      rw [hW i j hi]; omega
    · left; exact W_ge hev (Xle_mono (by omega) _ _ hxle)
  have hnest : ∀ i j, i < X → Nest H (A ++ B) i j := by
    intro i j hi
    have hN := g.nest i j hi
    constructor
    · have h1 := hN.sum
      have h2 := hs_le g i j t
      have h3 := hs_le g i j u
      simp only [List.map_append, List.map_cons, List.sum_append, List.sum_cons] at h1 ⊢
      omega
    · intro b hb h hmm
      have hb' := (hm b).1 hb
      exact hr_close g hc (shf_gp hb'.2.1 hb'.2.2 hb) (hN.rel b hb'.1 h hmm)
  refine ⟨⟨web_close g.web hc, fun n hn => ?_, ?_, fun n h hmm => ⟨(g.hol n h hmm).1, List.mem_cons_of_mem _ (g.hol n h hmm).2⟩, hnest⟩, fun i j hi => ⟨hW i j hi, ?_⟩⟩
  · have hn' := (hm n).1 hn
    have hon : oth H n ≠ t ∧ oth H n ≠ u := ⟨fun e => hn'.2.2 (by rw [← g.web.oo n hn'.1, e, hc]), fun e => hn'.2.1 (by rw [← g.web.oo n hn'.1, e, hou])⟩
    have := g.par n hn'.1
    rw [Int.add_emod, ← ps_par (t := t) (u := u) hn'.2.1 hn'.2.2, ← ps_par (t := t) (u := u) hon.1 hon.2]; omega
  · have hns : ∀ n, n ∉ A ++ t :: u :: B → n ∉ A ++ B := fun n h h' => h ((hm n).1 h').1
    have ht' : t ∉ A ++ B := fun h => ((hm t).1 h).2.1 rfl
    have hu' : u ∉ A ++ B := fun h => ((hm u).1 h).2.2 rfl
    constructor
    · intro z hz
      rcases List.mem_cons.1 hz with rfl | hz
      · rw [hc]; exact ⟨ht', hu'⟩
      · exact ⟨hns _ (g.z.zS z hz).1, hns _ (g.z.zS z hz).2⟩
    · intro z hz
      rcases List.mem_cons.1 hz with rfl | hz
      · rw [hc]; exact ⟨g.web.fresh _ ht, g.web.fresh _ hu⟩
      · exact g.z.zf z hz
    · intro z hz
      rcases List.mem_cons.1 hz with rfl | hz
      · rw [hc]; exact ⟨hv, hvu⟩
      · exact g.z.vt z hz
    · intro z hz
      rcases List.mem_cons.1 hz with rfl | hz
      · exact g.web.rev _ ht
      · exact g.z.rev z hz
    · intro z hz
      rcases List.mem_cons.1 hz with rfl | hz
      · exact hloop
      · exact g.z.loop z hz
    · intro z hz
      rcases List.mem_cons.1 hz with rfl | hz
      · exact hrng
      · exact g.z.rng z hz
    · intro z hz
      rcases List.mem_cons.1 hz with rfl | hz
      · exact hxle
      · exact g.z.xle z hz
  · have n := (web_paired g.web i j).neg t ht
    rw [hc] at n; exact n

end Verif.Proofs.PolyInv
