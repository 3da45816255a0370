import Verif.Proofs.PolyCol
/-!
# How often the chains of polygon formation run along a piece of the grid

`Wt` weighs the complete segments of a path (`e`) and the open one at its end (`r`). The two
instances `hW` and `vW` count the segments along one horizontal or vertical unit of the grid.
-/
namespace Verif.Proofs.PolyGross
open Verif.PolyForm Verif.Proofs.PolyPath Verif.Proofs.PolyLam Verif.Proofs.PolyWeb Verif.Proofs.PolyInv Verif.Proofs.PolyCol Verif.Interval

structure Wt where
  e : Bool → Int → Int → Int → Int
  r : Bool → Int → Int → Int
  sym : ∀ v a b c, e v a b c = e v c b a

def K (w : Wt) : Bool → List Int → Int
  | v, a :: b :: c :: r => w.e v a b c + K w (!v) (b :: c :: r)
  | _, _ => 0

def R (w : Wt) : Bool → List Int → Int
  | v, a :: b :: _ => w.r v a b
  | _, _ => 0

/-- A closed loop whose first coordinate is an x. -/
def Lp (w : Wt) (p : List Int) : Int := K w true (p ++ p.take 2)

variable {w : Wt}

theorem K_one (v : Bool) (a : Int) : K w v [a] = 0 := by simp [K]
theorem K_two (v : Bool) (a b : Int) : K w v [a, b] = 0 := by simp [K]

theorem R_take (v : Bool) (p : List Int) : R w v p = R w v (p.take 2) := by
  match p with
  | [] => rfl
  | [_] => rfl
  | _ :: _ :: _ => rfl

def par (n : Nat) (v : Bool) : Bool := if n % 2 = 0 then v else !v

theorem par_succ (n : Nat) (v : Bool) : par (n + 1) v = par n (!v) := by
  unfold par
  by_cases h : n % 2 = 0
  · rw [if_pos h, if_neg (by omega)]
  · rw [if_neg h, if_pos (by omega)]; simp

theorem K_append (b a c d : Int) (q : List Int) : ∀ (p : List Int) (v : Bool),
    K w v (p ++ [b, a] ++ c :: d :: q) = K w v (p ++ [b, a]) + w.e (par p.length v) b a c + w.e (!par p.length v) a c d + K w (par p.length v) (c :: d :: q)
  | [], v => by
    simp only [List.nil_append, List.cons_append, K, par, List.length_nil, Nat.zero_mod, if_true, Bool.not_not]; ring
  | [f], v => by
    simp only [List.nil_append, List.cons_append, K, par, List.length_cons, List.length_nil, Nat.zero_add, Bool.not_not]
    norm_num; ring
  | f :: g :: p, v => by
    have ih := K_append b a c d q (g :: p) (!v)
    rw [List.length_cons, par_succ]
    cases p with
    | nil => simp only [List.cons_append, List.nil_append] at ih ⊢; rw [K, ih, K.eq_1 (a := f)]; ring
    | cons h p => simp only [List.cons_append] at ih ⊢; rw [K, ih, K.eq_1 (a := f)]; ring

theorem K_snoc (a b c : Int) : ∀ (p : List Int) (v : Bool), K w v (p ++ [a, b, c]) = K w v (p ++ [a, b]) + w.e (par p.length v) a b c
  | [], v => by simp [K, par]
  | [d], v => by
    simp only [List.nil_append, List.cons_append, K, par, List.length_cons, List.length_nil, Nat.zero_add]
    norm_num
  | d :: e :: p, v => by
    have ih := K_snoc a b c (e :: p) (!v)
    rw [List.length_cons, par_succ]
    cases p with
    | nil => simp only [List.cons_append, List.nil_append] at ih ⊢; rw [K, ih, K.eq_1 (a := d)]; ring
    | cons f p => simp only [List.cons_append] at ih ⊢; rw [K, ih, K.eq_1 (a := d)]; ring

theorem K_reverse : ∀ (p : List Int) (v : Bool), K w (lastT p.length v) p.reverse = K w v p
  | [], v => by simp [K]
  | [a], v => by simp [K]
  | [a, b], v => by simp [K]
  | a :: b :: c :: r, v => by
    have ih := K_reverse (b :: c :: r) (!v)
    have e : (a :: b :: c :: r).reverse = r.reverse ++ [c, b, a] := by simp
    have e' : (b :: c :: r).reverse = r.reverse ++ [c, b] := by simp
    have hl : lastT (a :: b :: c :: r).length v = lastT (b :: c :: r).length (!v) := by
      have := lastT_succ (b :: c :: r).length (!v)
      rw [Bool.not_not] at this; rw [List.length_cons, this]
    have hp : par r.reverse.length (lastT (b :: c :: r).length (!v)) = v := by
      rw [List.length_reverse]
      unfold par lastT
      simp only [List.length_cons]
      by_cases h : r.length % 2 = 0
      · rw [if_pos h, if_pos (by omega)]; simp
      · rw [if_neg h, if_neg (by omega)]; simp
    rw [e, K_snoc, ← e', hl, ih, hp, K, w.sym v c b a]; ring

/-! ### ends and sums -/

def en (w : Wt) (H : Heap) (t : Nat) : Int := 2 * R w (vrt H t) (pth H t) + K w (vrt H t) (pth H t)
def hg (w : Wt) (H : Heap) (t : Nat) : Int := ((H.tail t).holes.map (fun h => Lp w (pth H h))).sum

/-- Twice the count of the open chains, with their holes. -/
def gs (w : Wt) (H : Heap) (S : List Nat) : Int := (S.map (en w H)).sum + 2 * (S.map (hg w H)).sum

theorem hg_congr {H H' : Heap} {t : Nat} (hh : (H'.tail t).holes = (H.tail t).holes) (hp : ∀ h ∈ (H.tail t).holes, pth H' h = pth H h) :
    hg w H' t = hg w H t := by
  unfold hg; rw [hh]
  congr 1
  exact List.map_congr_left (fun h hm => by rw [hp h hm])

theorem sum_update2 {f g : Nat → Int} {x y : Nat} {A : List Nat} (hn : A.Nodup) (hx : x ∈ A) (hy : y ∈ A) (hxy : x ≠ y)
    (h : ∀ a ∈ A, a ≠ x → a ≠ y → g a = f a) : (A.map g).sum = (A.map f).sum + (g x - f x) + (g y - f y) := by
  rw [sum_update A hn hy (f := fun a => if a = x then g a else f a) (g := g) (fun a ha hay => by
    split_ifs with e
    · rfl
    · exact h a ha e hay)]
  rw [sum_update A hn hx (f := f) (g := fun a => if a = x then g a else f a) (fun a _ hax => by simp only [if_neg hax])]
  simp only [if_neg hxy.symm, if_true]

variable {fr : Bool} {X : Int} {H : Heap} {S Z : List Nat}

theorem gs_push (g : G fr X H S Z) {t : Nat} (ht : t ∈ S) {l b c : Int} {r : List Int} (hp : pth H t = l :: b :: r) (hc : c ≠ b)
    {H' : Heap} (h : H.push t c = some H') :
    gs w H' S = gs w H S + 2 * (w.r (!vrt H t) c l + w.e (!vrt H t) c l b - w.r (vrt H t) l b) := by
  have e : H' = H.setPath t (c :: l :: b :: r) (!vrt H t) := by
    unfold Heap.push at h; unfold pth at hp; rw [hp] at h; dsimp only at h; rw [if_neg hc] at h
    exact (Option.some_inj.1 h).symm
  subst e
  have one := g.web.one t ht
  obtain ⟨s1, s2⟩ := setPath_self H t (c :: l :: b :: r) (!vrt H t)
  obtain ⟨o1, o2⟩ := setPath_other one (c :: l :: b :: r) (!vrt H t)
  have e1 : en w (H.setPath t (c :: l :: b :: r) (!vrt H t)) t - en w H t = 2 * w.r (!vrt H t) c l + w.e (!vrt H t) c l b - 2 * w.r (vrt H t) l b := by
    unfold en; rw [s1, s2, hp, K]; simp only [R, Bool.not_not]; ring
  have hro := g.web.rev t ht
  have hvo := g.web.vt t ht
  have e2 : en w (H.setPath t (c :: l :: b :: r) (!vrt H t)) (oth H t) - en w H (oth H t) = w.e (!vrt H t) c l b := by
    unfold en
    rw [o1, o2, hro, hp, R_take _ (List.reverse (l :: b :: r)), R_take, take2_reverse_snoc _ _ (by simp)]
    have k1 : K w (vrt H (oth H t)) (c :: l :: b :: r).reverse = K w (!vrt H t) (c :: l :: b :: r) := by
      rw [← K_reverse (c :: l :: b :: r), hvo, hp, List.length_cons (a := c), lastT_succ]
    have k2 : K w (vrt H (oth H t)) (l :: b :: r).reverse = K w (vrt H t) (l :: b :: r) := by
      rw [← K_reverse (l :: b :: r), hvo, hp]
    rw [k1, k2, K, Bool.not_not]; ring
  unfold gs
  have h2 : (S.map (hg w (H.setPath t (c :: l :: b :: r) (!vrt H t)))) = S.map (hg w H) := List.map_congr_left (fun n hn =>
    hg_congr (setPath_holes H t _ _ n) (fun h hm => by
      obtain ⟨a, b⟩ := g.oth_inS (g.hol n h hm).2 ht
      unfold pth; rw [setPath_ne a b]))
  rw [h2, sum_update2 g.web.nodup ht (g.web.om t ht) one.symm (f := en w H) (fun a _ h1 h2 => by unfold en pth vrt; rw [setPath_ne h1 h2]), e1, e2]
  ring

theorem gs_new {y : Int} {A B : List Nat} (g : G fr X H (A ++ B) Z) :
    gs w (H.newPair X y).1 (A ++ (H.fresh + 1) :: H.fresh :: B) = gs w H (A ++ B) + 2 * (w.r true X y + w.r false y X) := by
  have t1 : (H.newPair X y).1.tail H.fresh = ⟨[X, y], true, H.fresh + 1, []⟩ := by simp [Heap.newPair]
  have t2 : (H.newPair X y).1.tail (H.fresh + 1) = ⟨[y, X], false, H.fresh, []⟩ := by simp [Heap.newPair]
  have t4 : ∀ n, n < H.fresh → (H.newPair X y).1.tail n = H.tail n := fun n hn => by
    simp only [Heap.newPair]; rw [if_neg (by omega), if_neg (by omega)]
  have f1 : ∀ n ∈ A ++ B, en w (H.newPair X y).1 n = en w H n := fun n hn => by
    unfold en pth vrt; rw [t4 n (g.web.fresh n hn)]
  have f2 : en w (H.newPair X y).1 (H.fresh + 1) = 2 * w.r false y X := by unfold en pth vrt; rw [t2, K_two]; simp [R]
  have f3 : en w (H.newPair X y).1 H.fresh = 2 * w.r true X y := by unfold en pth vrt; rw [t1, K_two]; simp [R]
  have h1 : ∀ n ∈ A ++ B, hg w (H.newPair X y).1 n = hg w H n := fun n hn =>
    hg_congr (by rw [t4 n (g.web.fresh n hn)]) (fun h hm => by unfold pth; rw [t4 h (g.z.zf h (g.hol n h hm).2).1])
  have h2 : hg w (H.newPair X y).1 (H.fresh + 1) = 0 := by unfold hg; rw [t2]; rfl
  have h3 : hg w (H.newPair X y).1 H.fresh = 0 := by unfold hg; rw [t1]; rfl
  unfold gs
  simp only [List.map_append, List.map_cons, List.sum_append, List.sum_cons, f2, f3, h2, h3]
  rw [List.map_congr_left (l := A) (fun n hn => f1 n (by simp [hn])), List.map_congr_left (l := B) (fun n hn => f1 n (by simp [hn])),
    List.map_congr_left (l := A) (fun n hn => h1 n (by simp [hn])), List.map_congr_left (l := B) (fun n hn => h1 n (by simp [hn]))]
  ring

theorem gs_join {A B : List Nat} {t u : Nat} (g : G fr X H (A ++ t :: u :: B) Z) (hne : oth H t ≠ u) {solid : Bool} {H' : Heap}
    (h : H.joinChains t u solid = (H', [], none)) (g' : G fr X H' (A ++ B) Z) (hv : vrt H t = true) (hu' : vrt H u = false)
    {l b y x : Int} {r q : List Int} (hp : pth H t = l :: b :: r) (hq : pth H u = y :: x :: q) :
    gs w H' (A ++ B) = gs w H (A ++ t :: u :: B) + 2 * (w.e false b l y + w.e true l y x - w.r true l b - w.r false y x) := by
  have ht : t ∈ A ++ t :: u :: B := by simp
  have hu : u ∈ A ++ t :: u :: B := by simp
  have hm := fun a => mem_mid (a := a) g.web.nodup
  have hadj := ps_adj g.web.nodup
  have htu : t ≠ u := by intro e; subst e; omega
  have e1 := g.web.one t ht
  have e2 := g.web.one u hu
  have hoe : oth H t ≠ oth H u := fun e => htu (by rw [← g.web.oo t ht, e, g.web.oo u hu])
  have hut : oth H u ≠ t := fun e => hne (by rw [← e, g.web.oo u hu])
  have mo1 : oth H t ∈ A ++ B := (hm _).2 ⟨g.web.om t ht, e1, hne⟩
  have mo2 : oth H u ∈ A ++ B := (hm _).2 ⟨g.web.om u hu, hut, e2⟩
  have hnd := nodup_mid g.web.nodup
  have L1 := link_one (H := H) (oth H t) (oth H u) (pth H (oth H t) ++ pth H u)
  have L2 := link_two (H := H) hoe.symm (pth H (oth H t) ++ pth H u)
  have L3 := fun n (h1 : n ≠ oth H t) (h2 : n ≠ oth H u) => link_ne (H := H) h1 h2 (pth H (oth H t) ++ pth H u)
  set K0 := H.link (oth H t) (oth H u) (pth H (oth H t) ++ pth H u) with hK
  have hH : H' = (K0.copyHoles (oth H t) t).copyHoles (oth H t) u := by
    unfold Heap.joinChains at h; unfold oth at hne; rw [if_neg hne] at h
    exact (congrArg Prod.fst h).symm
  have he : ∀ n, pth H' n = pth K0 n ∧ vrt H' n = vrt H n ∧ oth H' n = oth K0 n := fun n => by
    rw [hH]
    obtain ⟨a, b, c⟩ := copyHoles_eq (K0.copyHoles (oth H t) t) (oth H t) u n
    obtain ⟨a', b', c'⟩ := copyHoles_eq K0 (oth H t) t n
    refine ⟨b.trans b', (c.trans c').trans ?_, a.trans a'⟩
    unfold vrt; rw [hK]; unfold Heap.link; dsimp only; split_ifs <;> rfl
  have hO1 : oth H' (oth H t) = oth H u := by rw [(he _).2.2]; change (K0.tail (oth H t)).other = _; rw [L1]
  have hP1 : pth H' (oth H t) = pth H (oth H t) ++ pth H u := by rw [(he _).1]; exact congrArg Tail.path L1
  have hP2 : pth H' (oth H u) = (pth H (oth H t) ++ pth H u).reverse := by rw [(he _).1]; exact congrArg Tail.path L2
  have hP3 : ∀ n, n ≠ oth H t → n ≠ oth H u → pth H' n = pth H n := fun n a b => by rw [(he _).1]; unfold pth; rw [L3 n a b]
  have hpz : ∀ h ∈ Z, pth H' h = pth H h := fun h hz => hP3 h (g.oth_inS hz ht).2 (g.oth_inS hz hu).2
  have hho : ∀ n, (H'.tail n).holes = if n = oth H t then (H.tail n).holes ++ ((H.tail t).holes ++ (H.tail u).holes) else if n = t ∨ n = u then [] else (H.tail n).holes := fun n => by
    rw [hH, copyHoles_holes, copyHoles_holes, copyHoles_holes, hK, link_holes, link_holes, link_holes]
    have hu0 : u ≠ oth H t := fun e => hne e.symm
    rw [if_neg hu0, if_neg htu.symm]
    by_cases a : n = oth H t
    · rw [if_pos a, if_pos a, if_pos a, List.append_assoc]
    · rw [if_neg a, if_neg a, if_neg a]
      by_cases b : n = u
      · rw [if_pos b, if_pos (Or.inr b)]
      · rw [if_neg b]
        by_cases c : n = t
        · rw [if_pos c, if_pos (Or.inl c)]
        · rw [if_neg c, if_neg (by tauto)]
  have hs1 : ((A ++ B).map (hg w H')).sum = ((A ++ t :: u :: B).map (hg w H)).sum := by
    rw [sum_update (A ++ B) hnd mo1 (f := hg w H) (fun n hn hnx => by
      refine hg_congr ?_ (fun h hmm => hpz h (g.hol n h hmm).2)
      rw [hho n, if_neg hnx, if_neg (by have := (hm n).1 hn; tauto)])]
    have : hg w H' (oth H t) = hg w H (oth H t) + (hg w H t + hg w H u) := by
      unfold hg
      rw [hho, if_pos rfl, List.map_append, List.sum_append, List.map_append, List.sum_append]
      congr 1
      · congr 1
        exact List.map_congr_left (fun h hmm => by rw [hpz h (g.hol _ h hmm).2])
      congr 1
      · congr 1
        exact List.map_congr_left (fun h hmm => by rw [hpz h (g.hol _ h hmm).2])
      · congr 1
        exact List.map_congr_left (fun h hmm => by rw [hpz h (g.hol _ h hmm).2])
    rw [this]
    simp only [List.map_append, List.map_cons, List.sum_append, List.sum_cons]; ring
  have hrt := g.web.rev t ht
  have hvt := g.web.vt t ht
  have hru := g.web.rev u hu
  have hvu := g.web.vt u hu
  have kt : K w (vrt H (oth H t)) (pth H (oth H t)) = K w true (pth H t) := by rw [hvt, hrt, K_reverse, hv]
  have ku : K w (vrt H (oth H u)) (pth H (oth H u)) = K w false (pth H u) := by rw [hvu, hru, K_reverse, hu']
  have kj : K w (vrt H (oth H t)) (pth H (oth H t) ++ pth H u) = K w true (pth H t) + w.e false b l y + w.e true l y x + K w false (pth H u) := by
    have hpar : PolyGross.par r.reverse.length (vrt H (oth H t)) = false := by
      rw [hvt, hv, hp]; unfold par lastT
      simp only [List.length_reverse, List.length_cons]
      by_cases h : r.length % 2 = 0
      · rw [if_pos h, if_pos (by omega)]; rfl
      · rw [if_neg h, if_neg (by omega)]; rfl
    have e : pth H (oth H t) = r.reverse ++ [b, l] := by rw [hrt, hp]; simp
    rw [← kt, e, hq, K_append, hpar]; simp only [Bool.not_false]
  have kj2 : K w (vrt H (oth H u)) (pth H (oth H t) ++ pth H u).reverse = K w (vrt H (oth H t)) (pth H (oth H t) ++ pth H u) := by
    have := g'.web.vt _ mo1
    rw [hO1, hP1, (he _).2.1, (he _).2.1] at this
    rw [this, K_reverse]
  have r1 : R w (vrt H (oth H t)) (pth H (oth H t) ++ pth H u) = R w (vrt H (oth H t)) (pth H (oth H t)) := by
    rw [R_take, List.take_append_of_le_length (g.web.len _ (g.web.om t ht)), ← R_take]
  have r2 : R w (vrt H (oth H u)) (pth H (oth H t) ++ pth H u).reverse = R w (vrt H (oth H u)) (pth H (oth H u)) := by
    rw [R_take, List.reverse_append, ← hru, List.take_append_of_le_length (g.web.len _ (g.web.om u hu)), ← R_take]
  unfold gs
  rw [hs1, sum_update2 hnd mo1 mo2 hoe (f := en w H) (fun n _ a b => by unfold en; rw [hP3 n a b, (he n).2.1])]
  have d1 : en w H' (oth H t) - en w H (oth H t) = w.e false b l y + w.e true l y x + K w false (pth H u) := by
    unfold en; rw [hP1, (he _).2.1, r1, kj, kt]; ring
  have d2 : en w H' (oth H u) - en w H (oth H u) = w.e false b l y + w.e true l y x + K w true (pth H t) := by
    unfold en; rw [hP2, (he _).2.1, r2, kj2, kj, ku]; ring
  have n1 : en w H t = 2 * w.r true l b + K w true (pth H t) := by unfold en; rw [hv, hp]; rfl
  have n2 : en w H u = 2 * w.r false y x + K w false (pth H u) := by unfold en; rw [hu', hq]; rfl
  rw [d1, d2]
  simp only [List.map_append, List.map_cons, List.sum_append, List.sum_cons, n1, n2]; ring

theorem gs_close {A B : List Nat} {t u : Nat} (g : G fr X H (A ++ t :: u :: B) Z) (hc : oth H t = u)
    (hv : vrt H t = true) (hu' : vrt H u = false) {l b y x : Int} {r q : List Int} (hp : pth H t = l :: b :: r) (hq : pth H u = y :: x :: q) :
    gs w H (A ++ B) + 2 * (Lp w (pth H t) + hg w H t + hg w H u) = gs w H (A ++ t :: u :: B) + 2 * (w.e false b l y + w.e true l y x - w.r true l b - w.r false y x) := by
  have ht : t ∈ A ++ t :: u :: B := by simp
  have hr := g.web.rev t ht
  rw [hc, hq] at hr
  have hvu := g.web.vt t ht
  rw [hc, hu', hv] at hvu
  have e : pth H t = q.reverse ++ [x, y] := by
    have := congrArg List.reverse hr
    rw [List.reverse_reverse] at this; rw [← this]; simp
  have hev : q.length % 2 = 0 := by
    rw [e] at hvu; unfold lastT at hvu
    by_contra h
    rw [if_neg (by simp; omega)] at hvu; simp at hvu
  have hk : Lp w (pth H t) = K w true (pth H t) + w.e false b l y + w.e true l y x := by
    unfold Lp
    have e2 : (pth H t).take 2 = [l, b] := by rw [hp]; rfl
    rw [e2]
    conv_lhs => rw [e]
    rw [K_append, ← e, K_two]
    have : PolyGross.par q.reverse.length true = true := by unfold par; rw [List.length_reverse, if_pos hev]
    rw [this, w.sym true x y l, w.sym (!true) y l b]; simp only [Bool.not_true]; ring
  have ku : K w false (pth H u) = K w true (pth H t) := by
    rw [← K_reverse (pth H t), ← hv, ← hc, ← g.web.vt t ht, hc, hu', ← g.web.rev t ht, hc]
  have n1 : en w H t = 2 * w.r true l b + K w true (pth H t) := by unfold en; rw [hv, hp]; rfl
  have n2 : en w H u = 2 * w.r false y x + K w false (pth H u) := by unfold en; rw [hu', hq]; rfl
  unfold gs
  simp only [List.map_append, List.map_cons, List.sum_append, List.sum_cons, n1, n2, hk, ku]; ring

/-! ### totals -/

def gpd (w : Wt) (H : Heap) : Option Nat → Int
  | none => 0
  | some c => Lp w (pth H c) + hg w H c + hg w H (oth H c)

def go (w : Wt) (H : Heap) (o : Nat) : Int := Lp w (pth H o) + hg w H o

def GT (w : Wt) (H : Heap) (S out : List Nat) (pd : Option Nat) : Int := gs w H S + 2 * (out.map (go w H)).sum + 2 * gpd w H pd

theorem gt_op {H' : Heap} {S' out : List Nat} {pd : Option Nat} (g : G fr X H S Z) (o : Op X H S H' S')
    (hout : ∀ n ∈ out, n ∈ Z) (hpd : ∀ c, pd = some c → c ∈ Z) : GT w H' S' out pd = GT w H S out pd + (gs w H' S' - gs w H S) := by
  have e : ∀ z ∈ Z, H'.tail z = H.tail z := fun z hz => o.frame z (g.z.zS z hz).1 (g.z.zf z hz).1
  have e' : ∀ z ∈ Z, H'.tail (oth H z) = H.tail (oth H z) := fun z hz => o.frame _ (g.z.zS z hz).2 (g.z.zf z hz).2
  have hp : ∀ n, (∀ h ∈ (H.tail n).holes, pth H' h = pth H h) := fun n h hm => by unfold pth; rw [e h (g.hol n h hm).2]
  have hz : ∀ z ∈ Z, hg w H' z = hg w H z := fun z hz => hg_congr (by rw [e z hz]) (hp z)
  have hz' : ∀ z ∈ Z, hg w H' (oth H z) = hg w H (oth H z) := fun z hz => hg_congr (by rw [e' z hz]) (hp _)
  have hov : out.map (go w H') = out.map (go w H) := List.map_congr_left (fun n hn => by
    unfold go pth; rw [hz n (hout n hn), e n (hout n hn)])
  have hpp : gpd w H' pd = gpd w H pd := by
    cases pd with
    | none => rfl
    | some c =>
      have hc := hpd c rfl
      have eo : oth H' c = oth H c := by unfold oth; rw [e c hc]
      unfold gpd pth; dsimp only; rw [eo, hz c hc, hz' c hc, e c hc]
  unfold GT
  rw [hov, hpp]; ring

/-! ### one piece of the grid -/

def hW (i y : Int) : Wt where
  e := fun v a b c => if v then (if b = y ∧ min a c ≤ i ∧ i < max a c then 1 else 0) else 0
  r := fun v a b => if v then 0 else (if a = y ∧ b ≤ i then 1 else 0)
  sym := fun v a b c => by rw [Int.min_comm, Int.max_comm]

def vW (i j : Int) : Wt where
  e := fun v a b c => if v then 0 else (if b = i ∧ min a c ≤ j ∧ j < max a c then 1 else 0)
  r := fun v a b => if v then (if a = i ∧ b ≤ j then 1 else 0) else 0
  sym := fun v a b c => by rw [Int.min_comm, Int.max_comm]

/-- The counts left of column `X` as given, in it as in `vx`, and none right of it. -/
structure Gr (bh bv : Int → Int → Int) (X : Int) (vx : Int → Int) (H : Heap) (S out : List Nat) (pd : Option Nat) : Prop where
  h : ∀ i y, i < X → GT (hW i y) H S out pd = bh i y
  v : ∀ i j, GT (vW i j) H S out pd = if i < X then bv i j else if i = X then 2 * vx j else 0

variable {bh bv : Int → Int → Int} {vx vx' : Int → Int} {out : List Nat} {pd : Option Nat}

theorem gr_step {H' : Heap} {S' out' : List Nat} {pd' : Option Nat} (h : Gr bh bv X vx H S out pd)
    (h1 : ∀ i y, i < X → GT (hW i y) H' S' out' pd' = GT (hW i y) H S out pd)
    (h2 : ∀ i j, GT (vW i j) H' S' out' pd' = GT (vW i j) H S out pd + 2 * (if i = X then vx' j - vx j else 0)) : Gr bh bv X vx' H' S' out' pd' where
  h := fun i y hi => by rw [h1 i y hi, h.h i y hi]
  v := fun i j => by
    rw [h2 i j, h.v i j]
    by_cases a : i < X
    · rw [if_pos a, if_pos a, if_neg (by omega)]; ring
    · rw [if_neg a, if_neg a]; split_ifs <;> ring

theorem gr_congr (h : Gr bh bv X vx H S out pd) (hx : ∀ j, vx' j = vx j) : Gr bh bv X vx' H S out pd :=
  gr_step h (fun _ _ _ => rfl) (fun i j => by rw [hx, Int.sub_self]; simp)

def up (k j : Int) : Int := if k ≤ j then 1 else 0

/-- A vertical segment ends at `k`. -/
theorem gr_pushY (g : G fr X H S Z) (h : Gr bh bv X vx H S out pd) (hout : ∀ n ∈ out, n ∈ Z) (hpd : ∀ c, pd = some c → c ∈ Z)
    {t : Nat} (ht : t ∈ S) {b k : Int} {r : List Int} (hp : pth H t = X :: b :: r) (hv : vrt H t = true) (hb : b < k)
    {H' : Heap} (hh : H.push t k = some H') (o : Op X H S H' S) (hx : ∀ j, vx' j = vx j - up k j) : Gr bh bv X vx' H' S out pd := by
  refine gr_step h (fun i y hi => ?_) (fun i j => ?_)
  · rw [gt_op g o hout hpd, gs_push g ht hp (by omega) hh, hv]
    simp only [hW, Bool.not_true, Bool.false_eq_true, if_false, if_true]
    rw [if_neg (by omega)]; ring
  · rw [gt_op g o hout hpd, gs_push g ht hp (by omega) hh, hv, hx]
    simp only [vW, Bool.not_true, Bool.false_eq_true, if_false, if_true, up]
    by_cases e : X = i
    · subst e
      by_cases a : b ≤ j <;> by_cases c : k ≤ j <;> simp [a, c] <;> omega
    · simp [e, Ne.symm e]

/-- A vertical segment starts at `k`. -/
theorem gr_pushX (g : G fr X H S Z) (h : Gr bh bv X vx H S out pd) (hout : ∀ n ∈ out, n ∈ Z) (hpd : ∀ c, pd = some c → c ∈ Z)
    {t : Nat} (ht : t ∈ S) {k x : Int} {r : List Int} (hp : pth H t = k :: x :: r) (hv : vrt H t = false) (hb : x < X)
    {H' : Heap} (hh : H.push t X = some H') (o : Op X H S H' S) (hx : ∀ j, vx' j = vx j + up k j) : Gr bh bv X vx' H' S out pd := by
  refine gr_step h (fun i y hi => ?_) (fun i j => ?_)
  · rw [gt_op g o hout hpd, gs_push g ht hp (by omega) hh, hv]
    simp only [hW, Bool.not_false, Bool.false_eq_true, if_false, if_true]
    by_cases e : k = y <;> by_cases c : x ≤ i <;> simp [e, c] <;> omega
  · rw [gt_op g o hout hpd, gs_push g ht hp (by omega) hh, hv, hx]
    simp only [vW, Bool.not_false, Bool.false_eq_true, if_false, if_true, up]
    by_cases e : X = i
    · subst e; simp
    · simp [e, Ne.symm e]

theorem gr_new {A B : List Nat} {k : Int} (g : G fr X H (A ++ B) Z) (h : Gr bh bv X vx H (A ++ B) out pd) (hout : ∀ n ∈ out, n ∈ Z) (hpd : ∀ c, pd = some c → c ∈ Z)
    (o : Op X H (A ++ B) (H.newPair X k).1 (A ++ (H.fresh + 1) :: H.fresh :: B)) (hx : ∀ j, vx' j = vx j + up k j) :
    Gr bh bv X vx' (H.newPair X k).1 (A ++ (H.fresh + 1) :: H.fresh :: B) out pd := by
  refine gr_step h (fun i y hi => ?_) (fun i j => ?_)
  · rw [gt_op g o hout hpd, gs_new g]
    simp only [hW, Bool.false_eq_true, if_false, if_true]
    rw [if_neg (by omega)]; ring
  · rw [gt_op g o hout hpd, gs_new g, hx]
    simp only [vW, Bool.false_eq_true, if_false, if_true, up]
    by_cases e : X = i
    · subst e; simp
    · simp [e, Ne.symm e]

theorem close_calc {b k x : Int} (hb : b < k) (hx : x < X) :
    (∀ i y, i < X → (hW i y).e false b X k + (hW i y).e true X k x - (hW i y).r true X b - (hW i y).r false k x = 0) ∧
    ∀ i j, (vW i j).e false b X k + (vW i j).e true X k x - (vW i j).r true X b - (vW i j).r false k x = if i = X then - up k j else 0 := by
  refine ⟨fun i y hi => ?_, fun i j => ?_⟩
  · simp only [hW, Bool.false_eq_true, if_false, if_true]
    by_cases e : k = y <;> by_cases c : x ≤ i <;> simp [e, c] <;> omega
  · simp only [vW, Bool.false_eq_true, if_false, if_true, up]
    by_cases e : X = i
    · subst e
      by_cases a : b ≤ j <;> by_cases c : k ≤ j <;> simp [a, c] <;> omega
    · simp [e, Ne.symm e]

theorem gr_join {A B : List Nat} {t u : Nat} (g : G fr X H (A ++ t :: u :: B) Z) (h : Gr bh bv X vx H (A ++ t :: u :: B) out pd)
    (hout : ∀ n ∈ out, n ∈ Z) (hpd : ∀ c, pd = some c → c ∈ Z) (hne : oth H t ≠ u) {solid : Bool} {H' : Heap}
    (hh : H.joinChains t u solid = (H', [], none)) (g' : G fr X H' (A ++ B) Z) (hv : vrt H t = true) (hu' : vrt H u = false)
    {b k x : Int} {r q : List Int} (hp : pth H t = X :: b :: r) (hq : pth H u = k :: x :: q) (hb : b < k) (hxX : x < X)
    (o : Op X H (A ++ t :: u :: B) H' (A ++ B)) (hx : ∀ j, vx' j = vx j - up k j) : Gr bh bv X vx' H' (A ++ B) out pd := by
  obtain ⟨c1, c2⟩ := close_calc hb hxX
  refine gr_step h (fun i y hi => ?_) (fun i j => ?_)
  · rw [gt_op g o hout hpd, gs_join g hne hh g' hv hu' hp hq, c1 i y hi]; ring
  · rw [gt_op g o hout hpd, gs_join g hne hh g' hv hu' hp hq, c2 i j, hx]; split_ifs <;> ring

/-- A hole closes. -/
theorem gr_hole {A B : List Nat} {t u : Nat} (g : G fr X H (A ++ t :: u :: B) Z) (h : Gr bh bv X vx H (A ++ t :: u :: B) out none)
    (hc : oth H t = u) (hv : vrt H t = true) (hu' : vrt H u = false)
    {b k x : Int} {r q : List Int} (hp : pth H t = X :: b :: r) (hq : pth H u = k :: x :: q) (hb : b < k) (hxX : x < X)
    (hx : ∀ j, vx' j = vx j - up k j) : Gr bh bv X vx' H (A ++ B) out (some t) := by
  obtain ⟨c1, c2⟩ := close_calc hb hxX
  have key : ∀ w, GT w H (A ++ B) out (some t) = GT w H (A ++ t :: u :: B) out none + 2 * (w.e false b X k + w.e true X k x - w.r true X b - w.r false k x) := by
    intro w
    have := gs_close (w := w) g hc hv hu' hp hq
    unfold GT gpd; dsimp only; rw [hc]; linarith
  refine gr_step h (fun i y hi => ?_) (fun i j => ?_)
  · rw [key, c1 i y hi]; ring
  · rw [key, c2 i j, hx]; split_ifs <;> ring

/-- A shell closes. -/
theorem gr_shell {A B : List Nat} {t u : Nat} (g : G fr X H (A ++ t :: u :: B) Z) (h : Gr bh bv X vx H (A ++ t :: u :: B) out none)
    (hout : ∀ n ∈ out, n ∈ Z) (hc : oth H t = u) (hv : vrt H t = true) (hu' : vrt H u = false)
    {b k x : Int} {r q : List Int} (hp : pth H t = X :: b :: r) (hq : pth H u = k :: x :: q) (hb : b < k) (hxX : x < X)
    (hx : ∀ j, vx' j = vx j - up k j) : Gr bh bv X vx' (H.copyHoles t u) (A ++ B) (out ++ [t]) none := by
  obtain ⟨c1, c2⟩ := close_calc hb hxX
  have hm := fun a => mem_mid (a := a) g.web.nodup
  have he := copyHoles_eq H t u
  have ht : t ∈ A ++ t :: u :: B := by simp
  have hu : u ∈ A ++ t :: u :: B := by simp
  have key : ∀ w, GT w (H.copyHoles t u) (A ++ B) (out ++ [t]) none = GT w H (A ++ t :: u :: B) out none + 2 * (w.e false b X k + w.e true X k x - w.r true X b - w.r false k x) := by
    intro w
    have h0 := gs_close (w := w) g hc hv hu' hp hq
    have hsn : ∀ n, n ≠ t → n ≠ u → hg w (H.copyHoles t u) n = hg w H n := fun n a b =>
      hg_congr (by rw [copyHoles_holes, if_neg a, if_neg b]) (fun h _ => (he h).2.1)
    have hst : hg w (H.copyHoles t u) t = hg w H t + hg w H u := by
      unfold hg
      rw [copyHoles_holes, if_pos rfl, List.map_append, List.sum_append]
      congr 1 <;> (congr 1; exact List.map_congr_left (fun h _ => by rw [(he h).2.1]))
    have hgo : out.map (go w (H.copyHoles t u)) = out.map (go w H) := List.map_congr_left (fun n hn => by
      have hz := g.z.zS n (hout n hn)
      unfold go
      rw [(he n).2.1, hsn n (fun e => hz.1 (e ▸ ht)) (fun e => hz.1 (e ▸ hu))])
    have hgs : gs w (H.copyHoles t u) (A ++ B) = gs w H (A ++ B) := by
      unfold gs
      rw [List.map_congr_left (g := en w H) (fun n _ => by unfold en; rw [(he n).2.1, (he n).2.2]),
        List.map_congr_left (g := hg w H) (fun n hn => hsn n ((hm n).1 hn).2.1 ((hm n).1 hn).2.2)]
    unfold GT gpd
    rw [List.map_append, List.sum_append, hgo, hgs]
    simp only [List.map_cons, List.map_nil, List.sum_cons, List.sum_nil, go, hst, (he t).2.1]
    linarith
  refine gr_step h (fun i y hi => ?_) (fun i j => ?_)
  · rw [key, c1 i y hi]; ring
  · rw [key, c2 i j, hx]; split_ifs <;> ring

/-- A closed hole given to an open end. -/
theorem gr_addHole {t hole : Nat} (g : G false X H S Z) (h : Gr bh bv X vx H S out (some hole)) (ht : t ∈ S) (hh : hole ∈ Z)
    (hout : ∀ n ∈ out, n ∈ Z ∧ n ≠ hole ∧ n ≠ oth H hole) {H' : Heap} (ha : H.addHole t hole false = some (H', t)) : Gr bh bv X vx H' S out none := by
  have hz := g.z.zS hole hh
  have n1 : hole ≠ t := fun e => hz.1 (e ▸ ht)
  have n2 : oth H hole ≠ t := fun e => hz.2 (e ▸ ht)
  have n3 : oth H hole ≠ hole := by
    intro e
    have := g.z.vt hole hh
    rw [e] at this
    rw [this.1] at this
    exact absurd this.2 (by simp)
  set H1 := H.addHoles t [hole] with h1
  set H2 := H1.copyHoles t hole with h2
  have ho : (H2.tail hole).other = oth H hole := by
    change oth H2 hole = _
    rw [h2, (copyHoles_eq _ _ _ _).1, h1, (addHoles_eq _ _ _ _).1]
  set H3 := H2.copyHoles t (oth H hole) with h3
  have hH : H' = H3 := by
    unfold Heap.addHole at ha
    simp only [Bool.not_false, if_true] at ha
    rw [← h1, ← h2, ho] at ha
    exact (congrArg Prod.fst (Option.some_inj.1 ha)).symm
  rw [hH]
  have he : ∀ n, oth H3 n = oth H n ∧ pth H3 n = pth H n ∧ vrt H3 n = vrt H n := by
    intro n
    obtain ⟨a1, a2, a3⟩ := copyHoles_eq H2 t (oth H hole) n
    obtain ⟨b1, b2, b3⟩ := copyHoles_eq H1 t hole n
    obtain ⟨c1, c2, c3⟩ := addHoles_eq H t n [hole]
    exact ⟨a1.trans (b1.trans c1), a2.trans (b2.trans c2), a3.trans (b3.trans c3)⟩
  have hho : ∀ n, (H3.tail n).holes = if n = t then (H.tail t).holes ++ [hole] ++ (H.tail hole).holes ++ (H.tail (oth H hole)).holes
      else if n = hole ∨ n = oth H hole then [] else (H.tail n).holes := by
    intro n
    rw [h3, copyHoles_holes, h2, copyHoles_holes, copyHoles_holes, h1, addHoles_holes, addHoles_holes, addHoles_holes]
    rw [if_neg n1, if_neg n2, if_neg n3, if_neg n2]
    by_cases a : n = t
    · subst a; simp
    · rw [if_neg a, if_neg a, if_neg a, if_neg a]
      by_cases b : n = oth H hole
      · rw [if_pos b, if_pos (Or.inr b)]
      · rw [if_neg b]
        by_cases c : n = hole
        · rw [if_pos c, if_pos (Or.inl c)]
        · rw [if_neg c, if_neg (by tauto)]
  have hS : ∀ n ∈ S, n ≠ hole ∧ n ≠ oth H hole := fun n hn => ⟨fun e => hz.1 (e ▸ hn), fun e => hz.2 (e ▸ hn)⟩
  have key : ∀ w, GT w H3 S out none = GT w H S out (some hole) := by
    intro w
    have hsn : ∀ n, n ≠ t → n ≠ hole → n ≠ oth H hole → hg w H3 n = hg w H n := fun n a b c =>
      hg_congr (by rw [hho n, if_neg a, if_neg (by tauto)]) (fun h _ => (he h).2.1)
    have hst : hg w H3 t = hg w H t + (Lp w (pth H hole) + hg w H hole + hg w H (oth H hole)) := by
      unfold hg
      rw [hho t, if_pos rfl]
      have : ∀ L : List Nat, L.map (fun h => Lp w (pth H3 h)) = L.map (fun h => Lp w (pth H h)) := fun L =>
        List.map_congr_left (fun h _ => by rw [(he h).2.1])
      rw [this]
      simp only [List.map_append, List.sum_append, List.map_cons, List.map_nil, List.sum_cons, List.sum_nil]
      ring
    have hgo : out.map (go w H3) = out.map (go w H) := List.map_congr_left (fun n hn => by
      obtain ⟨a, b, c⟩ := hout n hn
      unfold go
      rw [(he n).2.1, hsn n (fun e => (g.z.zS n a).1 (e ▸ ht)) b c])
    have hen : S.map (en w H3) = S.map (en w H) := List.map_congr_left (fun n _ => by unfold en; rw [(he n).2.1, (he n).2.2])
    unfold GT gs gpd
    rw [hgo, hen, sum_update S g.web.nodup ht (f := hg w H) (fun n hn hnt => hsn n hnt (hS n hn).1 (hS n hn).2), hst]
    ring
  exact gr_step h (fun i y _ => key _) (fun i j => by rw [key]; simp)

end Verif.Proofs.PolyGross
