import Verif.Proofs.FormFit
/-!
# Joining neighbours along the scanline
-/
namespace Verif.ArbForm
open Verif.Arb Verif.Contains Verif.Spec.Arb Verif.Proofs.FormLay

variable {ω : Edge → Int} {H : Heap} {S A B : List (V × Nat)} {Fl : Option Nat} {g : Nat} {out : List Poly} {X : List Edge} {p : Pt}

/-- Elements that stay when two neighbours are taken out. -/
theorem EF.stay {x y : V × Nat} (e : EF H (A ++ x :: y :: B) Fl) : ∀ z ∈ A ++ B, z ∈ A ++ x :: y :: B ∧ z.2 ≠ x.2 ∧ z.2 ≠ y.2 := by
  intro z hz
  have hn := e.nd
  rw [List.map_append, List.map_cons, List.map_cons] at hn
  have := (Verif.Proofs.PolyWeb.mem_mid (a := z.2) hn).1 (by rw [← List.map_append]; exact List.mem_map.2 ⟨z, hz, rfl⟩)
  refine ⟨?_, this.2⟩
  rcases List.mem_append.1 hz with h | h <;> simp [h]

/-- A closed chain leaves: the outer boundary of a polygon. -/
theorem Fit.closeSolid {x y : V × Nat} (e : EF H (A ++ x :: y :: B) none) (f : Fit ω H (A ++ x :: y :: B) none g) (hxy : y.2 = oth H x.2)
    (hx : we ω x = 0) (hy : we ω y = 0) (sy : y.1.2 = -1) (hA : (A.length : Int) % 2 = 0) {a b : Nat} (hab : (a = x.2 ∧ b = y.2) ∨ (a = y.2 ∧ b = x.2)) :
    Fit ω (H.copyHoles a b) (A ++ B) none g ∧ GoodP ω ((H.copyHoles a b).poly a) := by
  obtain ⟨F, L, v⟩ := f
  have mx : x ∈ A ++ x :: y :: B := by simp
  have my : y ∈ A ++ x :: y :: B := by simp
  have s := SameH.copy H a b
  obtain ⟨z, hz, z1, z2, z3, z4⟩ := e.ot x mx
  have zy : z = y := e.inj hz my (z1.trans hxy.symm)
  subst zy
  have hne : x.2 ≠ z.2 := fun c => by
    have := e.inj mx my c
    rw [this] at z2; omega
  have hne' : a ≠ b := by rcases hab with ⟨rfl, rfl⟩ | ⟨rfl, rfl⟩; exacts [hne, hne.symm]
  have fz := v z my sy x mx z3.symm
  rw [hx, hy] at fz
  have L' := L
  rw [List.map_append, List.map_cons, List.map_cons] at L'
  obtain ⟨L1, r1, r2, r3⟩ := L'.closeSolid hxy.symm (by rw [List.length_map]; exact hA) ((g : Int) - 1)
  constructor
  · refine ⟨F, ?_, ?_⟩
    · rw [List.map_append]
      refine L1.congr (fun t _ => (s.t t).2.1) (fun _ _ => rfl) (fun t ht => ?_)
      rw [← List.map_append] at ht
      obtain ⟨c, hc, rfl⟩ := List.mem_map.1 ht
      obtain ⟨c1, c2, c3⟩ := e.stay c hc
      have k1 : c.2 ≠ a := by rcases hab with ⟨rfl, rfl⟩ | ⟨rfl, rfl⟩; exacts [c2, c3]
      have k2 : c.2 ≠ b := by rcases hab with ⟨rfl, rfl⟩ | ⟨rfl, rfl⟩; exacts [c3, c2]
      rw [hwt_same (by rw [copy_holes, if_neg k2, if_neg k1]) (fun h _ => ring_same s h)]
    · intro c hc hs d hd hcd
      have eo : oth (H.copyHoles a b) = oth H := by funext t; exact (s.t t).2.1
      rw [eo] at hcd
      rw [(s.t _).1, s.line]
      exact v c (e.stay c hc).1 hs d (e.stay d hd).1 hcd
  · have el : (H.tail a).line = (H.tail z.2).line := by rcases hab with ⟨rfl, rfl⟩ | ⟨rfl, rfl⟩; exacts [z4.symm, rfl]
    have eh : ((H.copyHoles a b).tail a).holes = (H.tail a).holes ++ (H.tail b).holes := by rw [copy_holes, if_neg hne', if_pos rfl]
    have eo : ((H.copyHoles a b).poly a).outer = H.line (H.tail z.2).line := by
      unfold Heap.poly; dsimp only; rw [s.line, (s.t a).1, el]
    have ehh : ((H.copyHoles a b).poly a).holes.map (lw ω) = ((H.tail a).holes ++ (H.tail b).holes).map (fun h => lw ω (H.ring h)) := by
      unfold Heap.poly; dsimp only
      rw [eh, List.map_map]
      refine List.map_congr_left (fun h _ => ?_)
      rw [Function.comp_apply, s.line, (s.t h).1]; rfl
    have neg : ∀ l : List Nat, (l.map (fun h => - lw ω (H.ring h))).sum = - (l.map (fun h => lw ω (H.ring h))).sum := by
      intro l
      induction l with
      | nil => rfl
      | cons a l ih => rw [List.map_cons, List.map_cons, List.sum_cons, List.sum_cons, ih]; ring
    refine ⟨by rw [eo]; omega, fun h hh => ?_, ?_⟩
    · have : lw ω h ∈ ((H.copyHoles a b).poly a).holes.map (lw ω) := List.mem_map.2 ⟨h, hh, rfl⟩
      rw [ehh] at this
      obtain ⟨k, hk, hk'⟩ := List.mem_map.1 this
      have m : - lw ω (H.ring k) ∈ hwt ω H x.2 ++ hwt ω H z.2 := by
        unfold hwt
        rw [← List.map_append]
        refine List.mem_map.2 ⟨k, ?_, rfl⟩
        rcases hab with ⟨rfl, rfl⟩ | ⟨rfl, rfl⟩
        · exact hk
        · exact List.mem_append.2 ((List.mem_append.1 hk).symm)
      have := r2 _ m
      omega
    · rw [eo, ehh]
      have k : (hwt ω H x.2 ++ hwt ω H z.2).sum = - (((H.tail a).holes ++ (H.tail b).holes).map (fun h => lw ω (H.ring h))).sum := by
        unfold hwt
        rw [List.sum_append, neg, neg, List.map_append, List.sum_append]
        rcases hab with ⟨rfl, rfl⟩ | ⟨rfl, rfl⟩ <;> omega
      omega

/-- A closed chain leaves: a hole. -/
theorem Fit.closeHole {x y : V × Nat} (e : EF H (A ++ x :: y :: B) none) (f : Fit ω H (A ++ x :: y :: B) none g) (hxy : y.2 = oth H x.2)
    (hx : we ω x = 0) (hy : we ω y = 0) (sx : x.1.2 = -1) (hA : (A.length : Int) % 2 = 1) {a b : Nat} (hab : (a = x.2 ∧ b = y.2) ∨ (a = y.2 ∧ b = x.2)) :
    Fit ω H (A ++ B) (some a) A.length := by
  obtain ⟨F, L, v⟩ := f
  have mx : x ∈ A ++ x :: y :: B := by simp
  have my : y ∈ A ++ x :: y :: B := by simp
  obtain ⟨z, hz, z1, z2, z3, z4⟩ := e.ot x mx
  have zy : z = y := e.inj hz my (z1.trans hxy.symm)
  subst zy
  have fx := v x mx sx z my hxy
  have fz := L.prd.neg x.2 (List.mem_map.2 ⟨x, mx, rfl⟩)
  rw [← hxy] at fz
  rw [hx, hy] at fx
  have L' := L
  rw [List.map_append, List.map_cons, List.map_cons] at L'
  refine ⟨F, ?_, fun c hc hs d hd hcd => v c (e.stay c hc).1 hs d (e.stay d hd).1 hcd⟩
  have := L'.closeHole hxy.symm (by rw [List.length_map]; exact hA) (L := flt ω H (some a)) ?_
  · rw [List.map_append]; rwa [List.length_map] at this
  · unfold flt float hwt
    dsimp only
    have ea : H.ring a = H.line (H.tail x.2).line := by
      unfold Heap.ring
      rcases hab with ⟨rfl, rfl⟩ | ⟨rfl, rfl⟩
      · rfl
      · rw [z4]
    have eb : (H.tail a).other = b := by
      rcases hab with ⟨rfl, rfl⟩ | ⟨rfl, rfl⟩
      · exact hxy.symm
      · exact z3
    rw [List.map_cons, eb, ea, List.map_append]
    have : - lw ω (H.line (H.tail x.2).line) = F z.2 := by omega
    rw [this]
    refine List.Perm.cons _ ?_
    rcases hab with ⟨rfl, rfl⟩ | ⟨rfl, rfl⟩
    · exact List.Perm.refl _
    · exact List.perm_append_comm

/-- What `join` does to a line's last end `x` and a line's first end `y`. -/
theorem join_facts {x y : V × Nat} (e : EF H S none) (mx : x ∈ S) (my : y ∈ S) (sx : x.1.2 = 1) (sy : y.1.2 = -1) (hxy : y.2 ≠ oth H x.2)
    {a b : Nat} (hab : (a = x.2 ∧ b = y.2) ∨ (a = y.2 ∧ b = x.2)) :
    ∃ H', H.join a b = some H' ∧
      (∀ n, oth H' n = if n = oth H x.2 then oth H y.2 else if n = oth H y.2 then oth H x.2 else oth H n) ∧
      (∀ n, (H'.tail n).line = if n = oth H x.2 ∨ n = oth H y.2 then (H.tail x.2).line else (H.tail n).line) ∧
      (∀ n, n ≠ x.2 → n ≠ y.2 → (H'.tail n).holes = if n = oth H y.2 then (H.tail n).holes ++ ((H.tail x.2).holes ++ (H.tail y.2).holes) else (H.tail n).holes) ∧
      (∀ n, n ≠ (H.tail x.2).line → H'.line n = H.line n) ∧
      (∀ ω, lw ω (H'.line (H.tail x.2).line) = lw ω (H.line (H.tail x.2).line) + ((step x.1.1.1 y.1.1.1).map ω).sum + lw ω (H.line (H.tail y.2).line)) := by
  obtain ⟨x', mx', x1, x2, x3, x4⟩ := e.ot x mx
  obtain ⟨y', my', y1, y2, y3, y4⟩ := e.ot y my
  obtain ⟨bx1, bx2⟩ := e.bk x mx sx
  obtain ⟨fy1, fy2⟩ := e.fr y my sy
  have fx' := e.fr x' mx' (by omega)
  have by' := e.bk y' my' (by omega)
  rw [x1] at fx' x4 x3
  rw [y1] at by' y4 y3
  obtain ⟨ps, j1, j2, j3, j4, j5⟩ := joinPts_spec bx2 fy2
  have hxy2 : x.2 ≠ y.2 := fun c => by have := e.inj mx my c; rw [this] at sx; omega
  have hyx : x.2 ≠ oth H y.2 := fun c => hxy (by rw [c]; exact y3.symm)
  have hoo : oth H x.2 ≠ oth H y.2 := fun c => hxy2 (by rw [← x3, c, y3])
  have hox : oth H x.2 ≠ x.2 := fun c => by
    have := e.inj mx' mx (x1.trans c); rw [this] at x2; omega
  have hoy : oth H y.2 ≠ y.2 := fun c => by
    have := e.inj my' my (y1.trans c); rw [this] at y2; omega
  generalize hox' : oth H x.2 = ox at *
  generalize hoy' : oth H y.2 = oy at *
  have ox1 : (H.tail x.2).other = ox := hox'
  have oy1 : (H.tail y.2).other = oy := hoy'
  have s := (SameH.copy H oy x.2).trans (SameH.copy (H.copyHoles oy x.2) oy y.2)
  generalize hK : (H.copyHoles oy x.2).copyHoles oy y.2 = K at *
  have hj : H.join a b = some ((K.setLine (H.tail x.2).line ps).link ox oy (H.tail x.2).line) := by
    rcases hab with ⟨rfl, rfl⟩ | ⟨rfl, rfl⟩
    · unfold Heap.join
      rw [if_neg (by rw [ox1]; exact hxy), if_neg (by rw [fy1, bx1]; simp)]
      simp only [ox1, oy1, bx1, fx'.1, Bool.false_eq_true, if_false, Bool.not_true, hK, s.line, j1, Option.map_some]
    · unfold Heap.join
      rw [if_neg (by rw [oy1]; exact hyx), if_neg (by rw [fy1, bx1]; simp)]
      simp only [ox1, oy1, fy1, by'.1, if_true, Bool.not_false, hK, s.line, j1, Option.map_some]
      rw [link_comm _ _ hoo.symm]
  refine ⟨_, hj, ?_, ?_, ?_, ?_, ?_⟩
  · intro n
    unfold oth Heap.link Heap.setLine
    dsimp only
    split_ifs
    · rfl
    · rfl
    · exact (s.t n).2.1
  · intro n
    unfold Heap.link Heap.setLine
    dsimp only
    by_cases c1 : n = ox
    · rw [if_pos c1, if_pos (Or.inl c1)]
    · rw [if_neg c1]
      by_cases c2 : n = oy
      · rw [if_pos c2, if_pos (Or.inr c2)]
      · rw [if_neg c2, if_neg (by tauto)]; exact (s.t n).1
  · intro n n1 n2
    have : (((K.setLine (H.tail x.2).line ps).link ox oy (H.tail x.2).line).tail n).holes = (K.tail n).holes := by
      unfold Heap.link Heap.setLine
      dsimp only
      split_ifs <;> rfl
    rw [this, ← hK]
    simp only [copy_holes, n1, n2, hxy2.symm, hoy.symm, hyx.symm, if_false, if_true]
    by_cases c : n = oy
    · rw [if_pos c, if_pos c, c, List.append_assoc]
    · simp [c]
  · intro n hn
    unfold Heap.link Heap.setLine
    dsimp only
    rw [if_neg hn, s.line]
  · intro ω
    unfold Heap.link Heap.setLine
    dsimp only
    rw [if_pos rfl]
    unfold lw
    rw [j2, List.map_append, List.map_append, List.sum_append, List.sum_append]

/-- Two chains are joined at neighbouring ends; `x` is the last end of its line, `y` the first one of its line. -/
theorem Fit.link {x y : V × Nat} (hS : S = A ++ x :: y :: B ∨ S = A ++ y :: x :: B) (e : EF H S none) (f : Fit ω H S none g)
    (sx : x.1.2 = 1) (sy : y.1.2 = -1) (hxy : y.2 ≠ oth H x.2) (hst : ((step x.1.1.1 y.1.1.1).map ω).sum = we ω x + we ω y)
    {a b : Nat} (hab : (a = x.2 ∧ b = y.2) ∨ (a = y.2 ∧ b = x.2)) :
    ∃ H', H.join a b = some H' ∧ Fit ω H' (A ++ B) none g := by
  have mx : x ∈ S := by rcases hS with h | h <;> rw [h] <;> simp
  have my : y ∈ S := by rcases hS with h | h <;> rw [h] <;> simp
  obtain ⟨H', hj, d1, d2, d3, d4, d5⟩ := join_facts e mx my sx sy hxy hab
  refine ⟨H', hj, ?_⟩
  obtain ⟨F, L, v⟩ := f
  have stay : ∀ z ∈ A ++ B, z ∈ S ∧ z.2 ≠ x.2 ∧ z.2 ≠ y.2 := by
    intro z hz
    rcases hS with h | h
    · subst h; exact e.stay z hz
    · subst h; exact ⟨(e.stay z hz).1, (e.stay z hz).2.2, (e.stay z hz).2.1⟩
  have back : ∀ z ∈ S, z.2 ≠ x.2 → z.2 ≠ y.2 → z ∈ A ++ B := by
    intro z hz h1 h2
    have : z ≠ x := fun c => h1 (by rw [c])
    have : z ≠ y := fun c => h2 (by rw [c])
    rcases hS with h | h <;> rw [h] at hz <;> simp only [List.mem_append, List.mem_cons] at hz ⊢ <;> tauto
  obtain ⟨x', mx', x1, x2, x3, x4⟩ := e.ot x mx
  obtain ⟨y', my', y1, y2, y3, y4⟩ := e.ot y my
  have hxy2 : x.2 ≠ y.2 := fun c => by have := e.inj mx my c; rw [this] at sx; omega
  have hyx : x.2 ≠ oth H y.2 := fun c => hxy (by rw [c, ← y1]; exact y3.symm)
  have hoo : oth H x.2 ≠ oth H y.2 := fun c => by
    rw [← x1, ← y1] at c
    exact hxy2 (by rw [← x3, c, y3])
  have hox : oth H x.2 ≠ x.2 := fun c => by
    have := e.inj mx' mx (x1.trans c); rw [this] at x2; omega
  have hoy : oth H y.2 ≠ y.2 := fun c => by
    have := e.inj my' my (y1.trans c); rw [this] at y2; omega
  have er : ∀ h, HoleOk H S h → H'.ring h = H.ring h := by
    intro h hh
    unfold Heap.ring
    have n1 : h ≠ oth H x.2 := fun c => hh.2.2 x mx (by rw [c, ← x1, x4])
    have n2 : h ≠ oth H y.2 := fun c => hh.2.2 y my (by rw [c, ← y1, y4])
    rw [d2 h, if_neg (by tauto), d4 _ (hh.2.2 x mx)]
  have hw : ∀ z ∈ A ++ B, hwt ω H' z.2 = if z.2 = oth H y.2 then hwt ω H z.2 ++ (hwt ω H x.2 ++ hwt ω H y.2) else hwt ω H z.2 := by
    intro z hz
    obtain ⟨z1, z2, z3⟩ := stay z hz
    unfold hwt
    rw [d3 z.2 z2 z3]
    have ez : (H.tail z.2).holes.map (fun h => - lw ω (H'.ring h)) = (H.tail z.2).holes.map (fun h => - lw ω (H.ring h)) :=
      List.map_congr_left (fun h hh => by rw [er h (e.kh z z1 h hh)])
    by_cases c : z.2 = oth H y.2
    · rw [if_pos c, if_pos c, List.map_append, List.map_append, ez,
        List.map_congr_left (l := (H.tail x.2).holes) (fun h hh => by rw [er h (e.kh x mx h hh)]),
        List.map_congr_left (l := (H.tail y.2).holes) (fun h hh => by rw [er h (e.kh y my h hh)])]
    · rw [if_neg c, if_neg c, ez]
  let F' : Nat → Int := fun n => if n = oth H x.2 then F (oth H x.2) + F y.2 else if n = oth H y.2 then F (oth H y.2) + F x.2 else F n
  have F1 : F' (oth H x.2) = F (oth H x.2) + F y.2 := if_pos rfl
  have F2 : F' (oth H y.2) = F (oth H y.2) + F x.2 := by simp only [F']; rw [if_neg hoo.symm]; simp
  have F3 : ∀ n, n ≠ oth H x.2 → n ≠ oth H y.2 → F' n = F n := fun n h1 h2 => by simp only [F']; rw [if_neg h1, if_neg h2]
  have o1 : oth H' (oth H x.2) = oth H y.2 := by rw [d1, if_pos rfl]
  have o2 : oth H' (oth H y.2) = oth H x.2 := by rw [d1, if_neg hoo.symm, if_pos rfl]
  have o3 : ∀ n, n ≠ oth H x.2 → n ≠ oth H y.2 → oth H' n = oth H n := fun n h1 h2 => by rw [d1, if_neg h1, if_neg h2]
  have mo : y' ∈ A ++ B := back y' my' (by rw [y1]; exact hyx.symm) (by rw [y1]; exact hoy)
  have hhx : (hwt ω H' (oth H y.2)).Perm (hwt ω H (oth H y.2) ++ (hwt ω H x.2 ++ hwt ω H y.2)) := by
    have := hw y' mo
    rw [y1, if_pos rfl] at this
    rw [this]
  have hho : ∀ t ∈ A.map Prod.snd ++ B.map Prod.snd, t ≠ oth H y.2 → hwt ω H' t = hwt ω H t := by
    intro t ht hne
    rw [← List.map_append] at ht
    obtain ⟨z, hz, rfl⟩ := List.mem_map.1 ht
    rw [hw z hz, if_neg hne]
  refine ⟨F', ?_, ?_⟩
  · rw [List.map_append]
    rcases hS with h | h
    · rw [h, List.map_append, List.map_cons, List.map_cons] at L
      exact L.link (Ne.symm hxy) (Or.inr rfl) o1 o2 (fun a _ => o3 a) F1 F2 (fun a _ => F3 a) hhx hho _
    · rw [h, List.map_append, List.map_cons, List.map_cons] at L
      exact L.link (Ne.symm hyx) (Or.inl rfl) o2 o1 (fun a _ h1 h2 => o3 a h2 h1) F2 F1 (fun a _ h1 h2 => F3 a h2 h1)
        (hhx.trans (List.perm_append_comm.append_left _)) hho _
  · intro c hc hs d hd hcd
    obtain ⟨c1, c2, c3⟩ := stay c hc
    obtain ⟨e1, e2, e3⟩ := stay d hd
    -- the front end of the new chain is the other end of `x`
    by_cases k : c.2 = oth H x.2
    · have cx : c = x' := e.inj c1 mx' (k.trans x1.symm)
      rw [k, o1] at hcd
      have dy : d = y' := e.inj e1 my' (hcd.trans y1.symm)
      have v1 := v c c1 hs x mx (by rw [cx]; exact x3.symm)
      have v2 := v y my sy d e1 (by rw [dy]; exact y1)
      have el : (H.tail (oth H x.2)).line = (H.tail x.2).line := by rw [← x1, x4]
      rw [k, F1, d2, if_pos (Or.inl rfl), d5 ω, hst, v2]
      rw [k, el] at v1
      rw [v1]; ring
    · have k2 : c.2 ≠ oth H y.2 := fun k2 => by
        have cy : c = y' := e.inj c1 my' (k2.trans y1.symm)
        rw [cy] at hs; omega
      rw [o3 _ k k2] at hcd
      rw [F3 _ k k2, d2, if_neg (by tauto), d4]
      · exact v c c1 hs d e1 hcd
      · intro el
        rcases e.ln x mx c c1 el with m | m
        · exact c2 (by rw [m])
        · exact k m

/-- An element that ends at the point, as if it stood there. -/
abbrev at' (p : Pt) (a : V × Nat) : V × Nat := (((p, p), a.1.2), a.2)

theorem we_at (h : ω (p, p) = 0) (a : V × Nat) : we ω (at' p a) = 0 := by
  unfold we dir; dsimp only; split_ifs <;> exact h

theorem map_en_two {x y : V × Nat} : ((A ++ x :: y :: B).map en).Perm (en y :: en x :: (A ++ B).map en) := by
  rw [List.map_append, List.map_cons, List.map_cons, List.map_append, List.perm_iff_count]
  intro a; simp only [List.count_append, List.count_cons]; omega

/-- A figure is closed to the left of the point: `x` is the lower, `y` the upper end. -/
theorem WebS.joinSolid {x y : V × Nat} (w : WebS ω H (A ++ x :: y :: B) none g out X) (sx : x.1.2 = 1) (sy : y.1.2 = -1) (hA : (A.length : Int) % 2 = 0)
    (hx : x.1.1.2 = p) (hy : y.1.1.2 = p) (nx : x.1.1.1 ≠ p) (ny : y.1.1.1 ≠ p) (h0 : ω (p, p) = 0) :
    ∃ H' o, H.joinChains p y.2 x.2 true = some (H', o, none) ∧ WebS ω H' (A ++ B) none g (out ++ o) (cl p y :: cl p x :: X) := by
  have w0 := w.web.permA map_en_two
  unfold en at w0
  rw [sx, sy, show (1 : Int) = -(-1) from rfl] at w0
  obtain ⟨H', o, r, ej, wj, hr⟩ := w0.joinChains (Or.inr rfl) ny nx true
  obtain rfl := hr rfl
  refine ⟨H', o, ej, ?_⟩
  have e1 : A ++ x :: y :: B = (A ++ [x]) ++ y :: B := by simp
  have w1 := w
  rw [e1] at w1
  have w1 := w1.push (a' := at' p y) rfl rfl hy rfl ny (we_at h0 y)
  have e2 : (A ++ [x]) ++ at' p y :: B = A ++ x :: at' p y :: B := by simp
  rw [e2] at w1
  have hX : (dir y.1.1.1 p (-1) :: dir x.1.1.1 p (- (-1)) :: X) = cl p y :: cl p x :: X := by unfold cl; rw [sx, sy]; rfl
  rw [hX] at wj
  have eo : ∀ t, oth (H.push y.2 p) t = oth H t := fun t => by unfold oth; rw [push_tail]
  by_cases c : oth H y.2 = x.2
  · -- one chain
    have w2 := w1.push (a' := at' p x) rfl rfl hx rfl nx (we_at h0 x)
    have eo2 : ∀ t, oth ((H.push y.2 p).push x.2 p) t = oth H t := fun t => by unfold oth; rw [push_tail, push_tail]
    have hxy : (at' p y).2 = oth ((H.push y.2 p).push x.2 p) (at' p x).2 := by
      rw [eo2]
      obtain ⟨z, hz, z1, z2, z3, z4⟩ := w.web.ef.ot y (by simp)
      have : z = x := w.web.ef.inj hz (by simp) (z1.trans c)
      rw [this] at z3
      exact z3.symm
    obtain ⟨f', gp⟩ := Fit.closeSolid w2.web.ef w2.fit hxy (we_at h0 x) (we_at h0 y) sy hA (a := y.2) (b := x.2) (Or.inr ⟨rfl, rfl⟩)
    unfold Heap.joinChains at ej
    rw [if_pos (show (H.tail y.2).other = x.2 from c)] at ej
    dsimp only at ej
    have c' : (((H.push y.2 p).push x.2 p).tail y.2).other = x.2 := by rw [push_tail, push_tail]; exact c
    rw [c', if_pos rfl] at ej
    simp only [Option.some.injEq, Prod.mk.injEq] at ej
    obtain ⟨rfl, rfl, -⟩ := ej
    exact ⟨wj, f', fun P hP => by
      rcases List.mem_append.1 hP with hP | hP
      · exact w.good P hP
      · rw [List.mem_singleton] at hP; rw [hP]; exact gp⟩
  · -- two chains
    have hxy : (at' p y).2 ≠ oth (H.push y.2 p) x.2 := by
      rw [eo]
      intro c'
      obtain ⟨z, hz, z1, z2, z3, z4⟩ := w.web.ef.ot x (by simp)
      have : z = y := w.web.ef.inj hz (by simp) (z1.trans c'.symm)
      rw [this] at z3
      exact c z3
    obtain ⟨H2, ej2, f'⟩ := Fit.link (Or.inl rfl) w1.web.ef w1.fit sx sy hxy (by
      rw [we_at h0 y]
      unfold step we dir
      rw [if_neg nx, if_pos sx, hx]; simp) (a := y.2) (b := x.2) (Or.inr ⟨rfl, rfl⟩)
    unfold Heap.joinChains at ej
    rw [if_neg (show ¬ (H.tail y.2).other = x.2 from c), ej2] at ej
    simp only [Option.map_some, Option.some.injEq, Prod.mk.injEq] at ej
    obtain ⟨rfl, rfl, -⟩ := ej
    refine ⟨wj, f', ?_⟩
    rw [List.append_nil]; exact w.good

/-- A hole is closed, or two lines around it are joined. -/
theorem WebS.joinHole {x y : V × Nat} (w : WebS ω H (A ++ x :: y :: B) none g out X) (sx : x.1.2 = -1) (sy : y.1.2 = 1) (hA : (A.length : Int) % 2 = 1)
    (hx : x.1.1.2 = p) (hy : y.1.1.2 = p) (nx : x.1.1.1 ≠ p) (ny : y.1.1.1 ≠ p) (h0 : ω (p, p) = 0) :
    ∃ H' o r, H.joinChains p y.2 x.2 false = some (H', o, r) ∧ WebS ω H' (A ++ B) r A.length (out ++ o) (cl p y :: cl p x :: X) := by
  have w0 := w.web.permA map_en_two
  unfold en at w0
  rw [sx, sy] at w0
  obtain ⟨H', o, r, ej, wj, -⟩ := w0.joinChains (Or.inl rfl) ny nx false
  refine ⟨H', o, r, ej, ?_⟩
  have e1 : A ++ x :: y :: B = (A ++ [x]) ++ y :: B := by simp
  have w1 := w
  rw [e1] at w1
  have w1 := w1.push (a' := at' p y) rfl rfl hy rfl ny (we_at h0 y)
  have e2 : (A ++ [x]) ++ at' p y :: B = A ++ x :: at' p y :: B := by simp
  rw [e2] at w1
  have hX : (dir y.1.1.1 p 1 :: dir x.1.1.1 p (-1) :: X) = cl p y :: cl p x :: X := by unfold cl; rw [sx, sy]
  rw [hX] at wj
  have eo : ∀ t, oth (H.push y.2 p) t = oth H t := fun t => by unfold oth; rw [push_tail]
  by_cases c : oth H y.2 = x.2
  · -- one chain
    have w2 := w1.push (a' := at' p x) rfl rfl hx rfl nx (we_at h0 x)
    have eo2 : ∀ t, oth ((H.push y.2 p).push x.2 p) t = oth H t := fun t => by unfold oth; rw [push_tail, push_tail]
    have hxy : (at' p y).2 = oth ((H.push y.2 p).push x.2 p) (at' p x).2 := by
      rw [eo2]
      obtain ⟨z, hz, z1, z2, z3, z4⟩ := w.web.ef.ot y (by simp)
      have : z = x := w.web.ef.inj hz (by simp) (z1.trans c)
      rw [this] at z3
      exact z3.symm
    have f' := Fit.closeHole w2.web.ef w2.fit hxy (we_at h0 x) (we_at h0 y) sx hA (a := y.2) (b := x.2) (Or.inr ⟨rfl, rfl⟩)
    unfold Heap.joinChains at ej
    rw [if_pos (show (H.tail y.2).other = x.2 from c)] at ej
    dsimp only at ej
    rw [if_neg (by simp)] at ej
    simp only [Option.some.injEq, Prod.mk.injEq] at ej
    obtain ⟨rfl, rfl, rfl⟩ := ej
    exact ⟨wj, f', by rw [List.append_nil]; exact w.good⟩
  · -- two chains
    have hxy : x.2 ≠ oth (H.push y.2 p) (at' p y).2 := by
      rw [eo]; exact Ne.symm c
    obtain ⟨H2, ej2, f'⟩ := Fit.link (x := at' p y) (y := x) (Or.inr rfl) w1.web.ef w1.fit sy sx hxy (by
      rw [we_at h0 y]
      unfold step we dir
      rw [if_neg (Ne.symm nx), if_neg (by omega), hx]; simp) (a := y.2) (b := x.2) (Or.inl ⟨rfl, rfl⟩)
    unfold Heap.joinChains at ej
    rw [if_neg (show ¬ (H.tail y.2).other = x.2 from c), ej2] at ej
    simp only [Option.map_some, Option.some.injEq, Prod.mk.injEq] at ej
    obtain ⟨rfl, rfl, rfl⟩ := ej
    refine ⟨wj, f'.gap, ?_⟩
    rw [List.append_nil]; exact w.good

/-- A pair that was just made: it counts nothing. -/
def Fresh (ω : Edge → Int) (H : Heap) (z : (V × Nat) × (V × Nat)) : Prop :=
  z.1.1.2 = 1 ∧ z.2.1.2 = -1 ∧ we ω z.1 = 0 ∧ we ω z.2 = 0 ∧ oth H z.1.2 = z.2.2 ∧ oth H z.2.2 = z.1.2 ∧ lw ω (H.line (H.tail z.2.2).line) = 0 ∧
    (H.tail z.1.2).holes = [] ∧ (H.tail z.2.2).holes = []

/-- A solid pair begins. -/
theorem WebS.open {x y : V × Nat} (w : WebS ω H (A ++ B) Fl g out X) (hx : x.2 = H.ft + 1) (hy : y.2 = H.ft) (sx : x.1.2 = 1) (sy : y.1.2 = -1)
    (px : x.1.1.1 = p) (py : y.1.1.1 = p) (wx : we ω x = 0) (wy : we ω y = 0) (hg : Fl = none ∨ g ≤ A.length) :
    H.createPair p true none = (H.newPair p true, y.2, x.2) ∧ WebS ω (H.newPair p true) (A ++ x :: y :: B) Fl g out X ∧ Fresh ω (H.newPair p true) (x, y) ∧
      ∀ z : (V × Nat) × (V × Nat), z.1 ∈ A ++ B → z.2 ∈ A ++ B → Fresh ω H z → Fresh ω (H.newPair p true) z := by
  obtain ⟨e1, w1⟩ := w.web.create0 p true
  obtain ⟨et, t1, t2, el, l1⟩ := newPair_tail H p true
  refine ⟨by rw [e1, hx, hy], ⟨?_, ?_, w.good⟩, ?_, ?_⟩
  · refine w1.permA (List.Perm.trans ?_ map_en_two.symm)
    unfold en
    rw [hx, hy, sx, sy, px, py]
    exact List.Perm.refl _
  · refine w.fit.create w.web.ef true (Or.inr ⟨hx, hy⟩) wx wy ?_
    rcases hg with h | h
    · exact Or.inl h
    · exact Or.inr (Or.inl ⟨h, rfl⟩)
  · refine ⟨sx, sy, wx, wy, ?_, ?_, ?_, ?_, ?_⟩ <;> simp only [oth, hx, hy, t1, t2, l1]
    rfl
  · intro z h1 h2 hz
    have k1 := w.web.ef.lt _ h1
    have k2 := w.web.ef.lt _ h2
    obtain ⟨z1, z2, z3, z4, z5, z6, z7, z8, z9⟩ := hz
    refine ⟨z1, z2, z3, z4, ?_, ?_, ?_, ?_, ?_⟩
    · unfold oth; rw [et _ k1.1]; exact z5
    · unfold oth; rw [et _ k2.1]; exact z6
    · rw [et _ k2.1, el _ k2.2]; exact z7
    · rw [et _ k1.1]; exact z8
    · rw [et _ k2.1]; exact z9

/-- A hole begins around pairs that were just made. -/
theorem WebS.wrap {x y : V × Nat} {Q : List ((V × Nat) × (V × Nat))} (w : WebS ω H (A ++ (flat Q ++ B)) Fl A.length out X) (hQ : ∀ z ∈ Q, Fresh ω H z)
    (hx : x.2 = H.ft + 1) (hy : y.2 = H.ft) (sx : x.1.2 = -1) (sy : y.1.2 = 1)
    (px : x.1.1.1 = p) (py : y.1.1.1 = p) (wx : we ω x = 0) (wy : we ω y = 0) :
    WebS ω (H.newPair p false) (A ++ x :: (flat Q ++ y :: B)) Fl A.length out X := by
  obtain ⟨e1, w1⟩ := w.web.create0 p false
  obtain ⟨et, t1, t2, el, l1⟩ := newPair_tail H p false
  have e := w.web.ef
  have pm : (A ++ x :: (flat Q ++ y :: B)).Perm (y :: x :: (A ++ (flat Q ++ B))) := by
    rw [List.perm_iff_count]; intro a; simp only [List.count_append, List.count_cons]; omega
  refine ⟨?_, ?_, w.good⟩
  · refine w1.permA (List.Perm.trans ?_ (pm.map en).symm)
    rw [List.map_cons, List.map_cons]
    unfold en
    rw [hx, hy, sx, sy, px, py]
    exact List.Perm.refl _
  · obtain ⟨F, L, v⟩ := w.fit
    have lt : ∀ t ∈ (A ++ (flat Q ++ B)).map Prod.snd, t < H.ft := by
      intro t ht
      obtain ⟨a, ha, rfl⟩ := List.mem_map.1 ht
      exact (e.lt a ha).1
    have o1 : oth (H.newPair p false) H.ft = H.ft + 1 := by unfold oth; rw [t1]
    have o2 : oth (H.newPair p false) (H.ft + 1) = H.ft := by unfold oth; rw [t2]
    have oold : ∀ t, t < H.ft → oth (H.newPair p false) t = oth H t := fun t ht => by unfold oth; rw [et t ht]
    have er : ∀ h, HoleOk H (A ++ (flat Q ++ B)) h → (H.newPair p false).ring h = H.ring h := by
      intro h hh
      unfold Heap.ring; rw [et h hh.1, el _ hh.2.1]
    have eh : ∀ t ∈ (A ++ (flat Q ++ B)).map Prod.snd, hwt ω (H.newPair p false) t = hwt ω H t := by
      intro t ht
      obtain ⟨a, ha, rfl⟩ := List.mem_map.1 ht
      exact hwt_same (by rw [et _ (e.lt a ha).1]) (fun h hh => er h (e.kh a ha h hh))
    have h1 : hwt ω (H.newPair p false) H.ft = [] := by unfold hwt; rw [t1]; rfl
    have h2 : hwt ω (H.newPair p false) (H.ft + 1) = [] := by unfold hwt; rw [t2]; rfl
    have ef : float (H.newPair p false) Fl = float H Fl := by
      cases Fl with
      | none => rfl
      | some h =>
        obtain ⟨_, f2, f3, _⟩ := e.fo h rfl
        unfold float
        dsimp only
        unfold oth at f3
        rw [et h f2, et _ f3]
    have ef' : flt ω (H.newPair p false) Fl = flt ω H Fl := flt_same ef (fun h hh => er h (e.fh h hh))
    have eT : ∀ C : List (V × Nat), (A ++ (flat Q ++ C)).map Prod.snd = A.map Prod.snd ++ (flatN (Q.map (fun z => (z.1.2, z.2.2))) ++ C.map Prod.snd) := by
      intro C
      rw [List.map_append, List.map_append]
      congr 2
      unfold flat flatN
      rw [List.map_flatMap, List.flatMap_map]; rfl
    have mQ : ∀ z ∈ Q, z.1 ∈ A ++ (flat Q ++ B) ∧ z.2 ∈ A ++ (flat Q ++ B) := by
      intro z hz
      have : z.1 ∈ flat Q ∧ z.2 ∈ flat Q := ⟨List.mem_flatMap.2 ⟨z, hz, by simp⟩, List.mem_flatMap.2 ⟨z, hz, by simp⟩⟩
      simp [this.1, this.2]
    refine ⟨fun t => if t < H.ft then F t else 0, ?_, ?_⟩
    · rw [List.map_append, List.map_cons, List.map_append, List.map_cons, ef', hx, hy]
      rw [eT] at L lt eh
      have := L
      rw [show (A.length : Int) = ((A.map Prod.snd).length : Int) by rw [List.length_map]] at this ⊢
      have eq : (flat Q).map Prod.snd = flatN (Q.map (fun z => (z.1.2, z.2.2))) := by
        unfold flat flatN
        rw [List.map_flatMap, List.flatMap_map]; rfl
      rw [eq]
      refine this.wrap ?_ (fun h => by have := lt _ h; omega) (fun h => by have := lt _ h; omega) (by omega) o2 o1 (fun a ha => oold a (lt a ha)) (if_neg (by omega)) (if_neg (by omega))
        (fun a ha => if_pos (lt a ha)) h2 h1 eh
      intro n hn
      obtain ⟨z, hz, rfl⟩ := List.mem_map.1 hn
      obtain ⟨z1, z2, z3, z4, z5, z6, z7, z8, z9⟩ := hQ z hz
      obtain ⟨m1, m2⟩ := mQ z hz
      have f2 := v z.2 m2 z2 z.1 m1 z6.symm
      have f1 := L.prd.neg z.1.2 (by rw [← eT]; exact List.mem_map.2 ⟨_, m1, rfl⟩)
      rw [z5] at f1
      dsimp only
      refine ⟨z5, z6, by omega, by omega, ?_, ?_⟩
      · unfold hwt; rw [z8]; rfl
      · unfold hwt; rw [z9]; rfl
    · intro a ha hs b hb hab
      have split : ∀ z ∈ A ++ x :: (flat Q ++ y :: B), z ∈ A ++ (flat Q ++ B) ∨ z = x ∨ z = y := by
        intro z hz
        have := pm.mem_iff.1 hz
        simp only [List.mem_cons] at this
        tauto
      have hz : ∀ z, z = x ∨ z = y → we ω z = 0 ∧ ¬ z.2 < H.ft ∧ ((H.newPair p false).tail z.2).line = H.fl ∧ ¬ oth (H.newPair p false) z.2 < H.ft := by
        rintro z (rfl | rfl)
        · refine ⟨wx, ?_⟩
          rw [hx, t2, o2]; exact ⟨by omega, rfl, by omega⟩
        · refine ⟨wy, ?_⟩
          rw [hy, t1, o1]; exact ⟨by omega, rfl, by omega⟩
      rcases split a ha with k | k
      · have la := (e.lt a k)
        rcases split b hb with m | m
        · rw [oold _ la.1] at hab
          dsimp only
          rw [if_pos la.1, et _ la.1, el _ la.2]
          exact v a k hs b m hab
        · exfalso
          obtain ⟨c, hc, c1, _⟩ := e.ot a k
          have := (e.lt c hc).1
          rw [c1, ← oold _ la.1, ← hab] at this
          exact (hz b m).2.1 this
      · have ka := hz a k
        rcases split b hb with m | m
        · exact absurd (hab ▸ (e.lt b m).1) ka.2.2.2
        · dsimp only
          rw [if_neg ka.2.1, ka.2.2.1, l1, ka.1, (hz b m).1]; rfl

/-- A hole finds its place at the end above its gap. -/
theorem WebS.addHole {a : V × Nat} {h g' : Nat} (w : WebS ω H (A ++ a :: B) (some h) A.length out X) (hA : (A.length : Int) % 2 = 1) :
    WebS ω (H.addHole a.2 h) (A ++ a :: B) none g' out X := by
  refine ⟨w.web.addHole (σ := a.1.2) (q := a.1.1.1) (List.mem_map.2 ⟨a, by simp, rfl⟩), w.fit.addHole w.web.ef (by simp) ?_, w.good⟩
  have hn := w.web.ef.nd
  rw [List.map_append, List.map_cons] at hn ⊢
  have h1 := List.nodup_append.1 hn
  rw [Verif.Proofs.PolyWeb.ps_append, if_neg (fun c => h1.2.2 a.2 c a.2 (by simp) rfl), List.idxOf_cons_self, List.length_map]
  unfold Verif.Proofs.PolyLam.gp
  push_cast
  omega

end Verif.ArbForm
