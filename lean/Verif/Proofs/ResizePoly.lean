import Verif.Model.ResizePoly
import Verif.Spec.ResizePoly
import Verif.Proofs.PolygonInsert
/-! # Helper lemmas: displacing edges, removing collinear vertices -/
namespace Verif.ResizePoly
open Verif.Spec Verif.Polygon

/-! ### The modified vertices -/

/-- Consecutive quadruples of a path. -/
def quad {α : Type*} : List α → List (α × α × α × α)
  | a :: b :: c :: d :: r => (a, b, c, d) :: quad (b :: c :: d :: r)
  | _ => []

theorem pairs_trip {α β : Type*} (f : α → α → α → β) (L : List α) :
    pairs ((trip L).map (fun t => f t.1 t.2.1 t.2.2)) = (quad L).map (fun t => (f t.1 t.2.1 t.2.2.1, f t.2.1 t.2.2.1 t.2.2.2)) := by
  match L with
  | [] => rfl
  | [a] => rfl
  | [a, b] => rfl
  | [a, b, c] => rfl
  | a :: b :: c :: d :: r =>
    have ih := pairs_trip f (b :: c :: d :: r)
    simp only [trip, List.map_cons, pairs, quad] at ih ⊢
    rw [ih]

theorem quad_mid {α : Type*} (p : α) (L : List α) (z : α) :
    (quad (p :: L ++ [z])).map (fun t => (t.2.1, t.2.2.1)) = pairs L := by
  induction L generalizing p with
  | nil => rfl
  | cons a L ih =>
    cases L with
    | nil => rfl
    | cons b L =>
      have := ih a
      cases L with
      | nil => rfl
      | cons c L =>
        simp only [List.cons_append, quad, pairs, List.map_cons] at this ⊢
        rw [this]

theorem quad_trip1 {α : Type*} {L : List α} {t : α × α × α × α} (h : t ∈ quad L) : (t.1, t.2.1, t.2.2.1) ∈ trip L := by
  match L with
  | [] | [_] | [_, _] | [_, _, _] => simp [quad] at h
  | a :: b :: c :: d :: r =>
    simp only [quad, List.mem_cons, trip] at h ⊢
    rcases h with rfl | h
    · left; rfl
    · right
      have := quad_trip1 h
      simpa only [trip, List.mem_cons] using this

theorem quad_trip2 {α : Type*} {L : List α} {t : α × α × α × α} (h : t ∈ quad L) : (t.2.1, t.2.2.1, t.2.2.2) ∈ trip L := by
  match L with
  | [] | [_] | [_, _] | [_, _, _] => simp [quad] at h
  | a :: b :: c :: d :: r =>
    simp only [quad, List.mem_cons, trip] at h ⊢
    rcases h with rfl | h
    · right; left; rfl
    · right
      have := quad_trip2 h
      simpa only [trip, List.mem_cons] using this

theorem trip_pairs1 {α : Type*} {L : List α} {t : α × α × α} (h : t ∈ trip L) : (t.1, t.2.1) ∈ pairs L := by
  match L with
  | [] | [_] | [_, _] => simp [trip] at h
  | a :: b :: c :: r =>
    simp only [trip, List.mem_cons, pairs] at h ⊢
    rcases h with rfl | h
    · left; rfl
    · right
      have := trip_pairs1 h
      simpa only [pairs, List.mem_cons] using this

theorem trip_pairs2 {α : Type*} {L : List α} {t : α × α × α} (h : t ∈ trip L) : (t.2.1, t.2.2) ∈ pairs L := by
  match L with
  | [] | [_] | [_, _] => simp [trip] at h
  | a :: b :: c :: r =>
    simp only [trip, List.mem_cons, pairs] at h ⊢
    rcases h with rfl | h
    · right; left; rfl
    · right
      have := trip_pairs2 h
      simpa only [pairs, List.mem_cons] using this

theorem modifyGo_eq (w e s n : Int) (first second prev cur : Int × Int) (r : List (Int × Int)) :
    modifyGo w e s n first second prev cur r =
      (trip (prev :: cur :: r ++ [first, second])).map (fun t => modifyPt t.2.1 t.1 t.2.1 t.2.2 w e s n) := by
  induction r generalizing prev cur with
  | nil => rfl
  | cons c r ih => simp only [modifyGo, List.cons_append, trip, List.map_cons] at *; rw [ih]

theorem modifyPt_y (pt p c x : Int × Int) (w e s n : Int) : (modifyPt pt p c x w e s n).2 =
    if x.1 > c.1 then c.2 - s else if x.1 < c.1 then c.2 + n else if p.1 > c.1 then c.2 + n
      else if p.1 < c.1 then c.2 - s else pt.2 := by
  simp only [modifyPt, apply_ite Prod.snd, ite_self]

theorem modifyPt_x (pt p c x : Int × Int) (w e s n : Int) : (modifyPt pt p c x w e s n).1 =
    if x.2 > c.2 then c.1 + e else if x.2 < c.2 then c.1 - w else if p.2 > c.2 then c.1 - w
      else if p.2 < c.2 then c.1 + e else pt.1 := by
  simp only [modifyPt, apply_ite Prod.fst, ite_self]

/-- What happens to one quadruple of consecutive vertices. -/
theorem moved (w e s n : Int) (p a b c : Int × Int)
    (h1 : p.1 = a.1 ∨ p.2 = a.2) (h2 : a.1 = b.1 ∨ a.2 = b.2) (h3 : b.1 = c.1 ∨ b.2 = c.2)
    (s1 : ¬ (p.2 = a.2 ∧ a.2 = b.2 ∧ ((p.1 < a.1 ∧ b.1 < a.1) ∨ (a.1 < p.1 ∧ a.1 < b.1))))
    (s2 : ¬ (p.1 = a.1 ∧ a.1 = b.1 ∧ ((p.2 < a.2 ∧ b.2 < a.2) ∨ (a.2 < p.2 ∧ a.2 < b.2))))
    (s3 : ¬ (a.2 = b.2 ∧ b.2 = c.2 ∧ ((a.1 < b.1 ∧ c.1 < b.1) ∨ (b.1 < a.1 ∧ b.1 < c.1))))
    (s4 : ¬ (a.1 = b.1 ∧ b.1 = c.1 ∧ ((a.2 < b.2 ∧ c.2 < b.2) ∨ (b.2 < a.2 ∧ b.2 < c.2)))) :
    MovedOut w e s n (a, b) (modifyPt a p a b w e s n, modifyPt b a b c w e s n) := by
  unfold MovedOut
  simp only [modifyPt_x, modifyPt_y]
  refine ⟨fun g => ?_, fun g => ?_, fun g => ?_, fun g => ?_⟩ <;>
  · constructor <;> split_ifs <;> omega

theorem rect_pairs {L : List (Int × Int)} {P : List (Int × Int)} (h : Rectilinear P) (hL : ∀ x ∈ pairs L, x ∈ edges P)
    {a b : Int × Int} (hm : (a, b) ∈ pairs L) : a.1 = b.1 ∨ a.2 = b.2 := h _ (hL _ hm)

/-- The list of modified vertices along the closed path. -/
theorem modifyAll_eq (w e s n : Int) (a b : Int × Int) (r : List (Int × Int)) : ∃ Q, modifyAll w e s n (a :: b :: r) = some Q ∧
    Q.rotate 1 = (trip (a :: b :: r ++ [a, b])).map (fun t => modifyPt t.2.1 t.1 t.2.1 t.2.2 w e s n) ∧
    Q.length = (a :: b :: r).length := by
  refine ⟨_, rfl, ?_, ?_⟩
  · rw [modifyGo_eq]
    have hne : (trip (a :: b :: r ++ [a, b])).map (fun t => modifyPt t.2.1 t.1 t.2.1 t.2.2 w e s n) ≠ [] := by
      cases r <;> simp [trip]
    rw [List.getLast?_eq_some_getLast hne]
    simp only [Option.toList_some, List.singleton_append]
    rw [List.rotate_cons_succ, List.rotate_zero, List.dropLast_append_getLast]
  · rw [modifyGo_eq]
    have hl : ∀ (L : List (Int × Int)), (trip L).length = L.length - 2 := by
      intro L
      match L with
      | [] | [_] | [_, _] => rfl
      | a :: b :: c :: r =>
        have hl : ∀ (L : List (Int × Int)), (trip L).length = L.length - 2 := by
          intro L
          induction L with
          | nil => rfl
          | cons a L ih =>
            match L with
            | [] | [_] => rfl
            | b :: c :: r => simp only [trip, List.length_cons] at ih ⊢; omega
        exact hl _
    have hne : (trip (a :: b :: r ++ [a, b])).map (fun t => modifyPt t.2.1 t.1 t.2.1 t.2.2 w e s n) ≠ [] := by
      cases r <;> simp [trip]
    rw [List.getLast?_eq_some_getLast hne]
    simp only [Option.toList_some, List.length_append, List.length_cons, List.length_nil, List.length_dropLast,
      List.length_map, hl]
    omega

theorem forall₂_map_same {α β γ : Type*} (R : β → γ → Prop) (f : α → β) (g : α → γ) (l : List α)
    (h : ∀ x ∈ l, R (f x) (g x)) : List.Forall₂ R (l.map f) (l.map g) := by
  induction l with
  | nil => exact List.Forall₂.nil
  | cons a l ih => exact List.Forall₂.cons (h a (by simp)) (ih fun x hx => h x (by simp [hx]))

/-- Rotating both sides of an edge correspondence. -/
theorem edges_rot1_eq (P : List (Int × Int)) : edges (P.rotate 1) = (edges P).rotate 1 := by
  unfold edges
  exact (List.zipWith_rotate_distrib Prod.mk P (P.rotate 1) 1 (by simp)).symm

theorem forall₂_rotate1 {α β : Type*} {R : α → β → Prop} {l : List α} {m : List β}
    (h : List.Forall₂ R (l.rotate 1) (m.rotate 1)) : List.Forall₂ R l m := by
  cases l with
  | nil =>
    cases m with
    | nil => exact List.Forall₂.nil
    | cons b m => simp at h
  | cons a l =>
    cases m with
    | nil => simp at h
    | cons b m =>
      simp only [List.rotate_cons_succ, List.rotate_zero] at h
      have hl : l.length = m.length := by have := h.length_eq; simpa using this
      have h' := List.forall₂_iff_get.mp h
      have e1 : List.Forall₂ R l m := by
        refine List.forall₂_iff_get.mpr ⟨hl, fun i hi hj => ?_⟩
        have := h'.2 i (by simp; omega) (by simp; omega)
        simpa [List.getElem_append, hi, hj] using this
      refine List.Forall₂.cons ?_ e1
      have := h'.2 l.length (by simp) (by simp [hl])
      simpa [List.getElem_append, hl] using this

theorem displaced (P : List (Int × Int)) (w e s n : Int) (h2 : 2 ≤ P.length) (hr : Rectilinear P) (hs : NoSpike P) :
    ∃ Q, modifyAll w e s n P = some Q ∧ Q.length = P.length ∧ List.Forall₂ (MovedOut w e s n) (edges P) (edges Q) := by
  match P, h2 with
  | a :: b :: r, _ =>
    obtain ⟨Q, hQ, hrot, hlen⟩ := modifyAll_eq w e s n a b r
    refine ⟨Q, hQ, hlen, ?_⟩
    apply forall₂_rotate1
    rw [← edges_rot1_eq, ← edges_rot1_eq, hrot]
    -- the closed path of the rotated polygon, one vertex further at both ends
    have hP1 : (a :: b :: r).rotate 1 = b :: r ++ [a] := by simp
    have hsp := hs
    unfold NoSpike at hsp
    rw [show (a :: b :: r).rotate 1 = b :: r ++ [a] by simp, show (a :: b :: r).rotate 2 = r ++ [a, b] by simp, zip_trip] at hsp
    have hpr : ∀ x ∈ pairs (a :: b :: r ++ [a, b]), x ∈ edges (a :: b :: r) := by
      intro x hx
      rw [edges_cons]
      rw [pairs_concat] at hx
      rcases List.mem_append.mp hx with hx | hx
      · exact hx
      · rw [List.mem_singleton.mp hx]; exact List.mem_cons_self
    -- edges of the modified list
    obtain ⟨c, r', hc⟩ : ∃ c r', r ++ [a, b] = c :: r' := by
      cases r with
      | nil => exact ⟨a, [b], rfl⟩
      | cons c r => exact ⟨c, r ++ [a, b], rfl⟩
    have hQe : edges ((trip (a :: b :: r ++ [a, b])).map (fun t => modifyPt t.2.1 t.1 t.2.1 t.2.2 w e s n)) =
        pairs ((trip (a :: b :: r ++ [a, b, c])).map (fun t => modifyPt t.2.1 t.1 t.2.1 t.2.2 w e s n)) := by
      have htc : ∀ (L : List (Int × Int)) (u v x : Int × Int), trip (L ++ [u, v, x]) = trip (L ++ [u, v]) ++ [(u, v, x)] := by
        intro L u v x
        induction L with
        | nil => rfl
        | cons y L ih =>
          cases L with
          | nil => rfl
          | cons y2 L =>
            cases L with
            | nil => rfl
            | cons y3 L => simp only [List.cons_append, trip] at ih ⊢; rw [ih]
      rw [htc, List.map_append]
      simp only [List.cons_append]
      rw [hc]
      simp only [trip, List.map_cons]
      rw [edges_cons]
      rfl
    rw [hQe, pairs_trip (fun x y z => modifyPt y x y z w e s n), hP1, List.cons_append, edges_cons]
    have hpath : a :: b :: r ++ [a, b, c] = a :: (b :: (r ++ [a]) ++ [b]) ++ [c] := by simp
    rw [hpath, ← quad_mid a (b :: (r ++ [a]) ++ [b]) c]
    apply forall₂_map_same
    rintro ⟨p, x, y, z⟩ ht
    have hL : a :: (b :: (r ++ [a]) ++ [b]) ++ [c] = a :: b :: r ++ [a, b, c] := by simp
    rw [hL] at ht
    -- all pairs and triples of the extended path are those of the polygon
    have hpr2 : ∀ x ∈ pairs (a :: b :: r ++ [a, b, c]), x ∈ edges (a :: b :: r) := by
      intro x hx
      have : a :: b :: r ++ [a, b, c] = (a :: b :: r ++ [a]) ++ [b, c] := by simp
      rw [this, pairs_concat] at hx
      rcases List.mem_append.mp hx with hx | hx
      · apply hpr; simpa using hx
      · rw [List.mem_singleton.mp hx]
        apply hpr
        simp only [List.cons_append]
        rw [hc]
        simp [pairs]
    have hsp2 : ∀ t ∈ trip (a :: b :: r ++ [a, b, c]), t ∈ trip (a :: b :: r ++ [a, b]) := by
      intro t ht
      have htc : ∀ (L : List (Int × Int)) (u v x : Int × Int), trip (L ++ [u, v, x]) = trip (L ++ [u, v]) ++ [(u, v, x)] := by
        intro L u v x
        induction L with
        | nil => rfl
        | cons y L ih =>
          cases L with
          | nil => rfl
          | cons y2 L =>
            cases L with
            | nil => rfl
            | cons y3 L => simp only [List.cons_append, trip] at ih ⊢; rw [ih]
      rw [htc] at ht
      rcases List.mem_append.mp ht with ht | ht
      · exact ht
      · rw [List.mem_singleton.mp ht]
        simp only [List.cons_append]
        rw [hc]
        simp [trip]
    have t1 := quad_trip1 ht
    have t2 := quad_trip2 ht
    have q1 := hsp _ (hsp2 _ t1)
    have q2 := hsp _ (hsp2 _ t2)
    exact moved w e s n p x y z (rect_pairs hr hpr2 (trip_pairs1 t1)) (rect_pairs hr hpr2 (trip_pairs2 t1))
      (rect_pairs hr hpr2 (trip_pairs2 t2)) q1.1 q1.2 q2.1 q2.2

/-! ### Removing collinear vertices -/

/-- A sum over edges that does not see a vertex in the middle of a straight stretch. -/
structure Additive (f : (Int × Int) × (Int × Int) → Int) : Prop where
  mid : ∀ a b c, colinear a b c = true → f (a, b) + f (b, c) = f (a, c)
  same : ∀ a, f (a, a) = 0

/-- The sum over the closed polygon. -/
def csum (f : (Int × Int) × (Int × Int) → Int) (P : List (Int × Int)) : Int := ((edges P).map f).sum

theorem csum_rot (f : (Int × Int) × (Int × Int) → Int) (A B : List (Int × Int)) : csum f (A ++ B) = csum f (B ++ A) := by
  have := edges_rotate (A ++ B) A.length
  rw [List.rotate_append_length_eq] at this
  exact ((this.map f).sum_eq).symm

theorem csum_cons (f : (Int × Int) × (Int × Int) → Int) (c : Int × Int) (M : List (Int × Int)) (x : Int × Int) :
    csum f (x :: c :: M) = f (x, c) + ((pairs (c :: M)).map f).sum + f ((c :: M).getLast (by simp), x) := by
  rw [csum, edges_cons]
  have h : (c :: M) = (c :: M).dropLast ++ [(c :: M).getLast (by simp)] := (List.dropLast_append_getLast (by simp)).symm
  have h2 : pairs (c :: M ++ [x]) = pairs (c :: M) ++ [((c :: M).getLast (by simp), x)] := by
    conv_lhs => rw [h]
    rw [List.append_assoc, List.singleton_append, pairs_concat, ← h]
  simp only [List.cons_append, pairs, List.map_cons, List.sum_cons] at h2 ⊢
  rw [h2]
  simp [add_assoc]

theorem csum_remove {f : (Int × Int) × (Int × Int) → Int} (hf : Additive f) (x c : Int × Int) (M : List (Int × Int))
    (h : colinear ((c :: M).getLast (by simp)) x c = true) : csum f (x :: c :: M) = csum f (c :: M) := by
  rw [csum_cons]
  have h1 : csum f (c :: M) = ((pairs (c :: M)).map f).sum + f ((c :: M).getLast (by simp), c) := by
    rw [csum, edges_cons]
    have h : (c :: M) = (c :: M).dropLast ++ [(c :: M).getLast (by simp)] := (List.dropLast_append_getLast (by simp)).symm
    conv_lhs => rw [h]
    rw [List.append_assoc, List.singleton_append, pairs_concat, ← h]
    simp
  rw [h1, ← hf.mid _ _ _ h]
  ring

theorem collapseGo_csum {f : (Int × Int) × (Int × Int) → Int} (hf : Additive f) (prev cur : Int × Int)
    (out r : List (Int × Int)) (hp : prev = out.getLast?.getD ((cur :: r).getLast (by simp))) :
    csum f (collapseGo prev cur out r) = csum f (out ++ cur :: r) := by
  induction r generalizing prev cur out with
  | nil =>
    unfold collapseGo
    split_ifs with h
    · rw [csum_rot]
      cases out with
      | nil => simp [csum, edges, hf.same]
      | cons o out =>
        rw [List.singleton_append, csum_remove hf cur o out]
        rw [hp, List.getLast?_eq_some_getLast (by simp)] at h
        simpa using h
    · rfl
  | cons c r ih =>
    unfold collapseGo
    split_ifs with h
    · rw [ih prev c out (by
        rw [hp]; cases hl : out.getLast? <;> simp [List.getLast_cons])]
      rw [csum_rot, csum_rot f out, List.cons_append, List.cons_append, List.cons_append]
      refine (csum_remove hf cur c (r ++ out) ?_).symm
      rw [hp] at h
      cases ho : out with
      | nil => subst ho; simpa [List.getLast_cons] using h
      | cons o out' =>
        subst ho
        rw [List.getLast?_eq_some_getLast (by simp)] at h
        rw [show (c :: (r ++ o :: out')).getLast (by simp) = (o :: out').getLast (by simp) from
          List.getLast_append_of_right_ne_nil (c :: r) (o :: out') (by simp)]
        simpa using h
    · rw [ih cur c (out ++ [cur]) (by simp)]
      simp

theorem collapse_csum {f : (Int × Int) × (Int × Int) → Int} (hf : Additive f) (P : List (Int × Int)) :
    csum f (collapse P) = csum f P := by
  cases P with
  | nil => rfl
  | cons a r => exact collapseGo_csum hf _ a [] r (by simp)

theorem removeColinear_csum {f : (Int × Int) × (Int × Int) → Int} (hf : Additive f) (P : List (Int × Int)) :
    csum f (removeColinear P) = csum f P := by
  induction hn : P.length using Nat.strong_induction_on generalizing P with
  | _ k ih =>
    unfold removeColinear
    split_ifs with h1 h2
    · rw [ih _ (by omega) _ rfl, collapse_csum hf]
    · exact collapse_csum hf P
    · rfl

theorem additive_wE (x y : Int) : Additive (wE x y) := by
  constructor
  · intro a b c h
    simp only [colinear, Bool.or_eq_true, Bool.and_eq_true, beq_iff_eq] at h
    unfold wE
    dsimp only
    split_ifs <;> omega
  · intro a; simp [wE]

theorem removeColinear_wind (P : List (Int × Int)) (q : ℚ × ℚ) : wind (removeColinear P) q = wind P q := by
  rw [wind_eq, wind_eq]; exact removeColinear_csum (additive_wE _ _) P

/-- Indicator of a slanted edge. -/
def slant (e : (Int × Int) × (Int × Int)) : Int := if e.1.1 = e.2.1 ∨ e.1.2 = e.2.2 then 0 else 1

theorem additive_slant : Additive slant := by
  constructor
  · intro a b c h
    simp only [colinear, Bool.or_eq_true, Bool.and_eq_true, beq_iff_eq] at h
    unfold slant
    dsimp only
    split_ifs <;> omega
  · intro a; simp [slant]

theorem rect_iff_slant (P : List (Int × Int)) : Rectilinear P ↔ csum slant P = 0 := by
  unfold Rectilinear csum
  induction edges P with
  | nil => simp
  | cons e E ih =>
    have hnn : 0 ≤ (E.map slant).sum := by
      apply List.sum_nonneg
      intro z hz
      obtain ⟨e, -, rfl⟩ := List.mem_map.mp hz
      unfold slant; split_ifs <;> omega
    simp only [List.mem_cons, forall_eq_or_imp, List.map_cons, List.sum_cons, ih]
    unfold slant at hnn ⊢
    split_ifs with h
    · simp [h]
    · simp only [h, false_and, false_iff]; omega

theorem removeColinear_rect {P : List (Int × Int)} (h : Rectilinear P) : Rectilinear (removeColinear P) := by
  rw [rect_iff_slant] at *
  rw [removeColinear_csum additive_slant, h]

/-- When a pass removes nothing no three consecutive vertices are collinear. -/
theorem collapseGo_full (prev cur : Int × Int) (out r : List (Int × Int)) (d : Int × Int)
    (h : (collapseGo prev cur out r).length = out.length + 1 + r.length) (hd : out = [] → ∀ x, (cur :: r).head? = some x → x = d)
    (hd' : out ≠ [] → out.headD cur = d) :
    collapseGo prev cur out r = out ++ cur :: r ∧
    ∀ t ∈ trip (prev :: cur :: r ++ [d]), colinear t.1 t.2.1 t.2.2 = false := by
  induction r generalizing prev cur out with
  | nil =>
    unfold collapseGo at h ⊢
    split_ifs at h ⊢ with g
    · simp at h
    · refine ⟨rfl, ?_⟩
      intro t ht
      simp only [List.cons_append, List.nil_append, trip, List.mem_singleton] at ht
      subst ht
      have : out.headD cur = d := by
        cases out with
        | nil => exact hd rfl cur rfl
        | cons o out => exact hd' (by simp)
      rw [← this]
      simpa using g
  | cons c r ih =>
    unfold collapseGo at h ⊢
    split_ifs at h ⊢ with g
    · have := collapseGo_length prev c out r
      simp only [List.length_cons] at h; omega
    · have := ih cur c (out ++ [cur]) (by simp only [List.length_append, List.length_cons, List.length_nil] at h ⊢; omega)
        (by simp) (by
          intro _
          cases out with
          | nil => exact hd rfl cur rfl
          | cons o out => exact hd' (by simp))
      refine ⟨by rw [this.1]; simp, ?_⟩
      intro t ht
      simp only [List.cons_append, trip, List.mem_cons] at ht this
      rcases ht with rfl | ht
      · simpa using g
      · exact this.2 t ht

theorem removeColinear_spec (P : List (Int × Int)) : (removeColinear P).length < 4 ∨
    ∀ t ∈ (removeColinear P).zip (((removeColinear P).rotate 1).zip ((removeColinear P).rotate 2)),
      ¬ Collinear90 t.1 t.2.1 t.2.2 := by
  induction hn : P.length using Nat.strong_induction_on generalizing P with
  | _ k ih =>
    by_cases h1 : P.length ≥ 4
    · by_cases h2 : (collapse P).length < P.length
      · have e : removeColinear P = removeColinear (collapse P) := by
          rw [removeColinear, if_pos h1, if_pos h2]
        rw [e]; exact ih _ (by omega) _ rfl
      · have hl := collapse_length P
        have e : removeColinear P = collapse P := by rw [removeColinear, if_pos h1, if_neg h2]
        right
        match P, h1 with
        | a :: b :: r, h1 =>
          have hf := collapseGo_full ((a :: b :: r).getLast (by simp)) a [] (b :: r) a
            (by simp only [collapse] at hl h2; simp only [List.length_cons, List.length_nil] at *; omega) (by simp) (by simp)
          have e2 : collapse (a :: b :: r) = a :: b :: r := by simpa [collapse] using hf.1
          rw [e, e2, show (a :: b :: r).rotate 1 = b :: r ++ [a] by simp, show (a :: b :: r).rotate 2 = r ++ [a, b] by simp, zip_trip]
          intro t ht hc
          have hcol : colinear t.1 t.2.1 t.2.2 = true := by
            simp only [colinear, Bool.or_eq_true, Bool.and_eq_true, beq_iff_eq]
            rcases hc with hc | hc
            · left; exact ⟨hc.1, hc.1.trans hc.2⟩
            · right; exact ⟨hc.1, hc.1.trans hc.2⟩
          -- the last triple comes first in the pass
          have key : t ∈ trip ((a :: b :: r).getLast (by simp) :: a :: b :: r ++ [a]) := by
            have hlast : a :: b :: r = (a :: b :: r).dropLast ++ [(a :: b :: r).getLast (by simp)] :=
              (List.dropLast_append_getLast (by simp)).symm
            have htc : ∀ (L : List (Int × Int)) (u v x : Int × Int), trip (L ++ [u, v, x]) = trip (L ++ [u, v]) ++ [(u, v, x)] := by
              intro L u v x
              induction L with
              | nil => rfl
              | cons y L ih =>
                cases L with
                | nil => rfl
                | cons y2 L =>
                  cases L with
                  | nil => rfl
                  | cons y3 L => simp only [List.cons_append, trip] at ih ⊢; rw [ih]
            have e3 : a :: b :: r ++ [a, b] = (a :: b :: r).dropLast ++ [(a :: b :: r).getLast (by simp), a, b] := by
              conv_lhs => rw [hlast]
              simp
            rw [e3, htc] at ht
            have e4 : (a :: b :: r).dropLast ++ [(a :: b :: r).getLast (by simp), a] = a :: b :: r ++ [a] := by
              conv_rhs => rw [hlast]
              simp
            rw [e4] at ht
            simp only [List.cons_append, trip, List.mem_cons] at ht ⊢
            rcases List.mem_append.mp ht with ht | ht
            · right; exact ht
            · left; simpa using ht
          have := hf.2 t key
          rw [hcol] at this
          exact absurd this (by simp)
    · left; rw [removeColinear, if_neg h1]; omega

end Verif.ResizePoly
