import Mathlib.Tactic.SplitIfs
import Mathlib.Tactic.Ring
import Mathlib.Tactic.Linarith
import Mathlib.Data.List.Basic
/-!
# Paths of alternating coordinates: the part of the plane to their right

`F i j v p` sums, over the x coordinates of the path `p` that have both neighbours, whether the
vertical segment at that x passes the row `j` left of column `i`: downward +1, upward -1. `v` tells
that the first coordinate of `p` is an x.
-/
namespace Verif.Proofs.PolyPath

def st (j y : Int) : Int := if j < y then 1 else 0
def tm (i j x a b : Int) : Int := if x ≤ i then st j a - st j b else 0

def F (i j : Int) : Bool → List Int → Int
  | v, a :: b :: c :: r => (if v then 0 else tm i j b a c) + F i j (!v) (b :: c :: r)
  | _, _ => 0

/-- Every x coordinate is at most `X`. -/
def Xle (X : Int) : Bool → List Int → Prop
  | _, [] => True
  | v, a :: r => (v = true → a ≤ X) ∧ Xle X (!v) r

/-- No segment has length zero: coordinates two apart differ. -/
def ND : List Int → Prop
  | a :: b :: c :: r => a ≠ c ∧ ND (b :: c :: r)
  | _ => True

theorem F_nil (i j : Int) (v : Bool) : F i j v [] = 0 := by simp [F]
theorem F_one (i j : Int) (v : Bool) (a : Int) : F i j v [a] = 0 := by simp [F]
theorem F_two (i j : Int) (v : Bool) (a b : Int) : F i j v [a, b] = 0 := by simp [F]

theorem F_x (i j : Int) (x : Int) (r : List Int) : F i j true (x :: r) = F i j false r := by
  match r with
  | [] => simp [F]
  | [b] => simp [F]
  | b :: c :: r => simp [F]

theorem F_y (i j : Int) (y x y' : Int) (r : List Int) : F i j false (y :: x :: y' :: r) = tm i j x y y' + F i j false (y' :: r) := by
  rw [F, Bool.not_false, F_x]; simp

theorem tm_gt {i j x a b : Int} (h : i < x) : tm i j x a b = 0 := by rw [tm, if_neg (by omega)]

theorem F_y_gt {i j y x : Int} (h : i < x) (r : List Int) : F i j false (y :: x :: r) = F i j false r := by
  match r with
  | [] => simp [F]
  | c :: r => rw [F_y, tm_gt h, Int.zero_add]

/-- A path splits at an x coordinate right of the column. -/
theorem F_split {i X : Int} (hX : i < X) (j : Int) (q : List Int) :
    ∀ (p : List Int) (v : Bool), v = decide (p.length % 2 = 0) → F i j v (p ++ X :: q) = F i j v p + F i j false q
  | [], v, h => by
    have : v = true := by simpa using h
    subst this; rw [List.nil_append, F_x, F_nil, Int.zero_add]
  | a :: p, true, h => by
    have hp : false = decide (p.length % 2 = 0) := by
      simp only [List.length_cons] at h
      have := of_decide_eq_true h.symm
      symm; rw [decide_eq_false_iff_not]; omega
    rw [List.cons_append, F_x, F_x, F_split hX j q p false hp]
  | [a], false, h => by rw [List.singleton_append, F_y_gt hX, F_one, Int.zero_add]
  | [a, b], false, h => by simp at h
  | a :: b :: c :: p, false, h => by
    have hp : false = decide ((c :: p).length % 2 = 0) := by
      simp only [List.length_cons] at h ⊢
      have := of_decide_eq_false h.symm
      symm; rw [decide_eq_false_iff_not]; omega
    rw [List.cons_append, List.cons_append, List.cons_append, F_y, F_y, ← List.cons_append, F_split hX j q (c :: p) false hp]
    ring

theorem F_snoc (i j a b c : Int) : ∀ (p : List Int) (v : Bool),
    F i j v (p ++ [a, b, c]) = F i j v (p ++ [a, b]) + (if v = decide (p.length % 2 = 0) then 0 else tm i j b a c)
  | [], v => by cases v <;> simp [F]
  | [d], v => by
    rw [List.singleton_append, List.singleton_append, F, F, F, F_two, F_two]
    cases v <;> simp
  | d :: e :: p, v => by
    have ih := F_snoc i j a b c (e :: p) (!v)
    cases p with
    | nil =>
      simp only [List.cons_append, List.nil_append] at ih ⊢
      rw [F, ih, F.eq_1 (a := d)]
      simp
      cases v <;> simp; ring
    | cons f p =>
      simp only [List.cons_append] at ih ⊢
      rw [F, ih, F.eq_1 (a := d)]
      have : (if (!v) = decide ((e :: f :: p).length % 2 = 0) then (0 : Int) else tm i j b a c) =
          (if v = decide ((d :: e :: f :: p).length % 2 = 0) then 0 else tm i j b a c) := by
        congr 1
        simp only [List.length_cons]
        have e1 : (p.length + 1 + 1 + 1) % 2 = 0 ↔ ¬ (p.length + 1 + 1) % 2 = 0 := by omega
        by_cases h : (p.length + 1 + 1) % 2 = 0 <;> cases v <;> simp [e1, h]
      rw [this]; ring

theorem tm_swap (i j x a b : Int) : tm i j x a b = - tm i j x b a := by unfold tm; split_ifs <;> ring

/-- Reading a path from the other end changes the sign. -/
theorem F_reverse (i j : Int) : ∀ (p : List Int) (v : Bool), F i j (if p.length % 2 = 0 then !v else v) p.reverse = - F i j v p
  | [], v => by simp [F]
  | [a], v => by simp [F]
  | [a, b], v => by simp [F]
  | a :: b :: c :: r, v => by
    have ih := F_reverse i j (b :: c :: r) (!v)
    have e : (a :: b :: c :: r).reverse = r.reverse ++ [c, b, a] := by simp
    have e' : (b :: c :: r).reverse = r.reverse ++ [c, b] := by simp
    rw [e, F_snoc, ← e', F, List.length_reverse]
    have hw : (if (a :: b :: c :: r).length % 2 = 0 then !v else v) = (if (b :: c :: r).length % 2 = 0 then !!v else !v) := by
      simp only [List.length_cons]
      by_cases h : (r.length + 1 + 1) % 2 = 0
      · rw [if_pos h, if_neg (by omega)]; simp
      · rw [if_neg h, if_pos (by omega)]
    rw [hw, ih]
    rw [tm_swap i j b c a]
    simp only [List.length_cons]
    by_cases h : r.length % 2 = 0
    · simp only [(by omega : (r.length + 1 + 1) % 2 = 0), h]; cases v <;> simp <;> ring
    · simp only [h]; cases v <;> simp <;> (intro hh; omega)

/-- Right of all its x coordinates a path counts where it starts and where it ends. -/
theorem F_tele (i j : Int) : ∀ (p : List Int) (y z : Int), p.length % 2 = 1 → p.head? = some y → p.getLast? = some z →
    Xle i false p → F i j false p = st j y - st j z
  | [], _, _, h, _, _, _ => by simp at h
  | [a], y, z, _, h1, h2, _ => by simp at h1 h2; subst h1; subst h2; rw [F_one]; ring
  | [a, b], _, _, h, _, _, _ => by simp at h
  | a :: x :: b :: r, y, z, h, h1, h2, hx => by
    simp only [List.head?_cons, Option.some.injEq] at h1; subst h1
    have hx' : x ≤ i ∧ Xle i false (b :: r) := by simpa [Xle] using hx
    have := F_tele i j (b :: r) b z (by simp only [List.length_cons] at h ⊢; omega) rfl (by simpa [List.getLast?_cons_cons] using h2) hx'.2
    rw [F_y, this, tm, if_pos hx'.1]; ring

theorem Xle_mono {X Y : Int} (h : X ≤ Y) : ∀ (p : List Int) (v : Bool), Xle X v p → Xle Y v p
  | [], _, _ => trivial
  | _ :: r, v, hp => ⟨fun e => by have := hp.1 e; omega, Xle_mono h r _ hp.2⟩

theorem Xle_append (X : Int) : ∀ (p q : List Int) (v : Bool),
    Xle X v (p ++ q) ↔ Xle X v p ∧ Xle X (if p.length % 2 = 0 then v else !v) q
  | [], q, v => by simp [Xle]
  | a :: p, q, v => by
    rw [List.cons_append, Xle, Xle, Xle_append X p q (!v), and_assoc]
    have : (if p.length % 2 = 0 then !v else !!v) = (if (a :: p).length % 2 = 0 then v else !v) := by
      simp only [List.length_cons]
      by_cases h : p.length % 2 = 0
      · rw [if_pos h, if_neg (by omega)]
      · rw [if_neg h, if_pos (by omega)]; simp
    rw [this]

theorem Xle_reverse (X : Int) : ∀ (p : List Int) (v : Bool), Xle X v p → Xle X (if p.length % 2 = 0 then !v else v) p.reverse
  | [], _, _ => trivial
  | a :: p, v, h => by
    have ih := Xle_reverse X p (!v) h.2
    rw [List.reverse_cons, Xle_append]
    simp only [List.length_cons, List.length_reverse]
    by_cases hp : p.length % 2 = 0
    · rw [if_neg (by omega : ¬ (p.length + 1) % 2 = 0)]
      rw [if_pos hp] at ih ⊢
      exact ⟨by simpa using ih, h.1, trivial⟩
    · rw [if_pos (by omega : (p.length + 1) % 2 = 0)]
      rw [if_neg hp] at ih ⊢
      exact ⟨ih, by simpa using h.1, trivial⟩

theorem ND_snoc (a b c : Int) : ∀ p : List Int, ND (p ++ [a, b, c]) ↔ ND (p ++ [a, b]) ∧ a ≠ c
  | [] => by simp [ND]
  | [d] => by simp [ND]
  | d :: e :: p => by
    have ih := ND_snoc a b c (e :: p)
    cases p with
    | nil => simp only [List.cons_append, List.nil_append] at ih ⊢; rw [ND, ih, ND.eq_1 (a := d), and_assoc]
    | cons f p => simp only [List.cons_append] at ih ⊢; rw [ND, ih, ND.eq_1 (a := d), and_assoc]

theorem ND_reverse : ∀ p : List Int, ND p → ND p.reverse
  | [], _ => by simp [ND]
  | [a], _ => by simp [ND]
  | [a, b], _ => by simp [ND]
  | a :: b :: c :: r, h => by
    have ih := ND_reverse (b :: c :: r) h.2
    have e : (a :: b :: c :: r).reverse = r.reverse ++ [c, b, a] := by simp
    have e' : (b :: c :: r).reverse = r.reverse ++ [c, b] := by simp
    rw [e, ND_snoc, ← e']
    exact ⟨ih, fun x => h.1 x.symm⟩

theorem ND_tail {a : Int} {p : List Int} (h : ND (a :: p)) : ND p := by
  match p, h with
  | [], _ => trivial
  | [b], _ => trivial
  | b :: c :: r, h => exact h.2

/-- Two paths without zero-length segments join if the two segments at the joint are none. -/
theorem ND_append (b a c d : Int) (q : List Int) (h1 : b ≠ c) (h2 : a ≠ d) (hq : ND (c :: d :: q)) :
    ∀ p : List Int, ND (p ++ [b, a]) → ND (p ++ [b, a] ++ c :: d :: q)
  | [], _ => ⟨h1, h2, hq⟩
  | [e], h => by
    have h : e ≠ a := by simpa [ND] using h
    exact ⟨h, h1, h2, hq⟩
  | e :: f :: p, h => by
    have ih := ND_append b a c d q h1 h2 hq (f :: p)
    cases p with
    | nil => simp only [List.cons_append, List.nil_append] at ih h ⊢; exact ⟨h.1, ih h.2⟩
    | cons g p => simp only [List.cons_append] at ih h ⊢; exact ⟨h.1, ih h.2⟩

end Verif.Proofs.PolyPath
