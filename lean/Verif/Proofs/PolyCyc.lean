import Verif.Proofs.PolyGross
import Verif.Proofs.PolyLoop
/-!
# Pieces of a closed loop do not depend on where it starts or which way it runs
-/
namespace Verif.Proofs.PolyCyc
open Verif.PolyForm Verif.Proofs.PolyGross Verif.Proofs.PolyInv Verif.Proofs.PolyWeb Verif.Proofs.PolyLoop

variable {w : Wt}

/-- A closed loop whose first coordinate is an x when `v`. -/
def Lv (w : Wt) (v : Bool) (p : List Int) : Int := K w v (p ++ p.take 2)

theorem Lv_rot {a : Int} {r : List Int} (he : (a :: r).length % 2 = 0) (h4 : 4 ≤ (a :: r).length) (v : Bool) : Lv w (!v) (r ++ [a]) = Lv w v (a :: r) := by
  match r with
  | [] => simp at he
  | [b] => simp at h4
  | b :: c :: r =>
    unfold Lv
    have e1 : b :: c :: r ++ [a] ++ (b :: c :: r ++ [a]).take 2 = (b :: c :: r) ++ [a, b, c] := by simp
    have e2 : (a :: b :: c :: r) ++ (a :: b :: c :: r).take 2 = a :: b :: c :: (r ++ [a, b]) := by simp
    rw [e1, e2, K_snoc, K, show (b :: c :: r) ++ [a, b] = b :: c :: (r ++ [a, b]) by simp]
    have : par (b :: c :: r).length (!v) = v := by
      simp only [List.length_cons] at he ⊢
      unfold par; rw [if_neg (by omega)]; simp
    rw [this]; ring

theorem Lv_reverse {p : List Int} (he : p.length % 2 = 0) (h4 : 4 ≤ p.length) (v : Bool) : Lv w v p.reverse = Lv w (!v) p := by
  obtain ⟨q, y, z, rfl⟩ : ∃ q y z, p = q ++ [y, z] := by
    rcases List.eq_nil_or_concat' p with rfl | ⟨q, z, rfl⟩
    · simp at h4
    · rcases List.eq_nil_or_concat' q with rfl | ⟨q, y, rfl⟩
      · simp at h4
      · exact ⟨q, y, z, by simp⟩
  have h1 : Lv w (!v) (q ++ [y, z]) = Lv w (!v) (y :: z :: q) := by
    have a1 := Lv_rot (w := w) (a := y) (r := z :: q) (by simp at he ⊢; omega) (by simp at h4 ⊢; omega) (!v)
    have a2 := Lv_rot (w := w) (a := z) (r := q ++ [y]) (by simp at he ⊢; omega) (by simp at h4 ⊢; omega) (!!v)
    rw [← a1, show z :: q ++ [y] = z :: (q ++ [y]) by simp, ← a2]; simp
  rw [h1]
  unfold Lv
  have e1 : (q ++ [y, z]).reverse ++ ((q ++ [y, z]).reverse).take 2 = (y :: z :: q ++ [y, z]).reverse := by simp
  have e2 : (y :: z :: q) ++ (y :: z :: q).take 2 = y :: z :: q ++ [y, z] := by simp
  rw [e1, e2, ← K_reverse (y :: z :: q ++ [y, z]) (!v)]
  congr 1
  unfold lastT
  simp only [List.length_append, List.length_cons, List.length_nil] at he ⊢
  rw [if_pos (by omega)]; simp

theorem swap_hv (i y : Int) : ∀ (p : List Int) (v : Bool), K (vW y i) v p = K (hW i y) (!v) p
  | [], _ => by simp [K]
  | [_], _ => by simp [K]
  | [_, _], _ => by simp [K]
  | a :: b :: c :: r, v => by
    rw [K, K, swap_hv i y (b :: c :: r) (!v)]
    cases v <;> simp [vW, hW]

theorem swap_vh (i j : Int) (p : List Int) (v : Bool) : K (hW j i) v p = K (vW i j) (!v) p := by
  rw [swap_hv j i p (!v), Bool.not_not]

/-- Horizontal and vertical pieces in the frame of the scan. -/
def ph (orient : Nat) (c : List Int) (i y : Int) : Int := if orient = Verif.Isotropy.HORIZONTAL then Lp (vW y i) c else Lp (hW i y) c
def pv (orient : Nat) (c : List Int) (i j : Int) : Int := if orient = Verif.Isotropy.HORIZONTAL then Lp (hW j i) c else Lp (vW i j) c

theorem Lv_rot' {p : List Int} (hl : LoopP p) (v : Bool) : Lv w (!v) (rot p) = Lv w v p := by
  obtain ⟨h1, h2, _⟩ := hl
  match p with
  | [] => simp at h2
  | a :: r => exact Lv_rot h1 h2 v

theorem fig_pieces {X : Int} {H : Heap} {S Z : List Nat} (hz : ZOk X H S Z) {n : Nat} (hn : n ∈ Z) (isHole : Bool) (orient : Nat) (i y : Int) :
    ph orient (figure H n isHole orient) i y = Lp (hW i y) (pth H n) ∧ pv orient (figure H n isHole orient) i y = Lp (vW i y) (pth H n) := by
  have hl := hz.loop n hn
  have hr := hz.rev n hn
  obtain ⟨v1, v2⟩ := hz.vt n hn
  unfold pth at hr hl
  unfold vrt oth at v2
  unfold vrt at v1
  unfold oth at hr
  have hlr := loop_reverse hl
  have rr : ∀ (w : Wt) v, Lv w v (H.tail n).path.reverse = Lv w (!v) (H.tail n).path := fun w v => Lv_reverse hl.1 hl.2.1 v
  have s1 : ∀ c, Lp (vW y i) c = Lv (hW i y) false c := fun c => by unfold Lp Lv; rw [swap_hv]; rfl
  have s2 : ∀ c, Lp (hW y i) c = Lv (vW i y) false c := fun c => by unfold Lp Lv; rw [swap_vh]; rfl
  have s3 : ∀ (w : Wt) c, Lp w c = Lv w true c := fun _ _ => rfl
  unfold figure ph pv pth
  by_cases ho : orient = Verif.Isotropy.HORIZONTAL
  · subst ho
    cases isHole
    · simp only [Bool.not_false, beq_self_eq_true, Bool.xor_self, Bool.false_eq_true, if_false, v1, Bool.not_true, Bool.false_xor, if_true]
      rw [show (H.tail n).path.tail ++ (H.tail n).path.take 1 = rot (H.tail n).path from rfl, s1, s2, ← Bool.not_true, Lv_rot' hl, Lv_rot' hl]
      exact ⟨rfl, rfl⟩
    · simp only [Bool.not_true, beq_self_eq_true, Bool.false_xor, if_true, v2, Bool.not_false, Bool.xor_self, Bool.false_eq_true, if_false, hr]
      rw [s1, s2, rr, rr]
      exact ⟨rfl, rfl⟩
  · have ho' : (orient == Verif.Isotropy.HORIZONTAL) = false := by simpa using ho
    simp only [ho', if_neg ho]
    cases isHole
    · simp only [Bool.not_false, Bool.xor_false, if_true, v2, hr, Bool.false_eq_true, if_false]
      rw [show (H.tail n).path.reverse.tail ++ (H.tail n).path.reverse.take 1 = rot (H.tail n).path.reverse from rfl, s3, s3, ← Bool.not_false, Lv_rot' hlr, s3, ← Bool.not_false, Lv_rot' hlr, rr, rr]
      exact ⟨rfl, rfl⟩
    · simp only [Bool.not_true, Bool.xor_false, Bool.false_eq_true, if_false, v1, if_true]
      trivial

end Verif.Proofs.PolyCyc
