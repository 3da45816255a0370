import Verif.Proofs.PolyGross
/-!
# The state between two vertical edges and inside one
-/
namespace Verif.Proofs.PolyCol
open Verif.PolyForm Verif.Proofs.PolyPath Verif.Proofs.PolyLam Verif.Proofs.PolyWeb Verif.Proofs.PolyInv Verif.Proofs.PolyGross Verif.Interval

/-- The ends of a hole that is not placed yet (cut open). -/
def cl (fr : Bool) (H : Heap) : Option Nat → List Nat
  | some c => if fr then [c, oth H c] else []
  | none => []

/-- What the chains count left of the column: covered cells, horizontal and vertical pieces. -/
structure Bs where
  c : Int → Int → Int
  h : Int → Int → Int
  v : Int → Int → Int

/-- Vertical pieces in the column, up to `y`, where the depth changes. -/
def gx (fm fp : Int → Int) (y j : Int) : Int := if j < y then (if fm j = fp j then 0 else 1) else 0

/-- The same with a segment open at `y`. -/
def mx (fm fp : Int → Int) (y j : Int) : Int := if j < y then (if fm j = fp j then 0 else 1) else 1

theorem mx_start {fm fp : Int → Int} (y j : Int) : mx fm fp y j = gx fm fp y j + up y j := by
  unfold mx gx up; split_ifs <;> omega

theorem gx_end {fm fp : Int → Int} {y hi : Int} (hlt : y < hi) (hm : ∀ j, y ≤ j → j < hi → fm j ≠ fp j) (j : Int) : gx fm fp hi j = mx fm fp y j - up hi j := by
  have := hm j
  unfold mx gx up; split_ifs <;> first | omega | (exfalso; exact hm j (by omega) (by omega) ‹_›)

theorem gx_skip {fm fp : Int → Int} {y lo : Int} (hlt : y < lo) (hq : ∀ j, y ≤ j → j < lo → fm j = fp j) (j : Int) : gx fm fp lo j = gx fm fp y j := by
  unfold gx; split_ifs <;> first | omega | (exfalso; exact ‹¬ fm j = fp j› (hq j (by omega) (by omega)))

def pd (fr : Bool) (cur : Option Nat) : Option Nat := if fr then none else cur

theorem nil_pd (fr : Bool) : pd fr none = none := by unfold pd; split_ifs <;> rfl

structure Mid (fr : Bool) (X : Int) (fm fp : Int → Int) (base : Bs) (y : Int) (D U : List (Int × Nat)) (c : Nat) (Z : List Nat) (s : St) : Prop where
  map : s.map = D ++ U
  srt : Srt (D ++ U)
  hD : ∀ e ∈ D, e.1 ≤ y
  hU : ∀ e ∈ U, y < e.1
  cur : s.cur = some c
  g : G fr X s.H (D.map (·.2) ++ c :: U.map (·.2)) Z
  ent : ∀ e ∈ D ++ U, Ent s.H e
  old : ∀ e ∈ U, Old X s.H e.2
  cv : vrt s.H c = true
  cp : ∃ b q, pth s.H c = X :: b :: q ∧ b ≤ y
  hfp : ∀ j, j < y → fp j = cnt D j % 2
  hfm : ∀ j, y ≤ j → fm j = (D.length + 1 + cnt U j) % 2
  nm : NmOk s.nm U
  out : ∀ n ∈ s.out, n ∈ Z
  tot : ∀ i j, i < X → tot s.H (D.map (·.2) ++ c :: U.map (·.2)) s.out none i j = base.c i j ∧ ∀ n ∈ s.out, 0 ≤ ov s.H i j n
  gr : fr = false → Gr base.h base.v X (mx fm fp y) s.H (D.map (·.2) ++ c :: U.map (·.2)) s.out none

/-- Between edges, with the edges still to come in `es`. -/
structure Gap (fr : Bool) (X : Int) (fm fp : Int → Int) (base : Bs) (es : List Ivl) (y : Int) (D U : List (Int × Nat)) (Z : List Nat) (s : St) : Prop where
  map : s.map = D ++ U
  srt : Srt (D ++ U)
  hD : ∀ e ∈ D, e.1 ≤ y
  hU : ∀ e ∈ U, y < e.1
  g : G fr X s.H (D.map (·.2) ++ cl fr s.H s.cur ++ U.map (·.2)) Z
  ent : ∀ e ∈ D ++ U, Ent s.H e
  old : ∀ e ∈ U, Old X s.H e.2 ∨ (fr = true ∧ s.cur = none ∧ (∀ d ∈ es, e.1 ≤ d.lo) ∧ ∃ b q, pth s.H e.2 = e.1 :: X :: b :: q ∧ b < e.1)
  pend : ∀ c, s.cur = some c → (∀ e ∈ U, ∃ d ∈ es, d.lo ≤ e.1) ∧ U ≠ [] ∧
    (if fr then vrt s.H c = true ∧ (∃ b q, pth s.H c = X :: b :: q ∧ b < y) ∧ vrt s.H (oth s.H c) = false ∧ (∃ x q, pth s.H (oth s.H c) = y :: x :: q ∧ x < X)
     else (c ∈ Z ∧ ∀ n ∈ s.out, n ≠ c ∧ n ≠ oth s.H c) ∧ (D.length : Int) % 2 = 1 ∧ ∀ i j, i < X → Pend s.H (D.map (·.2) ++ U.map (·.2)) c (D.length - 1) i j)
  hfp : ∀ j, j < y → fp j = cnt D j % 2
  hfm : ∀ j, y ≤ j → fm j = (D.length + cnt U j) % 2
  nm : NmOk s.nm U
  out : ∀ n ∈ s.out, n ∈ Z
  tot : ∀ i j, i < X → tot s.H (D.map (·.2) ++ cl fr s.H s.cur ++ U.map (·.2)) s.out (pd fr s.cur) i j = base.c i j ∧ ∀ n ∈ s.out, 0 ≤ ov s.H i j n
  gr : fr = false → Gr base.h base.v X (gx fm fp y) s.H (D.map (·.2) ++ cl fr s.H s.cur ++ U.map (·.2)) s.out (pd fr s.cur)

end Verif.Proofs.PolyCol
