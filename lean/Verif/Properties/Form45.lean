import Verif.Proofs.N45Prog
import Verif.Properties.Deg45
import Verif.Properties.ArbForm
/-!
# C89: the polygons with holes of a 45-degree set
-/
namespace Verif.Properties.Form45
open Verif.Deg45 Verif.Set45 Verif.Spec.Deg45 Verif.Form45
open Verif.Spec.Arb (Ring sides windAt Proper)
open Verif.Properties.ArbForm (rings)
open Verif.Properties.Deg45 (exP exP_ok exP_even)

variable {umin umax : Int}

/-- C89: whatever set a program has built, asking it for its polygons with holes gives closed outlines, each of at least three sides, all
sides horizontal, vertical or at 45 degrees. Each polygon is proper: its outer outline winds once around what it encloses, its holes lie inside the outer
outline and apart from each other. The windings of all outlines around a point add up to one if the set covers the point, and to zero if it
does not; so by `C81_inside` each point of the set is inside exactly one polygon. The only other outcome is the exception of the scanline for crossings off the grid, which is met only if the coordinates of a polygon
with diagonal edges are not even or odd together. -/
theorem C89_polygons (hu : umin ≤ umax) {p : Prog} (h : p.Ok umin umax) {s : S45} (e : p.run umin umax = .ok s) :
    (∃ out, get umin umax s = .polys out ∧ (∀ l ∈ rings out, Ring l ∧ 3 ≤ (sides l).length ∧ ∀ a ∈ sides l, Octant a) ∧ (∀ P ∈ out, Proper P.outer P.holes) ∧
      ∀ q, ((rings out).map (fun l => windAt l q)).sum = if 0 < p.depth q then 1 else 0) ∨
    (get umin umax s = .fail .precision ∧ ¬ p.Even) := by
  rcases run_spec hu h with ⟨v, e', g⟩ | ⟨e', -⟩
  · rw [e] at e'; injection e' with e'; subst e'
    rcases N45.get_spec hu g.valid (N45.run_fit hu h e) with ⟨out, h1, h2, hp, h3⟩ | ⟨h1, h2⟩
    · refine Or.inl ⟨out, h1, fun l hl => ⟨(h2 l hl).1, (h2 l hl).2.1, fun a ha => ?_⟩, hp, fun q => by rw [← g.depth]; exact h3 q⟩
      have := (h2 l hl).2.2 a ha
      unfold F45.Oct2 at this
      unfold Octant
      omega
    · exact Or.inr ⟨h1, fun he => h2 (g.even he)⟩
  · rw [e] at e'; simp at e'

/-- A square with a hole in the form of a ring of diagonals. -/
def framed : Prog := .op (.rect .new ⟨⟨0, 12⟩, ⟨0, 12⟩⟩ false) 2
  (.poly .new [(6, 2), (10, 6), (6, 10), (2, 6)] [[(6, 4), (8, 6), (6, 8), (4, 6)]] false)

/-- Two squares that touch in a corner. -/
def board : Prog := .rect (.rect .new ⟨⟨0, 4⟩, ⟨0, 4⟩⟩ false) ⟨⟨4, 8⟩, ⟨4, 8⟩⟩ false

/-- What the program's set is turned into. -/
def polysOf (p : Prog) : Option (List ArbForm.Poly) :=
  match p.run (-100) 100 with
  | .ok s => (match get (-100) 100 s with | .polys o => some o | _ => none)
  | _ => none

example : framed.Ok (-100) 100 ∧ polysOf framed = some [⟨[(8, 6), (6, 8), (4, 6), (6, 4), (8, 6)], []⟩,
    ⟨[(12, 12), (0, 12), (0, 0), (12, 0), (12, 12)], [[(10, 6), (6, 2), (2, 6), (6, 10), (10, 6)]]⟩] := by decide +kernel

example : board.Ok (-100) 100 ∧ polysOf board = some [⟨[(4, 4), (0, 4), (0, 0), (4, 0), (4, 4)], []⟩,
    ⟨[(8, 8), (4, 8), (4, 4), (8, 4), (8, 8)], []⟩] := by decide +kernel

example : exP.Ok (-100) 100 ∧ polysOf exP = some [⟨[(7, 1), (6, 1), (6, 4), (4, 2), (4, 4), (1, 1), (2, 0), (6, 0), (7, 1)], []⟩,
    ⟨[(8, 6), (7, 7), (4, 4), (8, 4), (8, 6)], []⟩] := by decide +kernel

/-- C89: if the coordinates of every inserted polygon with diagonal edges are even or odd together, the polygons are always obtained: neither
the operations nor the formation fail, and nothing is undefined. -/
theorem C89_polygons_even (hu : umin ≤ umax) {p : Prog} (h : p.Ok umin umax) (he : p.Even) :
    ∃ s out, p.run umin umax = .ok s ∧ get umin umax s = .polys out ∧
      (∀ l ∈ rings out, Ring l ∧ 3 ≤ (sides l).length ∧ ∀ a ∈ sides l, Octant a) ∧ (∀ P ∈ out, Proper P.outer P.holes) ∧
      ∀ q, ((rings out).map (fun l => windAt l q)).sum = if 0 < p.depth q then 1 else 0 := by
  rcases run_spec hu h with ⟨s, e, -⟩ | ⟨-, ne⟩
  · rcases C89_polygons hu h e with ⟨out, h1⟩ | ⟨-, ne⟩
    · exact ⟨s, out, e, h1⟩
    · exact absurd he ne
  · exact absurd he ne

example : ∃ s out, exP.run (-100) 100 = .ok s ∧ get (-100) 100 s = .polys out ∧ (∀ l ∈ rings out, Ring l ∧ 3 ≤ (sides l).length ∧ ∀ a ∈ sides l, Octant a) ∧ (∀ P ∈ out, Proper P.outer P.holes) ∧
    ∀ q, ((rings out).map (fun l => windAt l q)).sum = if 0 < exP.depth q then 1 else 0 :=
  C89_polygons_even (by norm_num) exP_ok exP_even

end Verif.Properties.Form45
