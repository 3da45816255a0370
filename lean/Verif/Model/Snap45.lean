import Mathlib.Algebra.Order.Group.Unbundled.Int
import Verif.Model.Transform
import Verif.Model.ArbForm
/-!
# Model of `snap_to_45` and of `scale_down` for 45-degree polygons

`/repo/include/boost/polygon/polygon_traits.hpp` lines 738-905. Coordinates are unbounded integers.
-/
namespace Verif.Snap45

abbrev Pt := Int × Int

/-- `std::unique`, line 748: of every run of equal consecutive points the first is kept. -/
def uniqueGo (last : Pt) : List Pt → List Pt
  | [] => []
  | p :: r => if p = last then uniqueGo last r else p :: uniqueGo p r

/-- Lines 748-752: repeated points are removed, and the last point if it is the first one again. -/
def distinct : List Pt → List Pt
  | [] => []
  | a :: r =>
    let l := a :: uniqueGo a r
    if l.getLast? = some a then l.dropLast else l

/-- The body of the loop, lines 757-819, for `pt1`, `pt2`, `pt3`: the new `pt2`, and whether line 799 finds an odd difference. -/
def adjust (pt1 pt2 pt3 : Pt) : Pt × Bool :=
  let deltax := pt2.1 - pt1.1
  let deltay := pt2.2 - pt1.2
  if deltax ≠ 0 ∧ deltay ≠ 0 ∧ |deltax| ≠ |deltay| then
    let ndx := pt3.1 - pt2.1
    let ndy := pt3.2 - pt2.2
    if ndx ≠ 0 ∧ ndy ≠ 0 then
      let diff := abs (|deltax| - |deltay|)
      let halfdiff := diff.tdiv 2
      let odd := diff.tmod 2
      let p :=
        if (deltax > 0 ∧ deltay > 0) ∨ (deltax < 0 ∧ deltay < 0) then
          if |deltax + halfdiff + odd| = |deltay - halfdiff| then (pt2.1 + halfdiff + odd, pt2.2 - halfdiff)
          else if |deltax - halfdiff - odd| = |deltay + halfdiff| then (pt2.1 - halfdiff - odd, pt2.2 + halfdiff)
          else pt2
        else
          if |deltax + halfdiff + odd| = |deltay + halfdiff| then (pt2.1 + halfdiff + odd, pt2.2 + halfdiff)
          else if |deltax - halfdiff - odd| = |deltay - halfdiff| then (pt2.1 - halfdiff - odd, pt2.2 - halfdiff)
          else pt2
      (p, odd != 0)
    else if ndx ≠ 0 then
      let newDeltaX := |deltay|
      let newDeltaX := if deltax < 0 then newDeltaX * -1 else newDeltaX
      ((pt1.1 + newDeltaX, pt2.2), false)
    else
      let newDeltaY := |deltax|
      let newDeltaY := if deltay < 0 then newDeltaY * -1 else newDeltaY
      ((pt2.1, pt1.2 + newDeltaY), false)
  else (pt2, false)

/-- The point at a position of the vector. -/
def at' (pts : List Pt) (i : Nat) : Pt := pts.getD i (0, 0)

/-- One round of the loop, lines 757-819. -/
def stepAt (n : Nat) (s : List Pt × Bool) (i : Nat) : List Pt × Bool :=
  let r := adjust (at' s.1 i) (at' s.1 ((i + 1) % n)) (at' s.1 ((i + 2) % n))
  (s.1.set ((i + 1) % n) r.1, r.2)

/-- The rounds `0` to `n - 1`; the second component is that of the last round, the only one line 799 looks at. -/
def pass (n : Nat) (pts : List Pt) : List Pt × Bool := (List.range n).foldl (stepAt n) (pts, false)

/-- `snap_point_vector_to_45`, lines 744-821: after an odd difference in the last round the loop starts again, once. -/
def snapPoints (P : List Pt) : List Pt :=
  if P.length < 3 then []
  else
    let pts := distinct P
    let r := pass pts.length pts
    if r.2 then (pass pts.length r.1).1 else r.1

/-- `snap_to_45` of a polygon with holes, lines 837-854; without holes, lines 823-835, it is `snapPoints` of the points. -/
def snapPoly (P : ArbForm.Poly) : ArbForm.Poly := ⟨snapPoints P.outer, P.holes.map snapPoints⟩

/-- `scale_down` of a polygon of the 45-degree domain, lines 856-875; of points, `point_concept.hpp` 393-407 with exact division. -/
def scaleDown45 (f : Int) (P : List Pt) : List Pt :=
  snapPoints (P.map (fun p => (Transform.roundHalfUp ((p.1 : Rat) / f), Transform.roundHalfUp ((p.2 : Rat) / f))))

end Verif.Snap45
