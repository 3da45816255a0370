import Mathlib.Analysis.Real.Sqrt
import Mathlib.Algebra.Order.Floor.Ring
/-!
# Model of moving the vertices of a polygon at any angle

`PSD` is `/repo/include/boost/polygon/polygon_set_data.hpp`, `ABF` `detail/polygon_arbitrary_formation.hpp`. The code computes with `long double`; here the
numbers are real and exact, so casts to and from `long double` change nothing.
-/
namespace Verif.OffsetArb

abbrev Pt := Int × Int
abbrev RP := ℝ × ℝ

/-- An integer point as a point of the plane. -/
def toR (p : Pt) : RP := ((p.1 : ℝ), (p.2 : ℝ))

/-- `compute_offset_edge`, PSD 418-433. -/
noncomputable def offsetEdge (prev cur : RP) (distance mult : ℝ) : RP × RP :=
  let dx := cur.1 - prev.1
  let dy := cur.2 - prev.2
  let len := √(dx * dx + dy * dy)
  let dnx := dy * distance / len
  let dny := -dx * distance / len
  ((prev.1 + dnx * mult, prev.2 + dny * mult), (cur.1 + dnx * mult, cur.2 + dny * mult))

/-- `evalAtXforYlazy`, ABF 179-201. -/
noncomputable def evalAt (x : ℝ) (p q : RP) : ℝ :=
  if p.2 = q.2 then p.2 else if x - p.1 = 0 then p.2 else (x - p.1) * (q.2 - p.2) / (q.1 - p.1) + p.2

/-- `compute_lazy_intersection`, ABF 391-483, with `projected = true` and `round_closest = false`. The limits of `long double` are left out. -/
noncomputable def lineCross (e f : RP × RP) : Option RP :=
  if e.1.1 = e.2.1 then
    if f.1.1 = f.2.1 then none else some (e.1.1, evalAt e.1.1 f.1 f.2)
  else if f.1.1 = f.2.1 then some (f.1.1, evalAt f.1.1 e.1 e.2)
  else
    let dy2 := f.2.2 - f.1.2
    let dy1 := e.2.2 - e.1.2
    let dx2 := f.2.1 - f.1.1
    let dx1 := e.2.1 - e.1.1
    if dx1 * dy2 = dx2 * dy1 then none
    else
      let x := (e.1.1 * dy1 * dx2 - f.1.1 * dy2 * dx1 + f.1.2 * dx1 * dx2 - e.1.2 * dx1 * dx2) / (dy1 * dx2 - dy2 * dx1)
      let y := (e.1.2 * dx1 * dy2 - f.1.2 * dx2 * dy1 + f.1.1 * dy1 * dy2 - e.1.1 * dy1 * dy2) / (dx1 * dy2 - dx2 * dy1)
      let y := if e.1.2 = e.2.2 then e.1.2 else y
      let y := if f.1.2 = f.2.2 then f.1.2 else y
      some (x, y)

/-- `modify_pt`, PSD 435-465, before rounding. The point that is changed is `cur`. -/
noncomputable def movedPoint (prev cur next : Pt) (distance mult : Int) : RP :=
  let he1 := offsetEdge (toR prev) (toR cur) distance mult
  let he2 := offsetEdge (toR cur) (toR next) distance mult
  let bis : RP := ((he1.2.1 + he2.1.1) / 2, (he1.2.2 + he2.1.2) / 2)
  let orig := toR cur
  if √((bis.1 - orig.1) * (bis.1 - orig.1) + (bis.2 - orig.2) * (bis.2 - orig.2)) < ((distance.tdiv 2 : Int) : ℝ) then (lineCross he1 he2).getD he1.2
  else (lineCross he1 (orig, bis)).getD he1.2

/-- `modify_pt`, PSD 435-465. -/
noncomputable def modifyPt (prev cur next : Pt) (distance mult : Int) : Pt :=
  (⌊(movedPoint prev cur next distance mult).1 + 1 / 2⌋, ⌊(movedPoint prev cur next distance mult).2 + 1 / 2⌋)

/-- `resize_poly_up`, PSD 467-485, for points whose last one repeats the first: every point is moved according to the original points before and after it. -/
noncomputable def resizeUp (poly : List Pt) (distance mult : Int) : List Pt :=
  let l := poly.dropLast
  let n := l.length
  let r := ((l.drop (n - 1) ++ l.take (n - 1)).zip (l.zip (l.drop 1 ++ l.take 1))).map (fun t => modifyPt t.1 t.2.1 t.2.2 distance mult)
  r ++ r.take 1

end Verif.OffsetArb
