import Verif.Model.VoronoiCircle
/-!
# Model of the fast formation of circle events

`/repo/include/boost/polygon/detail/voronoi_predicates.hpp`: `lazy_circle_formation_functor` (984-1430), with exact reals for `robust_fpt` and
`robust_dif` (the difference of its two sums) and exact integers for `robust_cross_product`. The error estimates (`ulp`) are not computed: which of
the three numbers are computed again is given from outside. A division by zero is an outcome of its own (`none`).
-/
namespace Verif.Voronoi
open Verif.Robust

/-- `ppp`, 995-1045. -/
noncomputable def lazyPpp (s1 s2 s3 : Site) : Option Circle := do
  let dx1 := s1.p0.1 - s2.p0.1
  let dx2 := s2.p0.1 - s3.p0.1
  let dy1 := s1.p0.2 - s2.p0.2
  let dy2 := s2.p0.2 - s3.p0.2
  let inv ← divE (1 / 2) ((dx1 * dy2 - dx2 * dy1 : Int) : ℝ)
  let sx1 := s1.p0.1 + s2.p0.1
  let sx2 := s2.p0.1 + s3.p0.1
  let sy1 := s1.p0.2 + s2.p0.2
  let sy2 := s2.p0.2 + s3.p0.2
  let dx3 := s1.p0.1 - s3.p0.1
  let dy3 := s1.p0.2 - s3.p0.2
  let cx := dx1 * sx1 * dy2 + dy1 * sy1 * dy2 - dx2 * sx2 * dy1 - dy2 * sy2 * dy1
  let cy := dx2 * sx2 * dx1 + dy2 * sy2 * dx1 - dx1 * sx1 * dx2 - dy1 * sy1 * dx2
  let lower := (cx : ℝ) - Real.sqrt (((dx1 * dx1 + dy1 * dy1) * (dx2 * dx2 + dy2 * dy2) * (dx3 * dx3 + dy3 * dy3) : Int) : ℝ)
  return ⟨(cx : ℝ) * inv, (cy : ℝ) * inv, lower * inv⟩

open Classical in
/-- `pps`, 1047-1132. -/
noncomputable def lazyPps (s1 s2 s3 : Site) (idx : Nat) : Option Circle := do
  let la := s3.p1.2 - s3.p0.2
  let lb := s3.p0.1 - s3.p1.1
  let vx := s2.p0.2 - s1.p0.2
  let vy := s1.p0.1 - s2.p0.1
  let teta := (s3.p1.2 - s3.p0.2) * (s2.p0.2 - s1.p0.2) - (s3.p0.1 - s3.p1.1) * (s2.p0.1 - s1.p0.1)
  let A := (s3.p0.2 - s3.p1.2) * (s3.p1.1 - s1.p0.1) - (s3.p0.1 - s3.p1.1) * (s3.p1.2 - s1.p0.2)
  let B := (s3.p0.2 - s3.p1.2) * (s3.p1.1 - s2.p0.1) - (s3.p0.1 - s3.p1.1) * (s3.p1.2 - s2.p0.2)
  let denom := (s1.p0.2 - s2.p0.2) * (s3.p1.1 - s3.p0.1) - (s1.p0.1 - s2.p0.1) * (s3.p1.2 - s3.p0.2)
  let inv ← divE 1 (Real.sqrt ((la * la + lb * lb : Int) : ℝ))
  let t ←
    if denom = 0 then do
      let u ← divE (teta : ℝ) (8 * A)
      let v ← divE (A : ℝ) (2 * teta)
      some (u - v)
    else do
      let det := Real.sqrt (((teta * teta + denom * denom) * A * B : Int) : ℝ)
      let u ← divE det (denom * denom)
      let v ← divE ((teta : ℝ) * (A + B)) (2 * denom * denom)
      some ((if idx = 2 then -u else u) + v)
  let cx := 1 / 2 * ((s1.p0.1 : ℝ) + s2.p0.1) + vx * t
  let cy := 1 / 2 * ((s1.p0.2 : ℝ) + s2.p0.2) + vy * t
  let r := -(la * s3.p0.1 : ℝ) - lb * s3.p0.2 + la * cx + lb * cy
  let r := if r < 0 then -r else r
  return ⟨cx, cy, cx + r * inv⟩

open Classical in
/-- `pss`, 1134-1327. -/
noncomputable def lazyPss (s1 s2 s3 : Site) (idx : Nat) : Option Circle := do
  let st1 := s2.p1
  let en1 := s2.p0
  let st2 := s3.p0
  let en2 := s3.p1
  let a1 := en1.1 - st1.1
  let b1 := en1.2 - st1.2
  let a2 := en2.1 - st2.1
  let b2 := en2.2 - st2.2
  let orientation := b1 * a2 - a1 * b2
  if orientation = 0 then do
    let a := a1 * a1 + b1 * b1
    let c := b1 * (st2.1 - st1.1) - a1 * (st2.2 - st1.2)
    let det := (a1 * (s1.p0.2 - st1.2) - b1 * (s1.p0.1 - st1.1)) * (b1 * (s1.p0.1 - st2.1) - a1 * (s1.p0.2 - st2.2))
    let t := -(a1 : ℝ) * (((st1.1 : ℝ) + st2.1) * (1 / 2) - s1.p0.1) - b1 * (((st1.2 : ℝ) + st2.2) * (1 / 2) - s1.p0.2)
    let t := if idx = 2 then t + Real.sqrt (det : ℝ) else t - Real.sqrt (det : ℝ)
    let t ← divE t (a : ℝ)
    let cx := 1 / 2 * ((st1.1 : ℝ) + st2.1) + a1 * t
    let cy := 1 / 2 * ((st1.2 : ℝ) + st2.2) + b1 * t
    let r ← divE (1 / 2 * (c : ℝ)) (Real.sqrt (a : ℝ))
    let lower := if c < 0 then cx - r else cx + r
    return ⟨cx, cy, lower⟩
  else do
    let l1 := Real.sqrt ((a1 * a1 + b1 * b1 : Int) : ℝ)
    let l2 := Real.sqrt ((a2 * a2 + b2 * b2 : Int) : ℝ)
    let a0 := a1 * (en2.1 - st2.1) - b1 * (st2.2 - en2.2)
    let a ← if ¬ a0 < 0 then some ((a0 : ℝ) + l1 * l2) else divE ((orientation : ℝ) * orientation) (l1 * l2 - a0)
    let or1 := b1 * (en1.1 - s1.p0.1) - a1 * (en1.2 - s1.p0.2)
    let or2 := a2 * (en2.2 - s1.p0.2) - b2 * (en2.1 - s1.p0.1)
    let det := 2 * a * or1 * or2
    let c1 := b1 * en1.1 - a1 * en1.2
    let c2 := a2 * en2.2 - b2 * en2.1
    let inv ← divE 1 (orientation : ℝ)
    let ix := a2 * c1 * inv + a1 * c2 * inv
    let iy := b1 * c2 * inv + b2 * c1 * inv
    let b := ix * (a1 * l2) + ix * (a2 * l1) + iy * (b1 * l2) + iy * (b2 * l1) -
      l1 * (a2 * s1.p0.1 - b2 * -s1.p0.2 : Int) - l2 * (a1 * s1.p0.1 - b1 * -s1.p0.2 : Int)
    let t := if idx = 2 then -b + Real.sqrt det else -b - Real.sqrt det
    let t ← divE t (a * a)
    let cx := ix + t * (a1 * l2) + t * (a2 * l1)
    let cy := iy + t * (b1 * l2) + t * (b2 * l1)
    let t := if t < 0 then -t else t
    let lower := if orientation < 0 then cx - t * orientation else cx + t * orientation
    return ⟨cx, cy, lower⟩

/-- `sss`, 1329-1424. -/
noncomputable def lazySss (s1 s2 s3 : Site) : Option Circle := do
  let a1 := s1.p1.1 - s1.p0.1
  let b1 := s1.p1.2 - s1.p0.2
  let c1 := s1.p0.1 * s1.p1.2 - s1.p0.2 * s1.p1.1
  let a2 := s2.p1.1 - s2.p0.1
  let b2 := s2.p1.2 - s2.p0.2
  let c2 := s2.p0.1 * s2.p1.2 - s2.p0.2 * s2.p1.1
  let a3 := s3.p1.1 - s3.p0.1
  let b3 := s3.p1.2 - s3.p0.2
  let c3 := s3.p0.1 * s3.p1.2 - s3.p0.2 * s3.p1.1
  let l1 := Real.sqrt ((a1 * a1 + b1 * b1 : Int) : ℝ)
  let l2 := Real.sqrt ((a2 * a2 + b2 * b2 : Int) : ℝ)
  let l3 := Real.sqrt ((a3 * a3 + b3 * b3 : Int) : ℝ)
  let x12 := a1 * b2 - b1 * a2
  let x23 := a2 * b3 - b2 * a3
  let x31 := a3 * b1 - b3 * a1
  let denom := x12 * l3 + x23 * l1 + x31 * l2
  let r := ((-(x12 * c3) - x23 * c1 - x31 * c2 : Int) : ℝ)
  let cx := a1 * c2 * l3 - a2 * c1 * l3 + a2 * c3 * l1 - a3 * c2 * l1 + a3 * c1 * l2 - a1 * c3 * l2
  let cy := b1 * c2 * l3 - b2 * c1 * l3 + b2 * c3 * l1 - b3 * c2 * l1 + b3 * c1 * l2 - b1 * c3 * l2
  let x ← divE cx denom
  let y ← divE cy denom
  let lower ← divE (cx + r) denom
  return ⟨x, y, lower⟩

/-- The fast functor under the dispatch of 1449-1501. -/
noncomputable def lazyCircle (s1 s2 s3 : Site) : Option Circle :=
  if !s1.isSegment then
    if !s2.isSegment then
      if !s3.isSegment then lazyPpp s1 s2 s3 else lazyPps s1 s2 s3 3
    else
      if !s3.isSegment then lazyPps s1 s3 s2 2 else lazyPss s1 s2 s3 1
  else
    if !s2.isSegment then
      if !s3.isSegment then lazyPps s2 s3 s1 1 else lazyPss s2 s1 s3 2
    else
      if !s3.isSegment then lazyPss s3 s1 s2 3 else lazySss s1 s2 s3

/-- The event as it is recorded (1036-1045, 1126-1134, 1317-1321, 1414-1423): the numbers whose error estimate is too large (`rx`, `ry`, `rl`) are
replaced by those of the exact functor. -/
noncomputable def eventCircle (rx ry rl : Bool) (s1 s2 s3 : Site) : Option Circle := do
  let c ← lazyCircle s1 s2 s3
  if rx || ry || rl then do
    let e ← formCircle s1 s2 s3
    return ⟨if rx then e.x else c.x, if ry then e.y else c.y, if rl then e.lower else c.lower⟩
  else return c

end Verif.Voronoi
