import Verif.Model.VoronoiSites
import Verif.Model.Robust
/-!
# Model of the formation of circle events

`/repo/include/boost/polygon/detail/voronoi_predicates.hpp`: `mp_circle_formation_functor` (526-968), with integers of any size for `big_int_type` and
exact reals for the floating-point types, and the dispatch of `circle_formation_predicate` (1437-1533). A division by zero is an outcome of its own
(`none`). All three parts of the event are computed (the `recompute_` flags are set); rounding is outside this model.
-/
namespace Verif.Voronoi
open Verif.Robust

/-- `circle_event`, detail/voronoi_structures.hpp 235-305: the centre and the rightmost abscissa. -/
structure Circle where
  x : ℝ
  y : ℝ
  lower : ℝ

open Classical in
/-- `ppp`, 535-600. -/
noncomputable def mpPpp (s1 s2 s3 : Site) : Option Circle := do
  let dx0 := s1.p0.1 - s2.p0.1
  let dx1 := s2.p0.1 - s3.p0.1
  let dx2 := s1.p0.1 - s3.p0.1
  let dy0 := s1.p0.2 - s2.p0.2
  let dy1 := s2.p0.2 - s3.p0.2
  let dy2 := s1.p0.2 - s3.p0.2
  let sx0 := s1.p0.1 + s2.p0.1
  let sx1 := s2.p0.1 + s3.p0.1
  let sy0 := s1.p0.2 + s2.p0.2
  let sy1 := s2.p0.2 + s3.p0.2
  let inv ← divE (1 / 2) ((dx0 * dy1 - dx1 * dy0 : Int) : ℝ)
  let numer1 := dx0 * sx0 + dy0 * sy0
  let numer2 := dx1 * sx1 + dy1 * sy1
  let cx := numer1 * dy1 - numer2 * dy0
  let x := (cx : ℝ) * inv
  let sqrR := (dx0 * dx0 + dy0 * dy0) * (dx1 * dx1 + dy1 * dy1) * (dx2 * dx2 + dy2 * dy2)
  let r := Real.sqrt (sqrR : ℝ)
  let lower ←
    if ¬ x < 0 then
      (if ¬ inv < 0 then some (x + r * inv) else some (x - r * inv))
    else divE (((cx * cx - sqrR : Int) : ℝ) * inv) ((cx : ℝ) + r)
  let cy := numer2 * dx0 - numer1 * dx1
  let y := (cy : ℝ) * inv
  return ⟨x, y, lower⟩

/-- `pps`, 602-696: `s1`, `s2` are points, `s3` is a segment, `idx` its place in the triple. -/
noncomputable def mpPps (s1 s2 s3 : Site) (idx : Nat) : Option Circle := do
  let la := s3.p1.2 - s3.p0.2
  let lb := s3.p0.1 - s3.p1.1
  let len := la * la + lb * lb
  let vx := s2.p0.2 - s1.p0.2
  let vy := s1.p0.1 - s2.p0.1
  let sx := s1.p0.1 + s2.p0.1
  let sy := s1.p0.2 + s2.p0.2
  let teta := la * vx + lb * vy
  let denom := vx * lb - vy * la
  let A := la * (s1.p0.1 - s3.p1.1) - lb * (s3.p1.2 - s1.p0.2)
  let B := la * (s2.p0.1 - s3.p1.1) - lb * (s3.p1.2 - s2.p0.2)
  let sAB := A + B
  if denom = 0 then do
    let numer := teta * teta - sAB * sAB
    let denom := teta * sAB
    let cA0 := denom * sx * 2 + numer * vx
    let cA1 := denom * sAB * 2 + numer * teta
    let cA2 := denom * sy * 2 + numer * vy
    let inv ← divE 1 (denom : ℝ)
    let x := 1 / 4 * (cA0 : ℝ) * inv
    let y := 1 / 4 * (cA2 : ℝ) * inv
    let e ← eval2 cA0 len cA1 1
    let lower ← divE (1 / 4 * e * inv) (Real.sqrt (len : ℝ))
    return ⟨x, y, lower⟩
  else do
    let det := (teta * teta + denom * denom) * A * B * 4
    let inv ← divE 1 (denom : ℝ)
    let inv2 := inv * inv
    let cA0 := sx * denom * denom + teta * sAB * vx
    let cA1 := if idx = 2 then -vx else vx
    let e ← eval2 cA0 1 cA1 det
    let x := 1 / 2 * e * inv2
    let cA2 := sy * denom * denom + teta * sAB * vy
    let cA3 := if idx = 2 then -vy else vy
    let e ← eval2 cA2 1 cA3 det
    let y := 1 / 2 * e * inv2
    let cB0 := 1 * len
    let cB1 := det * len
    let cA2 := sAB * (denom * denom + teta * teta)
    let cA3 := if idx = 2 then -teta else teta
    let e ← eval4 cA0 cB0 cA1 cB1 cA2 1 cA3 det
    let lower ← divE (1 / 2 * e * inv2) (Real.sqrt (len : ℝ))
    return ⟨x, y, lower⟩

open Classical in
/-- `sqrt_expr_evaluator_pss3`, 961-979. -/
noncomputable def pss3 (A0 B0 A1 B1 A2 B2 A3 B3 : Int) : Option ℝ := do
  let lh ← eval2 A0 B0 A1 B1
  let rh ← eval2 A2 B2 A3 B3
  if sameSide lh rh then return lh + rh
  else
    let n ← eval2 (A0 * A0 * B0 + A1 * A1 * B1 - A2 * A2 - A3 * A3 * B0 * B1) 1 ((A0 * A1 - A2 * A3) * 2) B3
    divE n (lh - rh)

open Classical in
/-- `sqrt_expr_evaluator_pss4`, 914-959. -/
noncomputable def pss4 (A0 B0 A1 B1 A2 B2 A3 B3 : Int) : Option ℝ := do
  let q ← eval2 1 (B0 * B1) B2 1
  let rh := eval1 A2 B3 * Real.sqrt q
  if A3 = 0 then do
    let lh ← eval2 A0 B0 A1 B1
    if sameSide lh rh then return lh + rh
    else
      let n ← eval2 (A0 * A0 * B0 + A1 * A1 * B1 - A2 * A2 * B3 * B2) 1 (A0 * A1 * 2 - A2 * A2 * B3) (B0 * B1)
      divE n (lh - rh)
  else do
    let lh ← eval3 A0 B0 A1 B1 A3 1
    if sameSide lh rh then return lh + rh
    else
      let n ← pss3 (A3 * A0 * 2) B0 (A3 * A1 * 2) B1
        (A0 * A0 * B0 + A1 * A1 * B1 + A3 * A3 - A2 * A2 * B2 * B3) 1 (A0 * A1 * 2 - A2 * A2 * B3) (B0 * B1)
      divE n (lh - rh)

open Classical in
/-- `pss`, 698-829: `s1` is a point, `s2` and `s3` are segments, `idx` is the place of the point in the triple. -/
noncomputable def mpPss (s1 s2 s3 : Site) (idx : Nat) : Option Circle := do
  let st1 := s2.p1
  let en1 := s2.p0
  let st2 := s3.p0
  let en2 := s3.p1
  let a0 := en1.1 - st1.1
  let b0 := en1.2 - st1.2
  let a1 := en2.1 - st2.1
  let b1 := en2.2 - st2.2
  let orientation := a1 * b0 - a0 * b1
  if orientation = 0 then do
    let denom : ℝ := 2 * ((a0 * a0 + b0 * b0 : Int) : ℝ)
    let c0 := b0 * (st2.1 - st1.1) - a0 * (st2.2 - st1.2)
    let dx := a0 * (s1.p0.2 - st1.2) - b0 * (s1.p0.1 - st1.1)
    let dy := b0 * (s1.p0.1 - st2.1) - a0 * (s1.p0.2 - st2.2)
    let cB0 := dx * dy
    let cA0 := b0 * (if idx = 2 then 2 else -2)
    let cA1 := a0 * a0 * (st1.2 + st2.2) - a0 * b0 * (st1.1 + st2.1 - s1.p0.1 * 2) + b0 * b0 * (s1.p0.2 * 2)
    let e ← eval2 cA0 cB0 cA1 1
    let y ← divE e denom
    let cA0 := a0 * (if idx = 2 then 2 else -2)
    let cA1 := b0 * b0 * (st1.1 + st2.1) - a0 * b0 * (st1.2 + st2.2 - s1.p0.2 * 2) + a0 * a0 * (s1.p0.1 * 2)
    let e ← eval2 cA0 cB0 cA1 1
    let x ← divE e denom
    let cA2 := if c0 < 0 then -c0 else c0
    let e ← eval3 cA0 cB0 cA1 1 cA2 (a0 * a0 + b0 * b0)
    let lower ← divE e denom
    return ⟨x, y, lower⟩
  else do
    let c0 := b0 * en1.1 - a0 * en1.2
    let c1 := a1 * en2.2 - b1 * en2.1
    let ix := a0 * c1 + a1 * c0
    let iy := b0 * c1 + b1 * c0
    let dx := ix - orientation * s1.p0.1
    let dy := iy - orientation * s1.p0.2
    if dx = 0 ∧ dy = 0 then do
      let x ← divE (ix : ℝ) (orientation : ℝ)
      let y ← divE (iy : ℝ) (orientation : ℝ)
      return ⟨x, y, x⟩
    else do
      let sign := (if idx = 2 then 1 else -1) * (if orientation < 0 then 1 else -1)
      let cB0 := a0 * a0 + b0 * b0
      let cB1 := a1 * a1 + b1 * b1
      let cB2 := a0 * a1 + b0 * b1
      let cB3 := (a0 * dy - b0 * dx) * (a1 * dy - b1 * dx) * -2
      let temp ← pss4 (a1 * -dx + b1 * -dy) cB0 (a0 * -dx + b0 * -dy) cB1 sign cB2 0 cB3
      let denom := temp * (orientation : ℝ)
      let e ← pss4 (b1 * (dx * dx + dy * dy) - iy * (dx * a1 + dy * b1)) cB0
        (b0 * (dx * dx + dy * dy) - iy * (dx * a0 + dy * b0)) cB1 (iy * sign) cB2 0 cB3
      let y ← divE e denom
      let cA0 := a1 * (dx * dx + dy * dy) - ix * (dx * a1 + dy * b1)
      let cA1 := a0 * (dx * dx + dy * dy) - ix * (dx * a0 + dy * b0)
      let e ← pss4 cA0 cB0 cA1 cB1 (ix * sign) cB2 0 cB3
      let x ← divE e denom
      let e ← pss4 cA0 cB0 cA1 cB1 (ix * sign) cB2
        (orientation * (dx * dx + dy * dy) * (if temp < 0 then -1 else 1)) cB3
      let lower ← divE e denom
      return ⟨x, y, lower⟩

/-- `sss`, 831-911. -/
noncomputable def mpSss (s1 s2 s3 : Site) : Option Circle := do
  let a0 := s1.p1.1 - s1.p0.1
  let a1 := s2.p1.1 - s2.p0.1
  let a2 := s3.p1.1 - s3.p0.1
  let b0 := s1.p1.2 - s1.p0.2
  let b1 := s2.p1.2 - s2.p0.2
  let b2 := s3.p1.2 - s3.p0.2
  let c0 := s1.p0.1 * s1.p1.2 - s1.p0.2 * s1.p1.1
  let c1 := s2.p0.1 * s2.p1.2 - s2.p0.2 * s2.p1.1
  let c2 := s3.p0.1 * s3.p1.2 - s3.p0.2 * s3.p1.1
  let cB0 := a0 * a0 + b0 * b0
  let cB1 := a1 * a1 + b1 * b1
  let cB2 := a2 * a2 + b2 * b2
  let denom ← eval3 (a1 * b2 - a2 * b1) cB0 (a2 * b0 - a0 * b2) cB1 (a0 * b1 - a1 * b0) cB2
  let e ← eval3 (b1 * c2 - b2 * c1) cB0 (b2 * c0 - b0 * c2) cB1 (b0 * c1 - b1 * c0) cB2
  let y ← divE e denom
  let cA0 := a1 * c2 - a2 * c1
  let cA1 := a2 * c0 - a0 * c2
  let cA2 := a0 * c1 - a1 * c0
  let cA3 := 0 + cA0 * b0 + cA1 * b1 + cA2 * b2
  let e ← eval3 cA0 cB0 cA1 cB1 cA2 cB2
  let x ← divE e denom
  let e ← eval4 cA0 cB0 cA1 cB1 cA2 cB2 cA3 1
  let lower ← divE e denom
  return ⟨x, y, lower⟩

/-- The circle of three sites in their order along the beach line: the dispatch of 1449-1501. -/
noncomputable def formCircle (s1 s2 s3 : Site) : Option Circle :=
  if !s1.isSegment then
    if !s2.isSegment then
      if !s3.isSegment then mpPpp s1 s2 s3 else mpPps s1 s2 s3 3
    else
      if !s3.isSegment then mpPps s1 s3 s2 2 else mpPss s1 s2 s3 1
  else
    if !s2.isSegment then
      if !s3.isSegment then mpPps s2 s3 s1 1 else mpPss s2 s1 s3 2
    else
      if !s3.isSegment then mpPss s3 s1 s2 3 else mpSss s1 s2 s3

end Verif.Voronoi
