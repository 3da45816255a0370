import Verif.Model.VoronoiSites
/-!
# Model of the circle existence predicate

detail/voronoi_predicates.hpp lines 461-524 and the dispatch of `circle_formation_predicate`, lines 1447-1501. The
computation of the circle and `lies_outside_vertical_segment` are not modelled; the latter can only turn
an accepted triple into a rejected one.
-/
namespace Verif.Voronoi

/-- `ppp`, lines 466-472. -/
def existsPpp (s1 s2 s3 : Site) : Option Bool := do
  return (← evalPts s1.p0 s2.p0 s3.p0) == RIGHT

/-- `pps`, lines 474-497: `s1`, `s2` are points, `s3` is a segment, `idx` its position in the triple. -/
def existsPps (s1 s2 s3 : Site) (idx : Nat) : Option Bool :=
  if idx ≠ 2 then do
    let o1 ← evalPts s1.p0 s2.p0 s3.p0
    let o2 ← evalPts s1.p0 s2.p0 s3.p1
    return if idx = 1 ∧ s1.p0.1 ≥ s2.p0.1 then o1 == RIGHT
      else if idx = 3 ∧ s2.p0.1 ≥ s1.p0.1 then o2 == RIGHT
      else o1 == RIGHT || o2 == RIGHT
  else some (s3.p0 != s1.p0 || s3.p1 != s2.p0)

/-- `pss`, lines 499-516: `s1` is a point, `idx` its position in the triple. -/
def existsPss (s1 s2 s3 : Site) (idx : Nat) : Option Bool :=
  if s2.sorted = s3.sorted then some false
  else if idx = 2 then
    if !s2.isInverse && s3.isInverse then some false
    else if s2.isInverse = s3.isInverse then do
      return (← evalPts s2.p0 s1.p0 s3.p1) == RIGHT
    else some true
  else some true

/-- `sss`, lines 518-523. -/
def existsSss (s1 s2 s3 : Site) : Option Bool := some (s1.sorted != s2.sorted && s2.sorted != s3.sorted)

/-- The dispatch of lines 1449-1501. -/
def circleExists (s1 s2 s3 : Site) : Option Bool :=
  if !s1.isSegment then
    if !s2.isSegment then
      if !s3.isSegment then existsPpp s1 s2 s3 else existsPps s1 s2 s3 3
    else
      if !s3.isSegment then existsPps s1 s3 s2 2 else existsPss s1 s2 s3 1
  else
    if !s2.isSegment then
      if !s3.isSegment then existsPps s2 s3 s1 1 else existsPss s2 s1 s3 2
    else
      if !s3.isSegment then existsPss s3 s1 s2 3 else existsSss s1 s2 s3

end Verif.Voronoi
