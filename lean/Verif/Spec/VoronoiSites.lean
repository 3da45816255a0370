import Verif.Model.VoronoiSites
import Verif.Spec.Segment
/-!
# Specification of the order of Voronoi sites
-/
namespace Verif.Spec
open Verif.Voronoi

/-- A site as the builder makes it: 32-bit coordinates, the first end point lexicographically
not after the second (equal for a point site). -/
def ValidSite (s : Site) : Prop :=
  P32 s.p0 ∧ P32 s.p1 ∧ (s.p0.1 < s.p1.1 ∨ s.p0.1 = s.p1.1 ∧ s.p0.2 ≤ s.p1.2)

/-- A point site. -/
def PointSite (s : Site) : Prop := s.p0 = s.p1

/-- On a vertical line (a point is). -/
def OnVertical (s : Site) : Prop := s.p0.1 = s.p1.1

/-- The slope of a site that is not on a vertical line. -/
def slope (s : Site) : ℚ := (s.p1.2 - s.p0.2) / (s.p1.1 - s.p0.1)

/-- The order in which the sweep meets sites: by abscissa of the start, points and vertical
segments before the others; those by ordinate of the start and a point before the segments
starting there; the others by ordinate of the start and then steepest first. -/
def Before (s t : Site) : Prop :=
  s.p0.1 < t.p0.1 ∨
  s.p0.1 = t.p0.1 ∧
    ((OnVertical s ∧ ¬ OnVertical t) ∨
     (OnVertical s ∧ OnVertical t ∧ (s.p0.2 < t.p0.2 ∨ s.p0.2 = t.p0.2 ∧ PointSite s ∧ ¬ PointSite t)) ∨
     (¬ OnVertical s ∧ ¬ OnVertical t ∧ (s.p0.2 < t.p0.2 ∨ s.p0.2 = t.p0.2 ∧ slope t < slope s)))

/-- The same geometry: the same point or the same segment. -/
def SameSite (s t : Site) : Prop := s.p0 = t.p0 ∧ s.p1 = t.p1

/-- Two different segments that start at the same point and go in the same direction. -/
def Overlapping (s t : Site) : Prop :=
  ¬ PointSite s ∧ ¬ PointSite t ∧ s.p0 = t.p0 ∧ s.p1 ≠ t.p1 ∧
    (s.p1.1 - s.p0.1) * (t.p1.2 - t.p0.2) = (s.p1.2 - s.p0.2) * (t.p1.1 - t.p0.1)

end Verif.Spec
