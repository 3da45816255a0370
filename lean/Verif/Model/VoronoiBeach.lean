import Verif.Model.VoronoiSites
import Verif.Model.Robust
/-!
# Model of the order of the beach line

`/repo/include/boost/polygon/detail/voronoi_predicates.hpp`: `distance_predicate` (186-371) and `node_comparison_predicate` (373-463), with exact reals
(and exact integers where a value is one) for the floating-point type; `ulp_cmp` compares exactly. Orientation tests and cross products are those of
`Model/VoronoiSites.lean`, in 64-bit arithmetic. A division by zero and an overflow are outcomes of their own (`none`).
-/
namespace Verif.Voronoi
open Verif.Robust Verif.Machine

/-- `kPredicateResult`, 216-220. -/
inductive Fast where
  | less | undefined | more
deriving DecidableEq

/-- `find_distance_to_point_arc`, 282-288. -/
noncomputable def pointArc (s : Site) (p : Int × Int) : Option ℝ :=
  let dx := (s.p0.1 : ℝ) - p.1
  let dy := (s.p0.2 : ℝ) - p.2
  divE (dx * dx + dy * dy) (2 * dx)

/-- `find_distance_to_segment_arc`, 290-317. -/
noncomputable def segmentArc (s : Site) (p : Int × Int) : Option ℝ :=
  if s.isVertical then some (((s.p0.1 : ℝ) - p.1) * (1 / 2))
  else do
    let a1 := (s.p1.1 : ℝ) - s.p0.1
    let b1 := (s.p1.2 : ℝ) - s.p0.2
    let k := Real.sqrt (a1 * a1 + b1 * b1)
    let k ← if ¬ s.p1.2 - s.p0.2 < 0 then divE 1 (b1 + k) else divE (k - b1) (a1 * a1)
    let c ← robustCross (s.p1.1 - s.p0.1) (s.p1.2 - s.p0.2) (p.1 - s.p0.1) (p.2 - s.p0.2)
    return k * (c : ℝ)

open Classical in
/-- `pp`, 226-249. -/
noncomputable def distPP (l r : Site) (p : Int × Int) : Option Bool :=
  let compare : Option Bool := do
    let d1 ← pointArc l p
    let d2 ← pointArc r p
    return decide (d1 < d2)
  if l.p0.1 > r.p0.1 then
    if p.2 ≤ l.p0.2 then some false else compare
  else if l.p0.1 < r.p0.1 then
    if p.2 ≥ r.p0.2 then some true else compare
  else some (decide (l.p0.2 + r.p0.2 < p.2 * 2))

/-- `fast_ps`, 319-367: `l` is the point, `r` the segment. -/
def fastPS (l r : Site) (p : Int × Int) (rev : Bool) : Option Fast := do
  let o ← evalPts r.p0 r.p1 p
  if o ≠ RIGHT then return (if !r.isInverse then .less else .more)
  else
    let dx := p.1 - l.p0.1
    let dy := p.2 - l.p0.2
    let a := r.p1.1 - r.p0.1
    let b := r.p1.2 - r.p0.2
    let slow : Fast :=
      let le := a * (dy + dx) * (dy - dx)
      let re := 2 * b * dx * dy
      if le ≠ re then (if xor (decide (le > re)) rev then (if rev then .less else .more) else .undefined)
      else .undefined
    if r.isVertical then
      if p.2 < l.p0.2 ∧ rev = false then return .more
      else if p.2 > l.p0.2 ∧ rev = true then return .less
      else return .undefined
    else
      let v ← evalDifs (r.p1.1 - r.p0.1) (r.p1.2 - r.p0.2) (p.1 - l.p0.1) (p.2 - l.p0.2)
      if v = LEFT then
        if !r.isInverse then return (if rev then .less else .undefined)
        else return (if rev then .undefined else .more)
      else return slow

open Classical in
/-- `ps`, 251-264. -/
noncomputable def distPS (l r : Site) (p : Int × Int) (rev : Bool) : Option Bool := do
  let f ← fastPS l r p rev
  if f ≠ .undefined then return decide (f = .less)
  else
    let d1 ← pointArc l p
    let d2 ← segmentArc r p
    return xor rev (decide (d1 < d2))

open Classical in
/-- `ss`, 266-280. -/
noncomputable def distSS (l r : Site) (p : Int × Int) : Option Bool :=
  if l.sorted = r.sorted then do return decide ((← evalPts l.p0 l.p1 p) = LEFT)
  else do
    let d1 ← segmentArc l p
    let d2 ← segmentArc r p
    return decide (d1 < d2)

/-- `distance_predicate::operator()`, 195-211. -/
noncomputable def distance (l r : Site) (p : Int × Int) : Option Bool :=
  if !l.isSegment then
    if !r.isSegment then distPP l r p else distPS l r p false
  else
    if !r.isSegment then distPS r l p true else distSS l r p

/-- `beach_line_node_key`, detail/voronoi_structures.hpp 359-392: the sites of the arcs below and above. -/
abbrev BeachNode := Site × Site

/-- `get_comparison_site`, 427-432. -/
def newer (n : BeachNode) : Site := if n.1.sorted > n.2.sorted then n.1 else n.2

/-- `get_comparison_point`, 434-437. -/
def firstPoint (s : Site) : Int × Int := if pointLess s.p0 s.p1 then s.p0 else s.p1

/-- `get_comparison_y`, 440-456. -/
def compareY (n : BeachNode) (new : Bool) : Int × Int :=
  if n.1.sorted = n.2.sorted then (n.1.p0.2, 0)
  else if n.1.sorted > n.2.sorted then
    if !new && n.1.isSegment && n.1.isVertical then (n.1.p0.2, 1) else (n.1.p1.2, 1)
  else (n.2.p0.2, -1)

/-- `node_comparison_predicate::operator()`, 388-422. `std::pair` is compared lexicographically. -/
noncomputable def nodeLess (n1 n2 : BeachNode) : Option Bool :=
  let s1 := newer n1
  let s2 := newer n2
  let q1 := firstPoint s1
  let q2 := firstPoint s2
  if q1.1 < q2.1 then distance n1.1 n1.2 q2
  else if q1.1 > q2.1 then (distance n2.1 n2.2 q1).map (fun b => !b)
  else if s1.sorted = s2.sorted then
    let y1 := compareY n1 true
    let y2 := compareY n2 true
    some (decide (y1.1 < y2.1 ∨ (y1.1 = y2.1 ∧ y1.2 < y2.2)))
  else if s1.sorted < s2.sorted then
    let y1 := compareY n1 false
    let y2 := compareY n2 true
    if y1.1 ≠ y2.1 then some (decide (y1.1 < y2.1)) else some (if !s1.isSegment then decide (y1.2 < 0) else false)
  else
    let y1 := compareY n1 true
    let y2 := compareY n2 false
    if y1.1 ≠ y2.1 then some (decide (y1.1 < y2.1)) else some (if !s2.isSegment then decide (y2.2 > 0) else true)

/-- The nodes that `insert_new_arc` (voronoi_builder.hpp 434-473) puts between the arcs of `a` and `b` for the new site `s`, from below to above. -/
def newNodes (a b s : Site) : List BeachNode :=
  if s.isSegment then [(a, s), (s, s.inverse), (s.inverse, b)] else [(a, s), (s, b)]

end Verif.Voronoi
