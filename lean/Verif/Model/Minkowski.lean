import Verif.Model.ArbGet
/-!
# Model of `detail/minkowski.hpp`

`MNK` is `/repo/include/boost/polygon/detail/minkowski.hpp`, `PT` is `/repo/include/boost/polygon/polygon_traits.hpp`. Coordinates are unbounded integers.
-/
namespace Verif.Minkowski
open Verif.Arb Verif.PolySet Verif.ArbForm

/-- `convolve` of two points, `/repo/include/boost/polygon/point_concept.hpp` lines 343-353. -/
def convolvePt (p d : Pt) : Pt := (p.1 + d.1, p.2 + d.2)

/-- `convolve_two_segments`, MNK lines 17-27. -/
def convolveTwoSegments (a b : Pt × Pt) : List Pt := [convolvePt a.1 b.2, convolvePt a.1 b.1, convolvePt a.2 b.1, convolvePt a.2 b.2]

/-- The inner loop of `convolve_two_point_sequences`, MNK lines 43-48: the points of the second sequence after `pb`. -/
def innerLoop (pa a : Pt) : Data → Pt → List Pt → Data
  | D, _, [] => D
  | D, pb, b :: r => innerLoop pa a (insertHoles D (convolveTwoSegments (pb, b) (pa, a)) [] false) b r

/-- The outer loop of `convolve_two_point_sequences`, MNK lines 38-50: the points of the first sequence after `pa`; the second sequence is `b0 :: rb`. -/
def outerLoop (b0 : Pt) (rb : List Pt) : Data → Pt → List Pt → Data
  | D, _, [] => D
  | D, pa, a :: r => outerLoop b0 rb (innerLoop pa a D b0 rb) a r

/-- `convolve_two_point_sequences`, MNK lines 29-51. -/
def convolveSeqs (D : Data) : List Pt → List Pt → Data
  | [], _ => D
  | _ :: _, [] => D
  | a :: ra, b :: rb => outerLoop b rb D a ra

/-- `convolve_point_sequence_with_polygons`, MNK lines 53-62. -/
def convolveSeqPolys (D : Data) (s : List Pt) (polys : List Poly) : Data :=
  polys.foldl (fun D P => P.holes.foldl (fun D h => convolveSeqs D s h) (convolveSeqs D s P.outer)) D

/-- `convolve` of a polygon with holes and a point, PT lines 600-637. -/
def convolvePoly (P : Poly) (d : Pt) : Poly := ⟨P.outer.map (fun p => convolvePt p d), P.holes.map (fun h => h.map (fun p => convolvePt p d))⟩

/-- The body of the loop over the second polygons, MNK lines 77-82; reading the first point of a polygon without points is undefined. -/
def insertMoved (P : Poly) (D : Data) (Q : Poly) : Option Data := do
  let b ← Q.outer.head?
  let D := insertHoles D (convolvePoly P b).outer (convolvePoly P b).holes false
  let a ← P.outer.head?
  some (insertHoles D (convolvePoly Q a).outer (convolvePoly Q a).holes false)

/-- The body of the loop over the first polygons, MNK lines 70-83. -/
def convolveOne (B : List Poly) (D : Data) (P : Poly) : Option Data :=
  B.foldlM (insertMoved P) (P.holes.foldl (fun D h => convolveSeqPolys D h B) (convolveSeqPolys D P.outer B))

/-- `convolve_two_polygon_sets` after both sets have been turned into polygons, MNK lines 65, 70-84. -/
def convolvePolys (A B : List Poly) : Option Data := A.foldlM (convolveOne B) []

/-- `convolve_two_polygon_sets`, MNK lines 64-85; for the parameters see `getPolys`. -/
def convolveSets (fp : Cut.FP) (umin umax : Int) (a b : Data) : Option Data := do
  let A ← getPolys fp umin umax a
  let B ← getPolys fp umin umax b
  convolvePolys A B

end Verif.Minkowski
