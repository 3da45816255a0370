import Verif.Model.Arb
import Verif.Model.Polygon
/-!
# Model of `polygon_set_data`

`PSD` is `/repo/include/boost/polygon/polygon_set_data.hpp`. The data is the list `data_` of counted edges;
coordinates and counts are unbounded integers. The flags `dirty_`, `unsorted_` and `is_45_` are not modelled.
-/
namespace Verif.PolySet
open Verif Verif.Arb Verif.Contains Verif.Polygon Verif.Isotropy

/-- `data_`: edges with counts. -/
abbrev Data := List (HE × Int)

/-- `insert_clean`, PSD lines 179-190. -/
def insertClean (D : Data) (e : HE × Int) (hole : Bool) : Data :=
  let e := if lessPoint e.1.2 e.1.1 then ((e.1.2, e.1.1), e.2 * -1) else e
  let e := if hole then (e.1, e.2 * -1) else e
  D ++ [e]

/-- One iteration of the loop of `insert_vertex_sequence`, PSD lines 216-224. -/
def insertEdge (w : Int) (D : Data) (p0 p1 : Pt) : Data :=
  if p0 ≠ p1 then insertClean D ((p0, p1), (if p0.1 = p1.1 then -1 else 1) * w) false else D

/-- The loop of `insert_vertex_sequence`, PSD lines 216-230: `p` is the current vertex, the rest follows and
`first` closes the sequence. -/
def seqGo (w : Int) (first : Pt) : Data → Pt → List Pt → Data
  | D, p, [] => insertEdge w D p first
  | D, p, q :: r => seqGo w first (insertEdge w D p q) q r

/-- `insert_vertex_sequence`, PSD lines 197-231; `wd` is the winding direction, COUNTERCLOCKWISE is `HIGH`. -/
def insertSeq (D : Data) (P : List Pt) (wd : Nat) (hole : Bool) : Data :=
  match P with
  | [] => D
  | [_] => D
  | p :: q :: r =>
    let w : Int := if wd = HIGH then 1 else -1
    let w := if hole then -w else w
    seqGo w p D p (q :: r)

/-- `insert(polygon, is_hole, polygon_concept)`, PSD lines 120-123; the area is exact. -/
def insertPoly (D : Data) (P : List Pt) (hole : Bool) : Data := insertSeq D P (windingQ P) hole

/-- `insert(polygon_with_holes, is_hole, polygon_with_holes_concept)`, PSD lines 149-159. -/
def insertHoles (D : Data) (P : List Pt) (H : List (List Pt)) (hole : Bool) : Data :=
  H.foldl (fun D h => insertPoly D h (!hole)) (insertPoly D P hole)

/-- `insert(rectangle, is_hole, rectangle_concept)`, PSD lines 171-176: the polygon assigned from a rectangle has the points
`(xl, yl), (xh, yl), (xh, yh), (xl, yh)` (`polygon_traits.hpp` lines 571-577). -/
def insertRect (D : Data) (xl yl xh yh : Int) (hole : Bool) : Data :=
  insertPoly D [(xl, yl), (xh, yl), (xh, yh), (xl, yh)] hole

/-- `insert(polygon_set_data, is_hole)` for another set, PSD lines 97-105 and 125-127. -/
def insertSet (D S : Data) (hole : Bool) : Data := S.foldl (fun D e => insertClean D e hole) D

/-- `scale_up`, PSD lines 369-376. -/
def scaleUp (k : Int) (D : Data) : Data :=
  D.map (fun e => (((e.1.1.1 * k, e.1.1.2 * k), (e.1.2.1 * k, e.1.2.2 * k)), e.2))

/-- `scale_down`, PSD lines 378-393: `f` is what `scale_down` does to one coordinate (division by the factor in
double precision and rounding, `point_concept.hpp` lines 401-407); the theorems hold for every `f`. -/
def scaleDown (f : Int → Int) (D : Data) : Data :=
  D.map (fun e =>
    let vb := e.1.1.1 == e.1.2.1
    let e' : HE := ((f e.1.1.1, f e.1.1.2), (f e.1.2.1, f e.1.2.2))
    let va := e'.1.1 == e'.2.1
    if !vb && va then (e', e.2 * -1) else (e', e.2))

/-- `concept_downcast`, PSD lines 756-771: 1 is POLYGON_90_SET_CONCEPT, 2 is POLYGON_45_SET_CONCEPT and 3 is
POLYGON_SET_CONCEPT. -/
def downcastGo : Bool → Data → Nat
  | b, [] => if b then 2 else 1
  | b, e :: r =>
    let h := absZ (e.1.1.1 - e.1.2.1)
    let v := absZ (e.1.1.2 - e.1.2.2)
    if h ≠ 0 ∨ v ≠ 0 then
      if v ≠ h ∧ v ≠ -h then 3 else downcastGo true r
    else downcastGo b r

/-- `concept_downcast`, PSD lines 756-771. -/
def conceptDowncast (D : Data) : Nat := downcastGo false D

end Verif.PolySet
