import Verif.Model.Cut
/-!
# Model of `property_merge` and of connectivity extraction for polygons at arbitrary angles

`SA` is `/repo/include/boost/polygon/detail/scan_arbitrary.hpp`, `PSD` is
`/repo/include/boost/polygon/polygon_set_data.hpp`.

Properties are integers; coordinates and counts are unbounded. The result functors keep their own state, which
the scanline does not read, so a scan is the list of the calls it makes. A `std::set` is the list of its elements
in increasing order, a `std::map` the list of its elements in increasing order of the key.
-/
namespace Verif.ArbMerge
open Verif Verif.Arb Verif.Contains Verif.PolySet Verif.Polygon Verif.Isotropy Verif.Cut

/-! ### `property_merge` -/

/-- `create_vertex`, SA lines 1666-1686. -/
def createVertex (wd : Nat) (hole : Bool) (k : Int) (E : List Ev) (p0 p1 : Pt) : List Ev :=
  if p0 = p1 then E
  else
    let m : Int := 1
    let m := if wd = LOW then -1 else m
    let m := if hole then m * -1 else m
    let (m, e) : Int × HE := if lessPoint p0 p1 then (m * -1, (p1, p0)) else (m, (p0, p1))
    E ++ [(e, (k, m * (if absZ (p1.1 - p0.1) = 0 then -1 else 1)))]

/-- The loop of `insert`, SA lines 1608-1628, after the second point: the events and `previous_point`. -/
def insertGo (wd : Nat) (hole : Bool) (k : Int) : List Ev → Pt → List Pt → List Ev × Pt
  | E, p, [] => (E, p)
  | E, p, c :: r => if p ≠ c then insertGo wd hole k (createVertex wd hole k E p c) c r else insertGo wd hole k E p r

/-- `insert` of a polygon, SA lines 1598-1643; the area in `winding` is exact. -/
def insertP (k : Int) (E : List Ev) (P : List Pt) (hole : Bool) : List Ev :=
  let wd := windingQ P
  match P with
  | [] => E
  | f :: r =>
    match r.dropWhile (fun c => f == c) with
    | [] => E
    | s :: r =>
      let (E, p) := insertGo wd hole k E s r
      let (E, p) := if p ≠ f then (createVertex wd hole k E p f, f) else (E, p)
      createVertex wd hole k E p s

/-- `insert` of a polygon with holes, SA lines 1645-1654. -/
def insertH (k : Int) (E : List Ev) (P : List Pt) (H : List (List Pt)) (hole : Bool) : List Ev :=
  H.foldl (fun E h => insertP k E h (!hole)) (insertP k E P hole)

/-- `merge_output_functor`, SA lines 1473-1491, with `insert_clean` (PSD lines 179-190) for `is_hole = false`: the
entries of the result to which an edge is added. -/
def mergeOut (e : HE) (left right : List Int) : List (List Int × (HE × Int)) :=
  let c : Int := 1
  let c := if lessPoint e.2 e.1 then c * -1 else c
  let c := if isVertical e then c * -1 else c
  let ins (c : Int) : HE × Int := if lessPoint e.2 e.1 then ((e.2, e.1), c * -1) else (e, c)
  (if !left.isEmpty then [(left, ins c)] else []) ++ (if !right.isEmpty then [(right, ins (c * -1))] else [])

/-- The entry of the result under a set of properties. -/
def entry (out : List (List Int × (HE × Int))) (s : List Int) : Data := (out.filter (fun a => a.1 == s)).map Prod.snd

/-- `merge`, SA lines 1555-1565. -/
def merge (fp : FP) (umin umax : Int) (E : List Ev) : Option (List (List Int × (HE × Int))) :=
  if E.isEmpty then some [] else scan mergeOut umin umax (sortEv (cut fp umin E))

/-! ### Connectivity extraction -/

/-- The calls of the result functor. -/
abbrev Call := HE × (List Int × List Int)

/-- A functor that records its calls. -/
def calls (e : HE) (left right : List Int) : List Call := [(e, (left, right))]

/-- `std::set::insert`. -/
def setInsert : List Int → Int → List Int
  | [], k => [k]
  | a :: r, k => if a < k then a :: setInsert r k else if k < a then k :: a :: r else a :: r

/-- `y_prop_map`, SA line 2759. -/
abbrev YMap := List (Pt × List Int)

/-- `y_prop_map[p]` with the properties inserted, SA lines 2792-2811. -/
def YMap.add : YMap → Pt → List Int → YMap
  | [], p, ks => [(p, ks.foldl setInsert [])]
  | a :: r, p, ks =>
    if lessPoint a.1 p then a :: YMap.add r p ks
    else if lessPoint p a.1 then (p, ks.foldl setInsert []) :: a :: r
    else (a.1, ks.foldl setInsert a.2) :: r

/-- SA lines 2768-2778: every two properties at one point. An element `(i, j)` says that `j` is in the entry of
`i` in the graph. -/
def pairs : List Int → List (Int × Int)
  | [] => []
  | i :: r => r.flatMap (fun j => [(i, j), (j, i)]) ++ pairs r

/-- The loop of `process_previous_x`, SA lines 2762-2780; `kept` is what precedes the iterator. -/
def processGo (x : Int) : YMap → YMap → YMap × List (Int × Int)
  | kept, [] => (kept, [])
  | kept, a :: r =>
    if a.1.1 < x then processGo x [a] r
    else
      let (m, g) := processGo x (kept ++ [a]) r
      (m, pairs a.2 ++ g)

/-- The state of the functor, SA lines 2833-2837: `x`, `y_prop_map` and the graph. -/
structure CS where
  x : Int
  m : YMap
  g : List (Int × Int)

/-- `process_previous_x`, SA lines 2758-2781. -/
def CS.process (s : CS) : CS :=
  let (m, g) := processGo s.x [] s.m
  { s with m := m, g := s.g ++ g }

/-- `connectivity_extraction_output_functor`, SA lines 2783-2813. -/
def CS.call (s : CS) (c : Call) : CS :=
  let s := if c.1.1.1 ≠ s.x then s.process else s
  let m := YMap.add s.m c.1.1 (c.2.1 ++ c.2.2)
  { s with x := c.1.1.1, m := YMap.add m c.1.2 (c.2.1 ++ c.2.2) }

/-- The graph that a list of calls gives, SA lines 2833-2843. -/
def graphOf (umax : Int) (cs : List Call) : List (Int × Int) := ((cs.foldl CS.call ⟨umax, [], []⟩).process).g

/-- `execute`, SA lines 2827-2844. Without events `compute_histogram_in_y` reads the front of an empty vector (SA
line 81): the behaviour is undefined and the result is none. -/
def connect (fp : FP) (umin umax : Int) (E : List Ev) : Option (List (Int × Int)) :=
  if E.isEmpty then none else (scan calls umin umax (sortEv (cut fp umin E))).map (graphOf umax)

/-- What is inserted as a node, PSD lines 958-962: a set is cleaned first if it is dirty. -/
def nodeData (fp : FP) (umin umax : Int) (d : Bool × Data) : Option Data := if d.1 then clean fp umin umax d.2 else some d.2

/-- Inserting sets one after the other; the identifiers are consecutive, PSD lines 958-962. -/
def nodes (fp : FP) (umin umax : Int) : Int → List (Bool × Data) → Option (List Ev)
  | _, [] => some []
  | i, d :: r => do
    let c ← nodeData fp umin umax d
    let E ← nodes fp umin umax (i + 1) r
    some (tag i c ++ E)

/-- Inserting sets and `extract`, PSD lines 957-976. -/
def extract (fp : FP) (umin umax : Int) (ds : List (Bool × Data)) : Option (List (Int × Int)) := do
  connect fp umin umax (← nodes fp umin umax 0 ds)

end Verif.ArbMerge
