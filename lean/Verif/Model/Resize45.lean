import Mathlib.Algebra.Order.Group.Unbundled.Int
import Mathlib.Data.Nat.Sqrt
/-!
# Model of resizing 45-degree polygons

`/repo/include/boost/polygon/polygon_45_set_data.hpp` lines 742-1160. Coordinates are unbounded integers. How far a diagonal edge is moved along each
axis is a floating point result, a parameter of the model (`fd`).
-/
namespace Verif.Resize45


abbrev Pt := Int × Int

/-- `RoundingOption`, line 17. -/
inductive Rounding where
  | closest | oversize | undersize | sqrt2 | sqrt1over2
  deriving DecidableEq

/-- `CornerOption`, line 18. -/
inductive Corner where
  | intersection | orthogonal | unfilled
  deriving DecidableEq

/-- `runs` and `rises`, lines 843-844: the eight directions, east first, anticlockwise. -/
def vec : Nat → Pt
  | 0 => (1, 0)
  | 1 => (1, 1)
  | 2 => (0, 1)
  | 3 => (-1, 1)
  | 4 => (-1, 0)
  | 5 => (-1, -1)
  | 6 => (0, -1)
  | _ => (1, -1)

/-- `getEdge45Direction`, lines 810-826. -/
def edgeDir (p q : Pt) : Nat :=
  if p.1 = q.1 then (if p.2 < q.2 then 2 else 6)
  else if p.2 = q.2 then (if p.1 < q.1 then 0 else 4)
  else if q.2 > p.2 then (if q.1 > p.1 then 1 else 3)
  else if q.1 > p.1 then 7 else 5

/-- `getEdge45NormalDirection`, lines 828-832. -/
def normalDir (dir : Nat) (mult : Int) : Nat := if mult < 0 then (dir + 2) % 8 else (dir + 4 + 2) % 8

/-- How far lines 784-790 move a vertex along each axis for a diagonal direction; `fd` is `roundWithOptions` of the distance divided by the square root
of two, lines 758-776. -/
def diagDist (fd : Rounding → Int → Int) (rounding : Rounding) (b : Int) : Int := if rounding = .sqrt2 then b else fd rounding b

/-- The results of exact arithmetic for `roundWithOptions`, lines 758-776. -/
def exactDiag (rounding : Rounding) (b : Int) : Int :=
  match rounding with
  | .closest => ((Nat.sqrt (2 * b.toNat * b.toNat) + 1) / 2 : Nat)
  | .oversize => (Nat.sqrt (b.toNat * b.toNat / 2) + 1 : Nat)
  | _ => (Nat.sqrt (b.toNat * b.toNat / 2) : Nat)

/-- `bloatVertexInDirWithOptions`, lines 779-808, with the distance along each axis for a diagonal direction. -/
def bloatVertex (b u : Int) (dir : Nat) (p : Pt) : Pt :=
  if dir % 2 = 1 then
    let mx : Int := if dir = 3 ∨ dir = 5 then -1 else 1
    let my : Int := if dir = 5 ∨ dir = 7 then -1 else 1
    (p.1 + mx * u, p.2 + my * u)
  else if dir = 0 then (p.1 + b, p.2)
  else if dir = 2 then (p.1, p.2 + b)
  else if dir = 4 then (p.1 - b, p.2)
  else if dir = 6 then (p.1, p.2 - b)
  else (0, 0)

/-- `getIntersectionPoint`, lines 834-883. `none` is a division by zero. -/
def crossing (p1 : Pt) (s1 : Nat) (p2 : Pt) (s2 : Nat) : Option Pt :=
  let rise1 := (vec s1).2
  let rise2 := (vec s2).2
  let run1 := (vec s1).1
  let run2 := (vec s2).1
  if run1 = 0 then
    if run2 = 0 then none else some (p1.1, ((p1.1 - p2.1) * rise2).tdiv run2 + p2.2)
  else if run2 = 0 then some (p2.1, ((p2.1 - p1.1) * rise1).tdiv run1 + p1.2)
  else if rise1 * run2 - rise2 * run1 = 0 then none
  else
    let x := ((p2.2 - p1.2 + (rise1 * p1.1).tdiv run1 - (rise2 * p2.1).tdiv run2) * (run1 * run2)).tdiv (rise1 * run2 - rise2 * run1)
    if rise1 = 0 then some (x, p1.2)
    else if rise2 = 0 then some (x, p2.2)
    else some (x, ((p2.1 - p1.1 + (run1 * p1.2).tdiv rise1 - (run2 * p2.2).tdiv rise2) * (rise1 * rise2)).tdiv (run1 * rise2 - run2 * rise1))

/-- What is inserted into the sizing set: a rectangle given by two opposite corners, or a polygon. -/
inductive Piece where
  | rect (a b : Pt)
  | poly (pts : List Pt)
  deriving DecidableEq

/-- The quadrilateral of a corner, lines 1077-1083 and 1038-1044. -/
def quad (e1 v e2 : Pt) (s1 s2 : Nat) : Option (List Piece) :=
  match crossing e1 s1 e2 s2 with
  | none => none
  | some x => some [.poly [e1, v, e2, x]]

/-- `bloatVertexInDirWithSQRT1OVER2`, lines 965-998. -/
def bloatHalf (edge1 normal1 : Nat) (p : Pt) (b : Int) (first : Bool) : Pt :=
  let m : Int := if first then 1 else -1
  let along (d : Int) : Pt := if first then (p.1 + d, p.2) else (p.1, p.2 + d)
  let perp (d : Int) : Pt := if first then (p.1, p.2 + d) else (p.1 + d, p.2)
  if edge1 = 1 then (if normal1 = 3 then along (-m * b) else perp (-m * b))
  else if edge1 = 3 then (if normal1 = 1 then along (m * b) else perp (-m * b))
  else if edge1 = 5 then (if normal1 = 3 then perp (m * b) else along (m * b))
  else (if normal1 = 5 then along (-m * b) else perp (m * b))

/-- `handleResizingVertex45`, lines 1000-1084. -/
def vertexPieces (fd : Rounding → Int → Int) (first second third : Pt) (resizing : Int) (rounding : Rounding) (corner : Corner) (mult : Int) :
    Option (List Piece) :=
  let edge1 := edgeDir first second
  let edge2 := edgeDir second third
  let diff := if mult < 0 then (edge2 + 8 - edge1) % 8 else (edge1 + 8 - edge2) % 8
  if diff < 4 ∧ resizing > 0 then some []
  else
    let mult := if diff < 4 then mult * -1 else mult
    let b := |resizing|
    let normal1 := normalDir edge1 mult
    let normal2 := normalDir edge2 mult
    if rounding = .sqrt1over2 then
      if edge1 % 2 = 1 ∧ edge2 % 2 = 1 then some []
      else if corner = .orthogonal ∧ edge1 % 2 = 0 ∧ edge2 % 2 = 0 then
        some [.rect (second.1 - b, second.2 - b) (second.1 + b, second.2 + b)]
      else if corner ≠ .orthogonal then
        let u := fd .undersize b
        let pt1 := if edge1 % 2 = 1 then bloatHalf edge1 normal1 second b true else bloatVertex b u normal1 second
        let pt2 := if edge2 % 2 = 1 then bloatHalf edge2 normal2 second b false else bloatVertex b u normal2 second
        quad pt1 second pt2 edge1 edge2
      else
        let normal := if edge1 % 2 = 1 then normal2 else normal1
        let e := bloatVertex b (fd .undersize b) normal second
        if normal = 0 ∨ normal = 4 then
          some [.rect (min second.1 e.1, min second.2 e.2 - b) (max second.1 e.1, max second.2 e.2 + b)]
        else some [.rect (min second.1 e.1 - b, min second.2 e.2) (max second.1 e.1 + b, max second.2 e.2)]
    else
      let u := diagDist fd rounding b
      let e1 := bloatVertex b u normal1 second
      let e2 := bloatVertex b u normal2 second
      if ((edge1 : Int) + mult * 3) % 8 = edge2 ∧ corner = .orthogonal then some [.rect e1 e2]
      else quad e1 second e2 edge1 edge2

/-- `handleResizingEdge45`, lines 934-963, and `handleResizingEdge45_SQRT1OVER2`, lines 885-931. The sequences the code inserts as clockwise ones are listed
backwards here, so that all run the same way. -/
def edgePiece (fd : Rounding → Int → Int) (first second : Pt) (resizing : Int) (rounding : Rounding) (corner : Corner) : Piece :=
  if first.1 = second.1 then .rect (first.1 - resizing, first.2) (first.1 + resizing, second.2)
  else if first.2 = second.2 then .rect (first.1, first.2 - resizing) (second.1, first.2 + resizing)
  else
    let b := |resizing|
    let p := if second.1 < first.1 then second else first
    let q := if second.1 < first.1 then first else second
    if rounding = .sqrt1over2 then
      if corner = .unfilled then
        let b := b.tdiv 2 + b.tmod 2
        if p.2 < q.2 then .poly [(q.1 + b, q.2 - b), (q.1 - b, q.2 + b), (p.1 - b, p.2 + b), (p.1 + b, p.2 - b)]
        else .poly [(p.1 + b, p.2 + b), (p.1 - b, p.2 - b), (q.1 - b, q.2 - b), (q.1 + b, q.2 + b)]
      else if p.2 < q.2 then .poly [(q.1 + b, q.2), (q.1, q.2 + b), (p.1 - b, p.2), (p.1, p.2 - b)]
      else .poly [(q.1, q.2 - b), (q.1 + b, q.2), (p.1, p.2 + b), (p.1 - b, p.2)]
    else
      let u := diagDist fd rounding b
      if p.2 < q.2 then .poly [bloatVertex b u 3 p, bloatVertex b u 7 p, bloatVertex b u 7 q, bloatVertex b u 3 q]
      else .poly [bloatVertex b u 1 p, bloatVertex b u 5 p, bloatVertex b u 5 q, bloatVertex b u 1 q]

/-- The corners the loop in lines 1112-1131 goes through: three consecutive points, starting with the first; the last point is left out if it repeats the
first. -/
def corners (pts : List Pt) : List (Pt × Pt × Pt) :=
  let l := if pts.getLast? = pts.head? then pts.dropLast else pts
  l.zip ((l.drop 1 ++ l.take 1).zip (l.drop 2 ++ l.take 2))

/-- The pieces of all corners, `none` if one fails. -/
def gather (f : Pt × Pt × Pt → Option (List Piece)) : List (Pt × Pt × Pt) → Option (List Piece)
  | [] => some []
  | c :: r => match f c with
    | none => none
    | some a => match gather f r with
      | none => none
      | some b => some (a ++ b)

/-- The sizing set of `insert_with_resize_dispatch`, lines 1086-1131, for a polygon that winds clockwise or not. Polygons of fewer than three points are not
resized. -/
def sizing (fd : Rounding → Int → Int) (pts : List Pt) (clockwise : Bool) (resizing : Int) (rounding : Rounding) (corner : Corner) (hole : Bool) :
    Option (List Piece) :=
  let mult : Int := if clockwise then -1 else 1
  let resizing := if hole then resizing * -1 else resizing
  gather (fun c =>
    let e := edgePiece fd c.1 c.2.1 resizing rounding corner
    if corner = .unfilled then some [e]
    else match vertexPieces fd c.1 c.2.1 c.2.2 resizing rounding corner mult with
      | none => none
      | some l => some (e :: l)) (if pts.length < 3 then [] else corners pts)

end Verif.Resize45
