import Verif.Model.ArbGet
import Verif.Model.Set45
import Verif.Model.Rectangle
/-!
# Model of the extents of polygons and polygon sets

`PSD` is `/repo/include/boost/polygon/polygon_set_data.hpp`, `PS45` is `polygon_45_set_data.hpp`, `PT` is `polygon_traits.hpp`.
-/
namespace Verif.Extents
open Verif.Interval Verif.Rectangle

/-- One turn of the loop, PSD 346-353: the box of the edge is assigned or added. `none` stands for `first_iteration`. -/
def stepEdge (acc : Option Rect) (e : ((Int × Int) × (Int × Int)) × Int) : Option Rect :=
  let box := setPoints e.1.1 e.1.2
  match acc with
  | none => some box
  | some r => some (encompassRect r box).1

/-- `extents` of `polygon_set_data`, PSD 340-356; `none` inside is the `false` return, `none` outside a `clean` that does not end. `S` is the data after `sort()`. -/
def extents (fp : Cut.FP) (umin umax : Int) (S : PolySet.Data) : Option (Option Rect) :=
  (Cut.clean fp umin umax S).map (fun C => C.foldl stepEdge none)

/-- The loop of `extents`, PS45 646-655: a comparison with either end of the two intervals. -/
def widen (b : Rect) (p : Int × Int) : Rect :=
  let h := if p.1 > b.h.hi then { b.h with hi := p.1 } else b.h
  let h := if p.1 < h.lo then { h with lo := p.1 } else h
  let v := if p.2 > b.v.hi then { b.v with hi := p.2 } else b.v
  let v := if p.2 < v.lo then { v with lo := p.2 } else v
  ⟨h, v⟩

/-- What `extents` of a set comes to. -/
inductive Got where
  | box (r : Option Rect)
  | undefined
  | fail (e : Deg45.Err)
  deriving DecidableEq

/-- `extents` of `polygon_45_set_data`, PS45 635-659. The intervals start from the largest and the smallest coordinate (642-645); `construct`
copies them. -/
def extents45 (umin umax : Int) (s : Set45.S45) : Got :=
  match s.clean umin umax with
  | .ok t =>
    if t.empty then .box none
    else
      .box (some ((t.data.map Prod.fst).foldl widen ⟨⟨umax, umin⟩, ⟨umax, umin⟩⟩))
  | .fail e => .fail e
  | .undef => .undefined

/-- One turn of the loop over the points, PT 1441-1448. -/
def stepPoint (acc : Option Rect) (p : Int × Int) : Option Rect :=
  match acc with
  | none => some (setPoints p p)
  | some r => some (encompassPt r p).1

/-- `extents` of a polygon, PT 1433-1451: its outline only; `none` is the `false` return. -/
def polyExtents (P : List (Int × Int)) : Option Rect := P.foldl stepPoint none

/-- `center` of a polygon, PT 1453-1463: the centre of the extents; without points the rectangle is the default one (`rectangle_data.hpp` 22). -/
def polyCenter (P : List (Int × Int)) : Int × Int := centerRect ((polyExtents P).getD ⟨⟨0, 0⟩, ⟨0, 0⟩⟩)

end Verif.Extents
