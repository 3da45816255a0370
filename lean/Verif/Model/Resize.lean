import Verif.Model.RectForm
/-!
# Model of `bloat2` and `shrink2`

Line numbers refer to include/boost/polygon/polygon_90_set_data.hpp. The sizing amounts are of an
unsigned type in the code and cast to the coordinate type; here they are integers.
-/
namespace Verif.Resize
open Verif.BooleanOp Verif.Set90 Verif.Isotropy Verif.Interval Verif.Rectangle Verif.RectForm

/-- `bloat2`, lines 348-368. -/
def _root_.Verif.Set90.PSet.bloat2 (umax : Int) (s : PSet) (west east south north : Int) : Option PSet := do
  let s ← s.clean umax
  let (rects, s) ← s.getRectangles umax
  let conv : Rect := ⟨⟨-west, east⟩, ⟨-south, north⟩⟩
  let rects := rects.map (fun r => convolveRect r conv)
  return rects.foldl (fun s r => s.insertRect r false) s.clear

/-- `shrink2`, lines 620-652. -/
def _root_.Verif.Set90.PSet.shrink2 (umax : Int) (s : PSet) (west east south north : Int) : Option PSet := do
  let (e, s) ← s.extents umax
  match e with
  | none => return s
  | some ext =>
    let boundary := bloatRect ext 10
    let s := (s.insertRect boundary true).sort
    let rects := (← formRects umax s.data).map (SR.toRect s.orient)
    let conv : Rect := ⟨⟨-east, west⟩, ⟨-north, south⟩⟩
    let s := rects.foldl (fun s r => s.insertRect (convolveRect r conv) true) s.clear
    (s.insertRect (convolveRect boundary conv) false).clean umax

end Verif.Resize
