import Verif.Model.Cut
/-!
# Model of `intersect_segments`

`SU` is `/repo/include/boost/polygon/segment_utils.hpp`, `SA` is
`/repo/include/boost/polygon/detail/scan_arbitrary.hpp`. Coordinates are unbounded integers; floating point results
are parameters (`FP`).
-/
namespace Verif.Cut
open Verif Verif.Arb

/-- SU lines 51-56: the segments with their indices, from `i` on. -/
def numb : Nat → List HE → List Seg
  | _, [] => []
  | i, e :: r => (e, i) :: numb (i + 1) r

/-- `segment_intersections`, SA lines 347-372, for the segments from index `i` on. -/
def segGo (ip : Pts) : Nat → List HE → List (Nat × HE)
  | _, [] => []
  | i, e :: r => (pieces e (ip i)).map (fun p => (i, p)) ++ segGo ip (i + 1) r

/-- `intersect_segments` with indices, SU lines 40-72. -/
def intersectSegments (fp : FP) (umin : Int) (S : List HE) : List (Nat × HE) :=
  if S.isEmpty then [] else segGo (divide fp umin (numb 0 S)) 0 S

/-- `intersect_segments` without indices, SU lines 91-122. -/
def intersectSegments' (fp : FP) (umin : Int) (S : List HE) : List HE := (intersectSegments fp umin S).map Prod.snd

end Verif.Cut
