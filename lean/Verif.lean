import Verif.Properties.Transform
import Verif.Properties.Interval
import Verif.Properties.Rectangle
import Verif.Properties.Set90
import Verif.Properties.Segment
import Verif.Properties.SegmentDist
import Verif.Properties.Polygon
import Verif.Properties.RectForm
import Verif.Properties.Resize
import Verif.Properties.Contains
import Verif.Properties.ExtInt
import Verif.Properties.Ulp
import Verif.Properties.VoronoiSites
import Verif.Properties.Robust
import Verif.Properties.Simplify
import Verif.Properties.ResizePoly
import Verif.Properties.PropertyMerge
import Verif.Properties.Touch
import Verif.Model.VoronoiSweep
import Verif.Model.VoronoiBuild
import Verif.Model.VoronoiExists
import Verif.Spec.VoronoiDiagram
import Verif.Model.PolyForm
import Verif.Proofs.VoronoiSweep
import Verif.Proofs.VoronoiBuild
import Verif.Proofs.VoronoiRun
import Verif.Properties.VoronoiDiagram
import Verif.Proofs.PolyPath
import Verif.Proofs.PolyLam
import Verif.Proofs.PolyWeb
import Verif.Proofs.PolyInv
import Verif.Proofs.PolyCol
import Verif.Proofs.PolyBottom
import Verif.Proofs.PolyTop
import Verif.Proofs.PolyRound
import Verif.Proofs.PolyFinish
import Verif.Proofs.PolyLoop
import Verif.Proofs.PolyData
import Verif.Proofs.PolyRange
import Verif.Spec.PolyForm
import Verif.Proofs.PolyGet
import Verif.Properties.PolyForm
import Verif.Properties.Interact
import Verif.Properties.MaxCover
import Verif.Model.Arb
import Verif.Spec.Arb
import Verif.Proofs.ArbOrder
import Verif.Properties.Arb
import Verif.Model.PolySet
import Verif.Spec.PolySet
import Verif.Proofs.PolySet
import Verif.Properties.PolySet
import Verif.Spec.Cut
import Verif.Model.Cut
import Verif.Proofs.CutInsert
import Verif.Properties.Cut
import Verif.Spec.SegUtils
import Verif.Model.SegUtils
import Verif.Proofs.SegUtils
import Verif.Properties.SegUtils
import Verif.Model.ArbMerge
import Verif.Proofs.ArbSides
import Verif.Proofs.ArbInsert
import Verif.Proofs.ArbMerge
import Verif.Properties.ArbMerge
import Verif.Proofs.ArbGraph
import Verif.Proofs.ArbTouch
import Verif.Proofs.ArbExtract
import Verif.Properties.ArbTouch
import Verif.Spec.ArbForm
import Verif.Model.ArbForm
import Verif.Proofs.FormHeap
import Verif.Proofs.FormClose
import Verif.Proofs.FormWeb
import Verif.Proofs.FormPoint
import Verif.Proofs.FormOpen
import Verif.Proofs.FormColor
import Verif.Proofs.FormLists
import Verif.Proofs.FormColumn
import Verif.Proofs.FormStep
import Verif.Proofs.FormAfter
import Verif.Proofs.FormScan
import Verif.Proofs.FormRing
import Verif.Model.ArbGet
import Verif.Properties.ArbForm
import Verif.Model.Scan45
import Verif.Model.Set45
import Verif.Spec.Deg45
import Verif.Proofs.S45Advance
import Verif.Proofs.S45Any
import Verif.Proofs.S45Column
import Verif.Proofs.S45Erase
import Verif.Proofs.S45Event
import Verif.Proofs.S45Lines
import Verif.Proofs.S45Loop
import Verif.Proofs.S45Mid
import Verif.Proofs.S45Mid2
import Verif.Proofs.S45Out
import Verif.Proofs.S45Point
import Verif.Proofs.S45Scan
import Verif.Proofs.S45Map
import Verif.Proofs.S45Start
import Verif.Proofs.S45Step
import Verif.Proofs.Set45Depth
import Verif.Proofs.Set45Insert
import Verif.Proofs.Set45Prog
import Verif.Proofs.Set45Run
import Verif.Proofs.Set45Set
import Verif.Properties.Deg45
import Verif.Model.Form45
import Verif.Model.Merge45
import Verif.Spec.Merge45
import Verif.Proofs.F45Gen
import Verif.Proofs.F45Rel
import Verif.Proofs.Merge45
import Verif.Properties.Merge45
import Verif.Proofs.T45Calls
import Verif.Proofs.T45Col
import Verif.Proofs.T45Sem
import Verif.Proofs.T45Scan
import Verif.Proofs.Touch45
import Verif.Properties.Touch45
import Verif.Proofs.F45Heap
import Verif.Proofs.F45Arb
import Verif.Proofs.F45Step
import Verif.Proofs.F45Point
import Verif.Proofs.F45Form
import Verif.Proofs.N45Local
import Verif.Proofs.N45Edges
import Verif.Proofs.N45Noded
import Verif.Proofs.N45Star
import Verif.Proofs.N45Run
import Verif.Proofs.N45Manh
import Verif.Proofs.FormThree
import Verif.Proofs.FormProper
import Verif.Proofs.FormCover
import Verif.Proofs.FormRow
import Verif.Proofs.FormOrd
import Verif.Proofs.FormJoin
import Verif.Proofs.FormFit
import Verif.Proofs.FormLay
import Verif.Proofs.N45Prog
import Verif.Properties.Form45
import Verif.Model.SetArea
import Verif.Proofs.PolyArea
import Verif.Properties.RoundTrip
import Verif.Model.Frac45
import Verif.Proofs.FrLine
import Verif.Proofs.FrHeap
import Verif.Proofs.FrSim
import Verif.Proofs.FrOps
import Verif.Proofs.FrEnds
import Verif.Proofs.FrSlit
import Verif.Proofs.FrPoint
import Verif.Proofs.FrForm
import Verif.Proofs.FrScan
import Verif.Proofs.FrCmp
import Verif.Proofs.FrGet
import Verif.Properties.Frac45
import Verif.Properties.SetTransform
import Verif.Properties.Extents
import Verif.Spec.Circle
import Verif.Model.VoronoiCircle
import Verif.Proofs.Circle
import Verif.Proofs.CircleCross
import Verif.Proofs.CircleEval
import Verif.Properties.VoronoiCircle
import Verif.Model.VoronoiLazy
import Verif.Properties.VoronoiLazy
import Verif.Model.VoronoiBeach
import Verif.Spec.Beach
import Verif.Proofs.Beach
import Verif.Properties.VoronoiBeach
import Verif.Model.Concept90
import Verif.Spec.Keep
import Verif.Properties.Concept90
import Verif.Model.Resize90
import Verif.Proofs.ResizeValid
import Verif.Properties.Resize90
import Verif.Properties.GrowAnd
import Verif.Model.ArbKeep
import Verif.Properties.ArbKeep
import Verif.Model.Snap45
import Verif.Properties.Snap45
import Verif.Proofs.CutPoint
import Verif.Model.ScaleDown
import Verif.Spec.ScaleDown
import Verif.Proofs.ScaleDown
import Verif.Properties.ScaleDown
import Verif.Model.Resize45
import Verif.Spec.Resize45
import Verif.Proofs.Resize45
import Verif.Proofs.ResizeRegion45
import Verif.Proofs.ResizeCorner45
import Verif.Properties.Resize45
import Verif.Model.OffsetArb
import Verif.Spec.OffsetArb
import Verif.Proofs.OffsetArb
import Verif.Properties.OffsetArb
import Verif.Model.Minkowski
import Verif.Spec.Minkowski
import Verif.Proofs.Loop
import Verif.Proofs.RingLoop
import Verif.Proofs.Parallel
import Verif.Proofs.Minkowski
import Verif.Properties.Minkowski
