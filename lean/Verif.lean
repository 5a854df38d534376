import Verif.Model.Bound
import Verif.Model.BoundsProperty
import Verif.Model.Equality
import Verif.Model.Geom
import Verif.Model.Inspect
import Verif.Model.LinearRing
import Verif.Model.LocalMinimum
import Verif.Model.Num
import Verif.Model.PointNode
import Verif.Model.Ring
import Verif.Model.Seq
import Verif.Model.State
import Verif.Model.Sweep
import Verif.Model.Topology
import Verif.Model.Wagyu
import Verif.Proofs.Accuracy
import Verif.Proofs.AddLoop
import Verif.Proofs.AddRing
import Verif.Proofs.Append
import Verif.Proofs.Biased
import Verif.Proofs.Blind
import Verif.Proofs.Blocks
import Verif.Proofs.BoxSweep
import Verif.Proofs.Bubble
import Verif.Proofs.Calm
import Verif.Proofs.Chain
import Verif.Proofs.Convex
import Verif.Proofs.Crossed
import Verif.Proofs.Crossing
import Verif.Proofs.CurrentX
import Verif.Proofs.EdgeLines
import Verif.Proofs.Edges
import Verif.Proofs.EdgesClose
import Verif.Proofs.EdgesRepeat
import Verif.Proofs.EdgesRepeatRing
import Verif.Proofs.EdgesShape
import Verif.Proofs.EdgesShapeRing
import Verif.Proofs.Ends
import Verif.Proofs.Float
import Verif.Proofs.ForestInv
import Verif.Proofs.ForestTopo
import Verif.Proofs.Fuel
import Verif.Proofs.FuelHeap
import Verif.Proofs.FuelSweep
import Verif.Proofs.FuelTopology
import Verif.Proofs.Given
import Verif.Proofs.HeapAdd
import Verif.Proofs.HeapInv
import Verif.Proofs.HeapJoin
import Verif.Proofs.HotAdvance
import Verif.Proofs.HotLoop
import Verif.Proofs.HotQuiet
import Verif.Proofs.HotSweep
import Verif.Proofs.Idle
import Verif.Proofs.Input
import Verif.Proofs.InputEdges
import Verif.Proofs.InputMates
import Verif.Proofs.Inside
import Verif.Proofs.Keep
import Verif.Proofs.KeepBox
import Verif.Proofs.KeepNodes
import Verif.Proofs.KeepRings
import Verif.Proofs.KeepSweep
import Verif.Proofs.KeepTopology
import Verif.Proofs.KeepVatti
import Verif.Proofs.LastHush
import Verif.Proofs.LastLoop
import Verif.Proofs.LastMerge
import Verif.Proofs.LastPairs
import Verif.Proofs.LastSearch
import Verif.Proofs.LastSelf
import Verif.Proofs.LastSwap
import Verif.Proofs.LastTail
import Verif.Proofs.LastWeave
import Verif.Proofs.Net
import Verif.Proofs.NetCycle
import Verif.Proofs.OneHill
import Verif.Proofs.OneOperand
import Verif.Proofs.Output
import Verif.Proofs.PlaneInput
import Verif.Proofs.PlaneSweep
import Verif.Proofs.Post
import Verif.Proofs.Pres
import Verif.Proofs.PresOut
import Verif.Proofs.Prims
import Verif.Proofs.Quicksort
import Verif.Proofs.Quiet
import Verif.Proofs.RingSteps
import Verif.Proofs.RingSum
import Verif.Proofs.Rotate
import Verif.Proofs.RowBox
import Verif.Proofs.RowBoxHot
import Verif.Proofs.Run
import Verif.Proofs.ShapeMinima
import Verif.Proofs.ShapeUnique
import Verif.Proofs.Stats
import Verif.Proofs.Steps
import Verif.Proofs.Still
import Verif.Proofs.Stored
import Verif.Proofs.StoredEdges
import Verif.Proofs.Surgery
import Verif.Proofs.SweepBase
import Verif.Proofs.SweepClose
import Verif.Proofs.SweepEnds
import Verif.Proofs.SweepEvents
import Verif.Proofs.SweepFair
import Verif.Proofs.SweepFairFlat
import Verif.Proofs.SweepFairStep
import Verif.Proofs.SweepFairTop
import Verif.Proofs.SweepInsert
import Verif.Proofs.SweepInv
import Verif.Proofs.SweepMaxima
import Verif.Proofs.SweepOpen
import Verif.Proofs.SweepPrims
import Verif.Proofs.SweepReach
import Verif.Proofs.SweepRun
import Verif.Proofs.SweepRunFlat
import Verif.Proofs.SweepRunMeet
import Verif.Proofs.SweepRunOpen
import Verif.Proofs.SweepRunScan
import Verif.Proofs.SweepRunStep
import Verif.Proofs.SweepRunTop
import Verif.Proofs.Switch
import Verif.Proofs.Symmetry
import Verif.Proofs.TopoCollinear
import Verif.Proofs.TopoDrop
import Verif.Proofs.TopoInv
import Verif.Proofs.TopoJoin
import Verif.Proofs.TopoMarks
import Verif.Proofs.TopoOrient
import Verif.Proofs.TopoPath
import Verif.Proofs.TopoPlace
import Verif.Proofs.TopoRepeat
import Verif.Proofs.TopoRuns
import Verif.Proofs.TopoSearch
import Verif.Proofs.TopoSelf
import Verif.Proofs.TopoSplit
import Verif.Proofs.TopoStep
import Verif.Proofs.TopoTree
import Verif.Proofs.Tot
import Verif.Proofs.TotHeap
import Verif.Proofs.TotSort
import Verif.Proofs.Two
import Verif.Proofs.TwoBounds
import Verif.Proofs.TwoHot
import Verif.Proofs.TwoRun
import Verif.Proofs.TwoVatti
import Verif.Proofs.Unfold
import Verif.Proofs.VattiBase
import Verif.Proofs.VattiHorizontal
import Verif.Proofs.VattiOpen
import Verif.Proofs.VattiStart
import Verif.Proofs.VattiSweep
import Verif.Proofs.VattiTop
import Verif.Proofs.Via
import Verif.Proofs.Visits
import Verif.Proofs.VisitsLoop
import Verif.Proofs.Walks
import Verif.Proofs.WindPure
import Verif.Props.Api
import Verif.Props.BoundsProperty
import Verif.Props.BubbleSort
import Verif.Props.Crossing
import Verif.Props.Degenerate
import Verif.Props.EdgeExtraction
import Verif.Props.EmptyOperand
import Verif.Props.Equality
import Verif.Props.Extent
import Verif.Props.Failures
import Verif.Props.FlatTops
import Verif.Props.Floats
import Verif.Props.Forest
import Verif.Props.Geometry
import Verif.Props.Grouping
import Verif.Props.HorizontalExtent
import Verif.Props.HotPixelSort
import Verif.Props.HotPixels
import Verif.Props.Independence
import Verif.Props.Inspect
import Verif.Props.Intersections
import Verif.Props.LastStage
import Verif.Props.LocalMinima
import Verif.Props.NearEdge
import Verif.Props.OneHill
import Verif.Props.Output
import Verif.Props.PlaneRegions
import Verif.Props.PointNodes
import Verif.Props.Provenance
import Verif.Props.Rectilinear
import Verif.Props.RepeatedPoints
import Verif.Props.ReverseOutput
import Verif.Props.RingSurgery
import Verif.Props.RingSweep
import Verif.Props.RowProvenance
import Verif.Props.Sequences
import Verif.Props.Shape
import Verif.Props.ShapeMaps
import Verif.Props.ShapeMinima
import Verif.Props.Sorting
import Verif.Props.SpanningProvenance
import Verif.Props.Sweep
import Verif.Props.SweepHistory
import Verif.Props.Symmetry
import Verif.Props.TopologyStages
import Verif.Props.WrongResult
import Verif.Spec.Chain
import Verif.Spec.Cycles
import Verif.Spec.Depth
import Verif.Spec.Double
import Verif.Spec.Events
import Verif.Spec.Exchange
import Verif.Spec.Forest
import Verif.Spec.History
import Verif.Spec.LastStage
import Verif.Spec.LocalMinima
import Verif.Spec.Nesting
import Verif.Spec.OneHill
import Verif.Spec.OwnRings
import Verif.Spec.Partners
import Verif.Spec.Plane
import Verif.Spec.PlaneWinding
import Verif.Spec.Region
import Verif.Spec.Renamed
import Verif.Spec.Rings
import Verif.Spec.Scanlines
import Verif.Spec.Shape
import Verif.Spec.Sorting
import Verif.Spec.Swaps
import Verif.Spec.Totals
import Verif.Spec.Winding
