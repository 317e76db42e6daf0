import Verif.Model.Ffi
import Verif.Props.Indexing
import Verif.Props.Invert
import Verif.Props.Angles
import Verif.Props.Segment
import Verif.Props.Split
import Verif.Props.Area
import Verif.Props.Transform
import Verif.Props.View
import Verif.Props.Repeat
import Verif.Props.Rotate
import Verif.Props.PathPoint
import Verif.Props.ApproxLines
import Verif.Props.Redundant
import Verif.Props.RedundantLines
import Verif.Props.RedundantArcs
import Verif.Props.Boxes
import Verif.Props.Closest
import Verif.Props.LineLine
import Verif.Props.Circles
import Verif.Props.SegIntr
import Verif.Props.ArcIntr
import Verif.Props.ArcOverlap
import Verif.Props.SegIntrMore
import Verif.Model.FfiCall
import Verif.Spec.FfiApi
import Verif.Props.Ffi
import Verif.Props.FfiHistory
import Verif.Props.FfiOwn
import Verif.Spec.PlainEnv
import Verif.Spec.Intersects
import Verif.Props.FindIntr
import Verif.Props.FindIntrReal
import Verif.Spec.SelfIntersects
import Verif.Props.SelfIntr
import Verif.Spec.Overlap
import Verif.Lemmas.Overlap
import Verif.Props.OverlapJoin
import Verif.Spec.Stitch
import Verif.Lemmas.BoolSlices
import Verif.Props.BooleanStitch
import Verif.Spec.Boolean
import Verif.Spec.StitchOrder
import Verif.Lemmas.StitchRounds
import Verif.Props.Boolean
import Verif.Lemmas.RawOffset
import Verif.Spec.Offset
import Verif.Props.OffsetStitch
import Verif.Lemmas.OffsetSlices
import Verif.Lemmas.OffsetCut
import Verif.Props.Offset
import Verif.Props.OffsetReal
import Verif.Spec.Shape
import Verif.Lemmas.Shape
import Verif.Lemmas.ShapeSlices
import Verif.Lemmas.ShapeStitch
import Verif.Props.Shape
import Verif.Props.ShapeReal
import Verif.Props.RawOffset
import Verif.Props.NoPanic
import Verif.Spec.Winding
import Verif.Lemmas.Turning
import Verif.Lemmas.Winding
import Verif.Props.Winding
import Verif.Model.Iter
import Verif.Props.Iter
import Verif.Spec.Region
import Verif.Lemmas.WindingRegion
import Verif.Lemmas.WindingPath
import Verif.Props.Region
import Verif.Model.Numeric
import Verif.Props.Numeric
import Verif.Props.Validate
import Verif.Model.Serde
import Verif.Spec.Serde
import Verif.Lemmas.Serde
import Verif.Props.Serde
import Verif.Model.FfiOptions
import Verif.Lemmas.Options
import Verif.Props.Options
import Verif.Props.IndexExtents
import Verif.Spec.SubPath
import Verif.Lemmas.SubPath
import Verif.Props.SubPath
import Verif.Lemmas.Crossing
import Verif.Lemmas.ProductRule
import Verif.Lemmas.Balance
import Verif.Lemmas.PartShape
import Verif.Lemmas.CutPieces
import Verif.Lemmas.CutSlices
import Verif.Lemmas.CutTable
import Verif.Lemmas.CutWeights
import Verif.Lemmas.PieceList
import Verif.Spec.Crossing
import Verif.Lemmas.StitchAll
import Verif.Lemmas.RegionPieces
import Verif.Lemmas.RegionSums
import Verif.Lemmas.RegionRun
import Verif.Props.RegionBool
import Verif.Spec.ClearLines
import Verif.Lemmas.FindCrossing
import Verif.Props.RegionExample
import Verif.Lemmas.ClearPairs
import Verif.Props.SegExact
import Verif.Props.RegionArcs
import Verif.Props.RegionApart
import Verif.Props.OffsetSelfClosed
import Verif.Props.OffsetSelfRegion
import Verif.Lemmas.OverlapTrace
import Verif.Props.OverlapTrace
import Verif.Spec.OffsetStraight
import Verif.Lemmas.OffsetStraight
import Verif.Lemmas.OffsetStraightRaw
import Verif.Lemmas.OffsetGeom
import Verif.Lemmas.OffsetParts
import Verif.Lemmas.OffsetKeep
import Verif.Lemmas.Chamfer
import Verif.Props.OffsetStraight
import Verif.Spec.SelfCrossing
import Verif.Spec.OffsetTests
import Verif.Lemmas.SelfCuts
import Verif.Lemmas.OffsetLocal
import Verif.Lemmas.OffsetPieces
import Verif.Lemmas.OffsetStitch
import Verif.Lemmas.OffsetKeepPieces
import Verif.Lemmas.OffsetResult
import Verif.Lemmas.OffsetCurve
import Verif.Lemmas.OffsetBranch
import Verif.Lemmas.ChamferOffset
import Verif.Lemmas.TangentJoint
import Verif.Lemmas.RoundSquare
import Verif.Lemmas.RoundSquareOffset
import Verif.Props.OffsetCurve
import Verif.Lemmas.OffsetFlow
import Verif.Lemmas.OffsetClosed
import Verif.Props.OffsetLoops
import Verif.Lemmas.Jump
import Verif.Spec.Simple
import Verif.Lemmas.SimpleLoop
import Verif.Lemmas.Sides
import Verif.Lemmas.SimpleArcs
import Verif.Props.SimpleLoop
import Verif.Lemmas.OffsetEdges
import Verif.Lemmas.OffsetRegion
import Verif.Props.OffsetRegion
import Verif.Lemmas.AreaLines
import Verif.Lemmas.AreaArcs
import Verif.Spec.Measure
import Verif.Props.AreaRegion
import Verif.Spec.OffsetArcs
import Verif.Lemmas.OffsetArcsPart
import Verif.Lemmas.OffsetArcsRun
import Verif.Lemmas.OffsetArcsHits
import Verif.Lemmas.OffsetArcsJoin
import Verif.Lemmas.OffsetArcsNear
import Verif.Lemmas.HalfDisc
import Verif.Props.OffsetArcs
import Verif.Spec.OffsetAny
import Verif.Lemmas.OffsetSteady
import Verif.Lemmas.House
import Verif.Lemmas.HouseOffset
import Verif.Props.OffsetAny
import Verif.Props.ParallelCurve
import Verif.Lemmas.AnyClosed
import Verif.Lemmas.RawFlow
import Verif.Props.ParallelLoops
import Verif.Spec.OffsetOpen
import Verif.Lemmas.OpenPieces
import Verif.Lemmas.OpenRun
import Verif.Lemmas.OpenResult
import Verif.Lemmas.OpenFound
import Verif.Props.OffsetOpen
import Verif.Spec.OffsetOpenRaw
import Verif.Spec.OffsetOpenCurve
import Verif.Spec.OffsetOpenCross
import Verif.Lemmas.OpenParts
import Verif.Lemmas.OpenFoot
import Verif.Lemmas.OpenKeeps
import Verif.Lemmas.HookCross
import Verif.Lemmas.OpenCurve
import Verif.Lemmas.OpenRaw
import Verif.Lemmas.Hook
import Verif.Lemmas.HalfDiscOpen
import Verif.Props.OffsetOpenRaw
import Verif.Lemmas.HookOffset
import Verif.Spec.OffsetSelf
import Verif.Lemmas.LoopRun
import Verif.Lemmas.LoopResult
import Verif.Lemmas.LoopFound
import Verif.Lemmas.Coil
import Verif.Lemmas.CoilOffset
import Verif.Lemmas.StraightCorner
import Verif.Lemmas.BoxSelf
import Verif.Spec.OffsetSelfCross
import Verif.Lemmas.SelfFoot
import Verif.Lemmas.SelfKeeps
import Verif.Lemmas.StraightClean
import Verif.Lemmas.CoilCorners
import Verif.Props.OffsetSelf
import Verif.Spec.Same
import Verif.Lemmas.SameSeg
import Verif.Lemmas.SameRun
import Verif.Props.BooleanSame
import Verif.Props.BooleanSameReal
import Verif.Spec.ShapeOffset
import Verif.Lemmas.ShapeRun
import Verif.Lemmas.ShapeLoop
import Verif.Lemmas.ShapeFound
import Verif.Lemmas.ShapeChains
import Verif.Lemmas.ShapeResult
import Verif.Lemmas.OffsetWhole
import Verif.Lemmas.Bay
import Verif.Lemmas.Islet
import Verif.Lemmas.IsletWater
import Verif.Props.ShapeOffset
import Verif.Lemmas.ShortenedSums
import Verif.Props.KeepMeasures
import Verif.Lemmas.SidedArcs
import Verif.Lemmas.AnyRegion
import Verif.Lemmas.OffsetRegionArcs
import Verif.Props.OffsetRegionArcs
import Verif.Spec.ShapeRegion
import Verif.Lemmas.ShapeRegion
import Verif.Lemmas.ShapeFollows
import Verif.Lemmas.ResultParts
import Verif.Lemmas.IsletRegion
import Verif.Props.ShapeRegion
import Verif.Lemmas.Room
import Verif.Lemmas.RoomOffset
import Verif.Props.OffsetRoom
import Verif.Spec.ShapeCross
import Verif.Lemmas.ShapeCross
import Verif.Lemmas.ShapeCrossKeeps
import Verif.Props.ShapeCross
import Verif.Lemmas.OffsetTurn
import Verif.Props.OffsetTurn
import Verif.Lemmas.ResultSimple
import Verif.Props.OffsetSimple
import Verif.Spec.ShapeSingle
import Verif.Lemmas.IsletSingle
import Verif.Props.ShapeSingle
import Verif.Lemmas.ShapeSimple
import Verif.Props.ShapeSimple
import Verif.Spec.ShapeTwice
import Verif.Lemmas.OffsetTwice
import Verif.Lemmas.Wedge
import Verif.Props.OffsetTwice
import Verif.Props.OffsetNested
import Verif.Lemmas.Frame
import Verif.Props.OffsetBack
import Verif.Props.OffsetRepeat
import Verif.Spec.Passes
import Verif.Props.Passes
import Verif.Props.OffsetEnd
import Verif.Lemmas.Gib
import Verif.Props.OffsetSame
import Verif.Props.ShapeOfOne
