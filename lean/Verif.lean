import Verif.Model.Basic
import Verif.Model.CApi
import Verif.Model.Combine
import Verif.Model.Geom
import Verif.Model.Hilbert
import Verif.Model.Intersects
import Verif.Model.Islands
import Verif.Model.Offset
import Verif.Model.Polyline
import Verif.Model.Segment
import Verif.Model.SpatialIndex
import Verif.Model.Std
import Verif.Proofs.Angles
import Verif.Proofs.Arc
import Verif.Proofs.ArcCurves
import Verif.Proofs.ArcEdges
import Verif.Proofs.ArcFound
import Verif.Proofs.ArcJump
import Verif.Proofs.ArcKept
import Verif.Proofs.ArcLoops
import Verif.Proofs.ArcMeet
import Verif.Proofs.ArcNatural
import Verif.Proofs.ArcPart
import Verif.Proofs.ArcPlanar
import Verif.Proofs.ArcSector
import Verif.Proofs.ArcSetup
import Verif.Proofs.ArcSide
import Verif.Proofs.ArcSlices
import Verif.Proofs.AreaWinding
import Verif.Proofs.Beside
import Verif.Proofs.CircSeg
import Verif.Proofs.ClearMeets
import Verif.Proofs.CrossJump
import Verif.Proofs.Curve
import Verif.Proofs.CurveMul
import Verif.Proofs.CutOrder
import Verif.Proofs.CutPath
import Verif.Proofs.CutPiece
import Verif.Proofs.CutPoly
import Verif.Proofs.CutShape
import Verif.Proofs.EdgeBalance
import Verif.Proofs.FindIntr
import Verif.Proofs.Float32
import Verif.Proofs.GeneralPos
import Verif.Proofs.HilbertCurve
import Verif.Proofs.IndexUse
import Verif.Proofs.IslandAll
import Verif.Proofs.IslandDeep
import Verif.Proofs.IslandKept
import Verif.Proofs.IslandLevel
import Verif.Proofs.IslandWinds
import Verif.Proofs.LoopSimple
import Verif.Proofs.LoopSum
import Verif.Proofs.Loops
import Verif.Proofs.Meet
import Verif.Proofs.MeetLoops
import Verif.Proofs.MeetNatural
import Verif.Proofs.MeetPart
import Verif.Proofs.MeetSimple
import Verif.Proofs.MeetSum
import Verif.Proofs.OffsetEdges
import Verif.Proofs.OffsetJump
import Verif.Proofs.OffsetLevel
import Verif.Proofs.OffsetLoops
import Verif.Proofs.OffsetNear
import Verif.Proofs.OffsetOnce
import Verif.Proofs.OffsetRegion
import Verif.Proofs.OffsetWinds
import Verif.Proofs.PathDiam
import Verif.Proofs.PathPiece
import Verif.Proofs.PathWind
import Verif.Proofs.Pline
import Verif.Proofs.PlineConn
import Verif.Proofs.PlineIndex
import Verif.Proofs.PolyPieces
import Verif.Proofs.RawLocal
import Verif.Proofs.RawParts
import Verif.Proofs.RawPath
import Verif.Proofs.SIndexBuild
import Verif.Proofs.SIndexCount
import Verif.Proofs.SIndexEnum
import Verif.Proofs.SIndexOverflow
import Verif.Proofs.SIndexQuery
import Verif.Proofs.Seg
import Verif.Proofs.SelLoops
import Verif.Proofs.Semi
import Verif.Proofs.SidesMul
import Verif.Proofs.SimpleArcs
import Verif.Proofs.SimpleCorner
import Verif.Proofs.SimpleJordan
import Verif.Proofs.SimplePoly
import Verif.Proofs.Sort
import Verif.Proofs.StitchPts
import Verif.Proofs.SubEdges
import Verif.Proofs.SubSeg
import Verif.Proofs.TurnCont
import Verif.Proofs.Turning
import Verif.Proofs.WindConst
import Verif.Proofs.WindTurn
import Verif.Proofs.WindingRule
import Verif.Props.AreaIntegral
import Verif.Props.CApi
import Verif.Props.CApiData
import Verif.Props.Circle
import Verif.Props.Coincident
import Verif.Props.CombineArcs
import Verif.Props.CombineCurves
import Verif.Props.CombineCuts
import Verif.Props.CombineDisc
import Verif.Props.CombineInvert
import Verif.Props.CombineLaws
import Verif.Props.CombineNatural
import Verif.Props.CombineRect
import Verif.Props.CombineRegion
import Verif.Props.CombineRun
import Verif.Props.CombineSame
import Verif.Props.CombineSides
import Verif.Props.CombineSlices
import Verif.Props.CombineStitch
import Verif.Props.CombineTable
import Verif.Props.FindIntersects
import Verif.Props.Hilbert
import Verif.Props.IslandRegion
import Verif.Props.IslandSquares
import Verif.Props.Islands
import Verif.Props.IslandsApart
import Verif.Props.IslandsCuts
import Verif.Props.IslandsPairs
import Verif.Props.IslandsPieces
import Verif.Props.IslandsRects
import Verif.Props.IslandsRun
import Verif.Props.IslandsSmooth
import Verif.Props.IslandsTotal
import Verif.Props.LineLine
import Verif.Props.MathUtils
import Verif.Props.OffsetBoth
import Verif.Props.OffsetBothCases
import Verif.Props.OffsetBowtie
import Verif.Props.OffsetChamfer
import Verif.Props.OffsetCircle
import Verif.Props.OffsetCuts
import Verif.Props.OffsetEnds
import Verif.Props.OffsetExact
import Verif.Props.OffsetJoin
import Verif.Props.OffsetJoins
import Verif.Props.OffsetKept
import Verif.Props.OffsetLoopsOnce
import Verif.Props.OffsetNested
import Verif.Props.OffsetPieces
import Verif.Props.OffsetPlain
import Verif.Props.OffsetPolygon
import Verif.Props.OffsetPolygonKept
import Verif.Props.OffsetPolygonLevel
import Verif.Props.OffsetRaw
import Verif.Props.OffsetRect
import Verif.Props.OffsetRegion
import Verif.Props.OffsetReverse
import Verif.Props.OffsetRound
import Verif.Props.OffsetRounded
import Verif.Props.OffsetSegment
import Verif.Props.OffsetSegs
import Verif.Props.OffsetSlices
import Verif.Props.OffsetSmooth
import Verif.Props.OffsetStart
import Verif.Props.OffsetSteiner
import Verif.Props.OffsetStitch
import Verif.Props.OffsetTotal
import Verif.Props.OffsetTwice
import Verif.Props.OffsetValid
import Verif.Props.OffsetWhole
import Verif.Props.PlineArea
import Verif.Props.PlineClosest
import Verif.Props.PlineExtents
import Verif.Props.PlineIndex
import Verif.Props.PlineIndexArea
import Verif.Props.PlineInvert
import Verif.Props.PlineLength
import Verif.Props.PlineLines
import Verif.Props.PlinePrune
import Verif.Props.PlineWinding
import Verif.Props.RoundCombine
import Verif.Props.RoundCross
import Verif.Props.RoundHoles
import Verif.Props.SegClosest
import Verif.Props.SegCurve
import Verif.Props.SegIntr
import Verif.Props.SegIntrExact
import Verif.Props.SegIntrSame
import Verif.Props.Segment
import Verif.Props.SelfIntersects
import Verif.Props.SimpleCurve
import Verif.Props.SimplePolygon
import Verif.Props.SpatialIndex
import Verif.Props.WindingRegion
import Verif.Spec.ArcRegion
import Verif.Spec.CApi
import Verif.Spec.Coincident
import Verif.Spec.Combine
import Verif.Spec.CombineSides
import Verif.Spec.Geom
import Verif.Spec.Hilbert
import Verif.Spec.Intersects
import Verif.Spec.IslandPieces
import Verif.Spec.IslandRegion
import Verif.Spec.Islands
import Verif.Spec.Offset
import Verif.Spec.OffsetBoth
import Verif.Spec.OffsetExact
import Verif.Spec.OffsetJoin
import Verif.Spec.OffsetPieces
import Verif.Spec.OffsetPolygon
import Verif.Spec.OffsetRegion
import Verif.Spec.Polyline
import Verif.Spec.Region
import Verif.Spec.SameCurve
import Verif.Spec.Simple
import Verif.Spec.Smooth
import Verif.Spec.SpatialIndex
import Verif.Spec.Stitch
