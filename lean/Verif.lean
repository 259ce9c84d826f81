import Verif.Num
import Verif.Props.Path
import Verif.Props.MakePath
import Verif.Props.Rect
import Verif.Props.Line
import Verif.Props.Bezier
import Verif.Props.BezierMono
import Verif.Props.BezierBox
import Verif.Props.Solver
import Verif.Props.SolverIff
import Verif.Props.Segment
import Verif.Props.CubicCubic
import Verif.Props.ScanLine
import Verif.Props.Ring
import Verif.Props.Intake
import Verif.Props.Break
import Verif.Props.Wind
import Verif.Props.Ael
import Verif.Props.Linked
import Verif.Props.Output
import Verif.Props.Process
import Verif.Props.Witness
import Verif.Props.Needed
import Verif.Props.Terminate
import Verif.Props.TerminateAny
import Verif.Props.SameEdge
import Verif.Props.Arc
import Verif.Props.Dcel
import Verif.Props.Face
import Verif.Props.Format
import Verif.Model.Format
import Verif.Spec.Arranged
import Verif.Lemmas.Sides
import Verif.Lemmas.EdgeSide
import Verif.Lemmas.FrameBare
import Verif.Lemmas.Top
import Verif.Lemmas.Beam
import Verif.Lemmas.Beam2
import Verif.Lemmas.PolyInv
import Verif.Lemmas.Beam4
import Verif.Lemmas.BeamGeo
import Verif.Lemmas.Mid
import Verif.Lemmas.Round
import Verif.Lemmas.Beam3
import Verif.Lemmas.PolyInv2
import Verif.Lemmas.Join
import Verif.Lemmas.Match
import Verif.Lemmas.Pairing
import Verif.Lemmas.UpdateOut
import Verif.Lemmas.Emit
import Verif.Lemmas.Order
import Verif.Lemmas.Lines
import Verif.Props.Result
import Verif.Props.Region
import Verif.Props.RegionDemo
import Verif.Props.Coincident
import Verif.Spec.General
import Verif.Lemmas.LineExact
import Verif.Lemmas.Collect
import Verif.Lemmas.Pieces
import Verif.Lemmas.GeneralArranged
import Verif.Lemmas.BrokenArranged
import Verif.Lemmas.BreakWinding
import Verif.Spec.Polygons
import Verif.Lemmas.PolygonRing
import Verif.Lemmas.PolygonGeneral
import Verif.Lemmas.Orient
import Verif.Props.Polygons
import Verif.Props.PolygonsDemo
import Verif.Props.Direction
import Verif.Props.Again
import Verif.Props.Walk
import Verif.Props.Turn
import Verif.Props.Planar
import Verif.Props.Reader
import Verif.Props.Handle
import Verif.Lemmas.Consistent
import Verif.Spec.Traced
import Verif.Lemmas.Traced
import Verif.Props.Presentation
import Verif.Props.Equivariant
import Verif.Props.ArcSplit
import Verif.Props.ArcSplitAll
import Verif.Model.Double
import Verif.Props.Double
import Verif.Lemmas.DoubleRound
import Verif.Lemmas.DoubleLine
import Verif.Lemmas.DoubleArrange
import Verif.Props.DoublePolygons
import Verif.Props.DoublePolygonsDemo
import Verif.Props.Vec2
import Verif.Spec.Curved
import Verif.Lemmas.CurvedSide
import Verif.Lemmas.CurvedBreak
import Verif.Lemmas.CurvedArrange
import Verif.Lemmas.CurvedQuiet
import Verif.Props.Curved
import Verif.Props.CurvedDemo
import Verif.Spec.Upright
import Verif.Lemmas.Upright
import Verif.Lemmas.UprightReal
import Verif.Props.Upright
import Verif.Props.UprightReal
import Verif.Props.UprightDemo
import Verif.Spec.CurvedCross
import Verif.Lemmas.CurvedCollect
import Verif.Lemmas.CurvedPieces
import Verif.Lemmas.CurvedTruth
import Verif.Props.CurvedCross
import Verif.Props.CurvedCrossDemo
import Verif.Spec.Area
import Verif.Lemmas.Area
import Verif.Props.Area
import Verif.Props.AreaDemo
import Verif.Props.Text
import Verif.Props.LineIff
import Verif.Props.BezierIff
import Verif.Model.Memory
import Verif.Props.Memory
import Verif.Lemmas.DoubleCross
import Verif.Props.DoubleCrossing
import Verif.Props.DoubleCrossingDemo
import Verif.Spec.Tiles
import Verif.Lemmas.Tiles
import Verif.Props.Tiles
import Verif.Props.DoubleTiles
import Verif.Props.TilesDemo
import Verif.Props.Svg
import Verif.Props.SvgProcess
import Verif.Props.CurrX
import Verif.Props.DoubleOrder
import Verif.Props.ViewerMore
import Verif.Props.ViewerClose
import Verif.Props.DebugDraw
import Verif.Props.DcelOverlap
import Verif.Props.DcelMemory
import Verif.Props.DcelAgain
import Verif.Props.ArcExact
import Verif.Props.FaceOf
import Verif.Props.DcelAgainExact
import Verif.Props.DcelCrossed
import Verif.Spec.Tidy
import Verif.Props.Tidy
import Verif.Props.TidyPolygons
import Verif.Props.Chain
import Verif.Spec.Ieee
import Verif.Lemmas.SimList
import Verif.Lemmas.Sim
import Verif.Lemmas.SimSweep
import Verif.Lemmas.DoubleScale
import Verif.Lemmas.Scale
import Verif.Lemmas.SimDbl
import Verif.Lemmas.SimBreak
import Verif.Lemmas.SimProcess
import Verif.Props.Ieee
import Verif.Props.IeeeDemo
import Verif.Props.IeeeText
import Verif.Props.Closed
import Verif.Props.IeeeChain
import Verif.Props.IeeeChainDemo
import Verif.Props.IeeeMore
import Verif.Props.IeeeMoreDemo
import Verif.Props.TextUntidy
import Verif.Props.UntidyMore
import Verif.Spec.UprightCross
import Verif.Lemmas.UprightCut
import Verif.Lemmas.UprightBroken
import Verif.Lemmas.UprightGood
import Verif.Props.UprightCross
import Verif.Props.UprightEven
import Verif.Props.UprightCrossReal
import Verif.Props.UprightCrossDemo
import Verif.Spec.IeeeOrder
import Verif.Lemmas.Value
import Verif.Props.IeeeOrder
import Verif.Model.SvgText
import Verif.Spec.SvgText
import Verif.Spec.SvgDoc
import Verif.Props.SvgText
import Verif.Props.SvgFile
import Verif.Props.TextFile
import Verif.Spec.Size
import Verif.Props.Size
import Verif.Props.SizeBound
import Verif.Props.LineExact
import Verif.Props.SameEdgeExact
import Verif.Props.RootIff
import Verif.Props.AelIff
import Verif.Props.AgainIff
import Verif.Model.Zoom
import Verif.Props.Zoom
import Verif.Model.ArcInt
import Verif.Props.ArcInt
import Verif.Props.ZoomMore
import Verif.Spec.Numeral
import Verif.Props.Numeral
import Verif.Props.NumeralOnly
