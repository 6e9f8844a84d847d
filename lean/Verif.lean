import Verif.Props.Splay
import Verif.Props.Active
import Verif.Props.Events
import Verif.Props.LineOrPoint
import Verif.Props.Intersect
import Verif.Props.SplitSegment
import Verif.Props.Walk
import Verif.Props.Refutations
import Verif.Props.MonoPoly
import Verif.Props.Scanner
import Verif.Props.Rasterize
import Verif.Props.RasterReal
import Verif.Props.Rings
import Verif.Props.Bops
import Verif.Props.Laminar
import Verif.Lemmas.PairOrder
import Verif.Lemmas.SweepRep
import Verif.Lemmas.SweepOps
import Verif.Lemmas.SweepGeom
import Verif.Lemmas.SweepSet
import Verif.Lemmas.SweepAbs
import Verif.Lemmas.SweepCut
import Verif.Lemmas.SweepRight
import Verif.Lemmas.SweepPoint
import Verif.Lemmas.SweepLeft
import Verif.Lemmas.SweepInsert
import Verif.Lemmas.SweepStart
import Verif.Lemmas.SweepHandle
import Verif.Lemmas.SweepStep
import Verif.Spec.Sweep
import Verif.Lemmas.SweepPieces
import Verif.Lemmas.SweepHist
import Verif.Lemmas.SweepMeasure
import Verif.Lemmas.SweepInit
import Verif.Lemmas.SweepRun
import Verif.Props.Sweep
import Verif.Props.Intersections
import Verif.Props.IntersOnce
import Verif.Lemmas.BopTrace
import Verif.Lemmas.BopVertex
import Verif.Lemmas.RingWinding
import Verif.Lemmas.BopHoles
import Verif.Spec.EvenOdd
import Verif.Props.BopSweep
import Verif.Model.Monotone
import Verif.Lemmas.MonoEdges
import Verif.Lemmas.MonoGaps
import Verif.Lemmas.MonoActive
import Verif.Lemmas.MonoSweep
import Verif.Lemmas.MonoRep
import Verif.Lemmas.MonoOps
import Verif.Lemmas.MonoChain
import Verif.Lemmas.MonoOps2
import Verif.Lemmas.MonoCells
import Verif.Lemmas.MonoStep
import Verif.Lemmas.MonoSplit
import Verif.Lemmas.MonoRun
import Verif.Lemmas.MonoParity
import Verif.Spec.ValidPolygon
import Verif.Lemmas.MonoValid
import Verif.Lemmas.MonoBase
import Verif.Lemmas.MonoInit
import Verif.Lemmas.Above
import Verif.Lemmas.MonoTile
import Verif.Lemmas.MonoArea
import Verif.Lemmas.MonoInside
import Verif.Lemmas.ValidCheck
import Verif.Props.Monotone
import Verif.Props.MonoVertices
import Verif.Lemmas.LamSweep
import Verif.Lemmas.LamRun
import Verif.Lemmas.LamParents
import Verif.Lemmas.LamInput
import Verif.Lemmas.LamNest
import Verif.Lemmas.LamResult
import Verif.Lemmas.LamDir
import Verif.Props.BopNest
import Verif.Props.BopMulti
import Verif.Props.BopValid
import Verif.Lemmas.BopCross
import Verif.Props.BopGeneral
import Verif.Props.RasterBool
import Verif.Spec.ValidMulti
import Verif.Props.BopPlain
import Verif.Props.AreaMeasure
import Verif.Lemmas.RingDebug
import Verif.Props.BopDebug
import Verif.Props.BopDebugSound
import Verif.Model.RasterDriver
import Verif.Lemmas.RasterTotal
import Verif.Lemmas.RasterBounds
import Verif.Props.MonoAsserts
import Verif.Props.RasterTotal
import Verif.Lemmas.RasterCells
import Verif.Props.RasterCells
import Verif.Lemmas.MonoWedge
import Verif.Props.BoundingRect
import Verif.Lemmas.BopAnySort
import Verif.Props.BopAnySort
import Verif.Model.SplayM
import Verif.Lemmas.SplayCount
import Verif.Lemmas.SplayM
import Verif.Spec.SplayCost
import Verif.Lemmas.SplayCost
import Verif.Props.SplayCost
import Verif.Model.Rounded
import Verif.Spec.Rounded
import Verif.Props.Rounded
import Verif.Model.SweepF
import Verif.Lemmas.SafeSplay
import Verif.Lemmas.SafeChains
import Verif.Lemmas.SafeSweep
import Verif.Lemmas.SafeHandle
import Verif.Lemmas.SafeEvents
import Verif.Lemmas.RefineF
import Verif.Lemmas.RefineSweep
import Verif.Lemmas.Endless
import Verif.Props.SweepF
import Verif.Props.Deterministic
import Verif.Spec.BopEdges
import Verif.Lemmas.BopEdges
import Verif.Lemmas.LamUnique
import Verif.Props.BopEdges
import Verif.Props.BopAlgebra
import Verif.Props.BopNormal
import Verif.Spec.SweepBound
import Verif.Lemmas.SweepBound
import Verif.Props.SweepBound
import Verif.Spec.Boundary
import Verif.Props.BopRegion
import Verif.Props.BopBoundary
import Verif.Spec.BopExpr
import Verif.Props.BopExpr
import Verif.Props.BopSize
import Verif.Spec.SameSides
import Verif.Props.MonoSame
import Verif.Props.MonoSize
import Verif.Model.SweepCount
import Verif.Spec.SweepCount
import Verif.Props.SweepCount
import Verif.Spec.Affine
import Verif.Lemmas.Affine
import Verif.Lemmas.OffSides
import Verif.Props.Affine
import Verif.Model.Bench
import Verif.Lemmas.ValidMap
import Verif.Props.BenchCount
import Verif.Props.BenchArea
import Verif.Props.BenchRaster
import Verif.Model.BenchRandom
import Verif.Props.BenchRandom
import Verif.Props.MonoPieces
import Verif.Props.MonoSides
import Verif.Props.MonoSimple
import Verif.Props.MonoPlane
import Verif.Props.MonoExact
import Verif.Lemmas.OrderType
import Verif.Props.MonoOrderType
import Verif.Props.MonoStable
import Verif.Model.SplayDrop
import Verif.Props.SplayDrop
import Verif.Model.BenchBops
import Verif.Props.BenchBops
import Verif.Props.RasterTight
import Verif.Model.BenchLines
import Verif.Props.BenchLines
import Verif.Model.SplayEnds
import Verif.Props.SplayEnds
import Verif.Props.BenchRotate
