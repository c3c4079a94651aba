import Verif.Basic
import Verif.Vec
import Verif.PropsVec
import Verif.Geometry
import Verif.DataRange
import Verif.PropsGeometry
import Verif.Index
import Verif.PropsIndex
import Verif.Tables
import Verif.Order
import Verif.PropsTables
import Verif.Fields
import Verif.PropsFields
import Verif.LoopLemmas
import Verif.Exp2
import Verif.Exp2Lemmas
import Verif.SeriesBounds
import Verif.Exp2Bounds
import Verif.PropsExp2
import Verif.Lists
import Verif.Bfs
import Verif.PropsBfs
import Verif.AdaptiveBuild
import Verif.AdaptiveTree
import Verif.PropsAdaptive
import Verif.TreeOrder
import Verif.AdaptiveNbh
import Verif.Accounting
import Verif.AdaptiveLists
import Verif.PropsLists
import Verif.BalancedBuild
import Verif.BalancedTree
import Verif.PropsBalanced
import Verif.FmmPasses
import Verif.FmmGeneric
import Verif.FmmRun
import Verif.FmmTrees
import Verif.FmmResults
import Verif.FmmMain
import Verif.BoxDist
import Verif.Fmm2D
import Verif.Example2D
import Verif.PropsFmm
import Verif.PropsFmm2D
import Verif.Solid
import Verif.SolidPair
import Verif.SolidBound
import Verif.SolidSeries
import Verif.Legendre
import Verif.Exp3
import Verif.Exp3Tables
import Verif.Exp3Lemmas
import Verif.Exp3Bounds
import Verif.PropsExp3
import Verif.Fmm3D
import Verif.Example3D
import Verif.PropsFmm3D
import Verif.PropsAccuracy3
import Verif.SolidDeriv
import Verif.Exp3Force
import Verif.SolidGrad
import Verif.PropsForce3
import Verif.Exp3ForceBounds
import Verif.Fmm3DForce
import Verif.PropsFmm3DForce
import Verif.PropsForceBounds3
import Verif.FmmSmooth
import Verif.PropsSmooth
import Verif.Glue
import Verif.GlueLemmas
import Verif.PropsGlue
import Verif.PropsLibrary
import Verif.FileIO
import Verif.PropsFileIO
import Verif.Dump
import Verif.DumpLemmas
import Verif.PropsDump
import Verif.ExactTwo
import Verif.PropsAccuracy
import Verif.Rounding
import Verif.RoundingLemmas
import Verif.RoundingRoute
import Verif.Ieee
import Verif.PropsRounding
import Verif.RoundingTree
import Verif.RoundingSim
import Verif.RoundingNbh
import Verif.PropsRoundingTree
import Verif.RoundingBalanced
import Verif.PropsRoundingBalanced
import Verif.PropsRoundingRoot
import Verif.Lifetime
import Verif.PropsLifetime
import Verif.FltExp2
import Verif.FltCalc
import Verif.FltDirect
import Verif.FltIeee
import Verif.FltPairs
import Verif.PropsFltDirect
import Verif.FltOps
import Verif.FltOpsLE
import Verif.PropsFltOps
import Verif.FmmRel
import Verif.RoundedFmm
import Verif.FmmRelTrees
import Verif.FltGeo
import Verif.FltLaws
import Verif.FltEval
import Verif.FltTree
import Verif.PropsFltTree
import Verif.PropsFltOrder
import Verif.FmmRelBalanced
import Verif.FltBalanced
import Verif.PropsFltBalanced
import Verif.L2
import Verif.SolidNorm
import Verif.SolidTri
import Verif.SolidOps
import Verif.SolidLin
import Verif.FltExp3
import Verif.FltYlm
import Verif.FltVec3
import Verif.FltRun3
import Verif.FltOps3
import Verif.FltOpsLE3
import Verif.FltGeo3
import Verif.FltLaws3
import Verif.FltDirect3
import Verif.FltEval3
import Verif.FltTree3
import Verif.FltBalanced3
import Verif.FltIeee3
import Verif.FltPairs3
import Verif.FltFrame3
import Verif.FltYlmD
import Verif.FltForceRun3
import Verif.FltForceAp3
import Verif.FltForceEval3
import Verif.FltForceTree3
import Verif.FltForceIeee3
import Verif.PropsFltForceErr3
import Verif.PropsFltForceTree3
import Verif.PropsFltOps3
import Verif.PropsFltDirect3
import Verif.PropsFltTree3
import Verif.PropsFltBalanced3
import Verif.PropsFltForce3
import Verif.PropsMomentum
import Verif.PropsFltParticles
import Verif.PropsReassoc
import Verif.TestProgs
import Verif.PropsTestProgs
import Verif.Double
import Verif.DoubleLemmas
import Verif.PropsDouble
import Verif.PropsDoubleFar
import Verif.DoubleExp3
import Verif.PropsDoubleExp3
import Verif.DoubleTree3
import Verif.DoubleEval3
import Verif.DoubleGeo3
import Verif.DoubleTrees3
import Verif.PropsDoubleTree3
import Verif.DoubleAgree3
import Verif.DoubleAgreeEval3
import Verif.KitSim
import Verif.KitSimTree
import Verif.DoubleAgreeTree3
import Verif.TreeInv
import Verif.DoubleBox3
import Verif.DoubleLib3
import Verif.PropsDoubleAgree3
import Verif.Minimal
import Verif.PropsMinimal
import Verif.DoubleExp2
import Verif.DoubleAgree2
import Verif.DoubleAgreeTree2
import Verif.PropsDoubleAgree2
import Verif.Integrator
import Verif.IntegratorLemmas
import Verif.PropsIntegrator
import Verif.FmmFail
import Verif.PropsOrderZero
import Verif.Print
import Verif.PropsPrint
import Verif.TreeMain
import Verif.PropsTreeMain
import Verif.LowCalc
import Verif.LowOps
import Verif.LowOpsLE
import Verif.LowLaws
import Verif.LowDirect
import Verif.LowEval
import Verif.LowTree
import Verif.LowIeee
import Verif.PropsLow
import Verif.PropsLow64
import Verif.HighCalc
import Verif.HighOps
import Verif.HighLaws
import Verif.HighDirect
import Verif.HighEval
import Verif.HighTree
import Verif.PropsHigh
import Verif.LowBalanced
import Verif.HighBalanced
import Verif.PropsLowBalanced
import Verif.LowYlm3
import Verif.LowScale3
import Verif.LowVec3
import Verif.LowRun3
import Verif.LowOps3
import Verif.LowOpsLE3
import Verif.LowLaws3
import Verif.LowDirect3
import Verif.LowEval3
import Verif.LowTree3
import Verif.LowIeee3
import Verif.PropsLow3
import Verif.LowBalanced3
import Verif.PropsLowBalanced3
import Verif.HighCalc3
import Verif.HighOps3
import Verif.HighLib3
import Verif.HighLaws3
import Verif.HighEval3
import Verif.HighTree3
import Verif.HighBalanced3
import Verif.PropsHigh3
import Verif.PropsFailures
import Verif.LowFrame3
import Verif.LowForceRun3
import Verif.LowForceAp3
import Verif.LowForceDirect3
import Verif.LowForceEval3
import Verif.LowForceTree3
import Verif.LowForceIeee3
import Verif.PropsLowForce3
import Verif.PropsLowForceBalanced3
import Verif.HighForce3
import Verif.HighForceTree3
import Verif.PropsHighForce3
import Verif.WorkTree
import Verif.WorkKit
import Verif.WorkRun
import Verif.PropsWork
import Verif.PropsWorkBalanced
import Verif.PropsWorkExact
import Verif.LinLaws
import Verif.LinTrees
import Verif.LinKits
import Verif.PropsLinear
import Verif.LinScale
import Verif.LinScaleTree
import Verif.LinScaleKits
import Verif.PropsUnits
import Verif.LinGrad
import Verif.LinGradTree
import Verif.LinGradKits
import Verif.PropsTreeGradient
import Verif.LinRecip
import Verif.LinRecipKits
import Verif.LinRecipPlane
import Verif.PropsReciprocity
import Verif.LinHarm
import Verif.LinHarmTree
import Verif.PropsLaplace
import Verif.BenchProgs
import Verif.PropsBench
import Verif.Repro
import Verif.ReproTree
import Verif.ReproKits
import Verif.PropsRepro
import Verif.Wolfram
import Verif.PropsWolfram
import Verif.Origin
import Verif.PropsOrigin
import Verif.PropsAccuracySharp
import Verif.PropsAccuracyUnits
import Verif.PropsAccuracyAdaptive
import Verif.AxTree
import Verif.AxLaws
import Verif.AxKits
import Verif.PropsAxes
import Verif.PropsMirror
import Verif.PropsOriginForce
import Verif.PropsTreeMainEx
import Verif.MiTree
import Verif.MiLaws
import Verif.MiKits
import Verif.PropsMirrorOff
import Verif.PropsAxesForce
import Verif.PropsSingle
import Verif.PropsOrders
