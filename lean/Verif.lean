import Verif.Res
import Verif.Number
import Verif.Spec
import Verif.Lawful
import Verif.Hyb
import Verif.Krfl
import Verif.FloatInst
import Verif.NumberThm
import Verif.PrimeFac
import Verif.PrimeFacThm
import Verif.NumPowerSimpl
import Verif.NumPowerSimplThm
import Verif.PrimeCollect
import Verif.Props.Numbers
import Verif.Solve
import Verif.LinSpec
import Verif.SolveThm
import Verif.SolveApi
import Verif.Props.Linear
import Verif.Expr
import Verif.Order
import Verif.Query
import Verif.Den
import Verif.ExprThm
import Verif.OrderThm
import Verif.OrderTrans
import Verif.NumEvalThm
import Verif.Props.Exprs
import Verif.Props.Order
import Verif.Eng
import Verif.SumSimpl
import Verif.ProdSimpl
import Verif.PowSimpl
import Verif.NumTrigo
import Verif.Trig
import Verif.Expand
import Verif.Poly
import Verif.Normal
import Verif.Engine
import Verif.Api
import Verif.Wp
import Verif.Syms
import Verif.SymsSum
import Verif.SymsProd
import Verif.SymsPow
import Verif.SymsPoly
import Verif.SymsNormal
import Verif.SymsApi
import Verif.Holds
import Verif.SoundSum
import Verif.SoundProd
import Verif.SoundContract
import Verif.SoundPow
import Verif.SignThm
import Verif.SoundNumTrigo
import Verif.SoundTrig
import Verif.SoundExpand
import Verif.SoundPoly
import Verif.SoundNormal
import Verif.Props.Symbols
import Verif.SoundApi
import Verif.Props.Values
import Verif.Props.Undef
import Verif.DiffZero
import Verif.DerivSpec
import Verif.SoundDiff
import Verif.Props.Diff
import Verif.Mono
import Verif.Cache
import Verif.Props.Cache
import Verif.SymPool
import Verif.Props.Symbol
import Verif.Parser
import Verif.ParserThm
import Verif.Grammar
import Verif.ParserSound
import Verif.ParserComplete
import Verif.NameFct
import Verif.Props.Parser
import Verif.Printer
import Verif.TreeDen
import Verif.PrinterThm
import Verif.Props.Printer
import Verif.PseudoDiv
import Verif.Props.Poly
import Verif.Props.Shape
import Verif.Props.Signs
import Verif.Tot
import Verif.PolyVal
import Verif.PolyFac
import Verif.PolyProd
import Verif.PolySym
import Verif.PolySimpl
import Verif.PolyMon
import Verif.PolySummand
import Verif.PolyTwo
import Verif.PolyKey
import Verif.PolySum
import Verif.PolyBase
import Verif.PolyExp
import Verif.PolyExpand
import Verif.PolyTree
import Verif.Props.Polynomials
import Verif.PolyCoeff
import Verif.PolyDiff
import Verif.Props.PolyOps
import Verif.Diverge
import Verif.Props.PolyDiv
import Verif.NumPow
import Verif.PowNum
import Verif.PowPoly
import Verif.Props.PolyPow
import Verif.PolyUni
import Verif.PolyPseudo
import Verif.PolyDivide
import Verif.Props.PolyDivide
import Verif.Subres
import Verif.GcdMath
import Verif.PolyExact
import Verif.GcdBase
import Verif.GcdContent
import Verif.GcdStep
import Verif.GcdLoop
import Verif.GcdAlgo
import Verif.DivergeGcd
import Verif.Props.PolyGcd
import Verif.Props.PolyInput
import Verif.SymsTame
import Verif.Props.Unexpanded
import Verif.NormalPoly
import Verif.Props.NormalPoly
import Verif.Props.Rational
import Verif.ZFac
import Verif.ZSimpl
import Verif.ZMon
import Verif.ZSummand
import Verif.ZTwo
import Verif.ZSum
import Verif.ZBase
import Verif.ZExp
import Verif.ZExpand
import Verif.ZPow
import Verif.ZLaurent
import Verif.ZRat
import Verif.ZTop
import Verif.Props.RationalLive
import Verif.ZEval
import Verif.Props.Laurent
import Verif.QuotNormal
import Verif.QuotFrac
import Verif.Props.QuotNormal
import Verif.SolveEng
import Verif.SolveEngThm
import Verif.Props.SolveEng
import Verif.SolveNum
import Verif.Props.SolveNum
import Verif.PrimGcd
import Verif.GcdPrim
import Verif.GcdPrimAlgo
import Verif.Props.PrimGcd
import Verif.LuDecomp
import Verif.LuThm
import Verif.Props.Lu
import Verif.SubstPoly
import Verif.Props.Subst
import Verif.SqrtNum
import Verif.SqrtEng
import Verif.SqrtMul
import Verif.SqrtSum
import Verif.Props.Roots
import Verif.PrintMono
import Verif.PolyPrint
import Verif.Props.RoundTrip
import Verif.PolySign
import Verif.Props.PolySign
import Verif.TrigSym
import Verif.TrigInv
import Verif.Props.TrigPoly
import Verif.TrigPi
import Verif.SurdSum
import Verif.TrigTable
import Verif.TrigVal
import Verif.Props.TrigPi
import Verif.InvTrig
import Verif.InvTab
import Verif.TanTab
import Verif.TrigKey
import Verif.Props.TrigInv
import Verif.AtanTwo
import Verif.Props.AtanTwo
import Verif.QFac
import Verif.QSimpl
import Verif.QMon
import Verif.QSummand
import Verif.QTwo
import Verif.QSum
import Verif.QBase
import Verif.QExp
import Verif.QExpand
import Verif.QPow
import Verif.QLaurent
import Verif.QEval
import Verif.RootTree
import Verif.QLive
import Verif.QDom
import Verif.Props.Puiseux
import Verif.Tower
import Verif.Props.Towers
import Verif.TrigProd
import Verif.TrigMul
import Verif.TrigFin
import Verif.TrigCon
import Verif.TrigTan
import Verif.TrigAll
import Verif.Props.TrigPow
import Verif.Props.DiffLimit
import Verif.QDiff
import Verif.Props.PuiseuxDiff
import Verif.ArcBase
import Verif.ArcNormal
import Verif.ArcEval
import Verif.ArcThm
import Verif.Props.ArcComp
import Verif.ArcTwo
import Verif.Props.ArcTwo
import Verif.Pyth
import Verif.Props.Pyth
import Verif.Props.NameTex
import Verif.DiffFn
import Verif.Props.DiffFn
import Verif.Props.DiffAtanTwo
import Verif.Props.SignComp
import Verif.RootN
import Verif.RootNMul
import Verif.RootPlain
import Verif.Props.RootsN
import Verif.PowExact
import Verif.Props.PowExact
import Verif.RootPow
import Verif.Props.RootPow
import Verif.Props.IntPow
import Verif.PowRoot
import Verif.Props.PowRoot
import Verif.SqrtIndep
import Verif.SurdList
import Verif.SurdMerge
import Verif.SurdScale
import Verif.Props.Surds
import Verif.SurdMul
import Verif.SurdProd
import Verif.SurdRev
import Verif.SurdSums
import Verif.Props.SurdMul
import Verif.SurdSign
import Verif.Props.SurdPow
import Verif.SurdSquare
import Verif.Props.SurdRing
import Verif.Props.SurdOrder
import Verif.SurdPrint
import Verif.Props.SurdText
import Verif.Props.SurdTreePow
import Verif.SurdSubst
import Verif.Props.SurdConst
