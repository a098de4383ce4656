import Verif.Avo.Assign
import Verif.Avo.AssignLemmas
import Verif.Avo.Closure
import Verif.Avo.ClosureLemmas
import Verif.Avo.Defs
import Verif.Avo.ElemLemmas
import Verif.Avo.Mat
import Verif.Avo.MatLemmas
import Verif.Avo.OrthantLemmas
import Verif.Avo.Resize
import Verif.Avo.ResizeLemmas
import Verif.Avo.ResizeSound
import Verif.Avo.Top
import Verif.Avo.Transfer
import Verif.Avo.TransferLemmas
import Verif.Box.ConstraintLemmas
import Verif.Box.Defs
import Verif.Box.Lemmas
import Verif.Box.Policy
import Verif.Box.PolicyLemmas
import Verif.Box.ResizeLemmas
import Verif.Client.Analysis
import Verif.Core.Compare
import Verif.Core.CompareLemmas
import Verif.Core.ConsArray
import Verif.Core.ConsArrayLemmas
import Verif.Core.Dim
import Verif.Core.Disjunction
import Verif.Core.DisjunctionLemmas
import Verif.Core.Env
import Verif.Core.EnvLemmas
import Verif.Core.EnvOps
import Verif.Core.FoldLemmas
import Verif.Core.Generic
import Verif.Core.GenericLemmas
import Verif.Core.Level0
import Verif.Core.Level1
import Verif.Core.Level1Expr
import Verif.Core.Level1Lemmas
import Verif.Core.Linexpr
import Verif.Core.LinexprAccess
import Verif.Core.LinexprLemmas
import Verif.Core.LinexprOps
import Verif.Core.Manager
import Verif.Core.ManagerLemmas
import Verif.Core.Product
import Verif.Fpp.BitVecs
import Verif.Fpp.Elim
import Verif.Fpp.ElimLazy
import Verif.Fpp.Hull
import Verif.Fpp.Pred
import Verif.Fpp.Quasi
import Verif.Fpp.Widen
import Verif.Itv.BoxizeLemmas
import Verif.Itv.Defs
import Verif.Itv.EvalExact
import Verif.Itv.EvalTight
import Verif.Itv.Lemmas
import Verif.Itv.Linexpr
import Verif.Itv.LinexprLemmas
import Verif.Itv.PipeLemmas
import Verif.Itv.Pow
import Verif.Itv.QuasiLemmas
import Verif.Itv.QuasiSound
import Verif.Itv.ReduceLemmas
import Verif.Itv.RoundLemmas
import Verif.Itv.Tight
import Verif.Num.Bound
import Verif.Num.BoundLemmas
import Verif.Num.Native
import Verif.Num.NativeLemmas
import Verif.Num.Serialize
import Verif.Num.SerializeLemmas
import Verif.Oct.AddLemmas
import Verif.Oct.AddLincons
import Verif.Oct.Addrem
import Verif.Oct.AssignLemmas
import Verif.Oct.AssignSound
import Verif.Oct.AssignWf
import Verif.Oct.Closure
import Verif.Oct.ClosureAlg
import Verif.Oct.ClosureComplete
import Verif.Oct.ClosureSound
import Verif.Oct.Defs
import Verif.Oct.Emb
import Verif.Oct.ExpandFold
import Verif.Oct.FormLemmas
import Verif.Oct.Incremental
import Verif.Oct.LatticeLemmas
import Verif.Oct.Mat
import Verif.Oct.NoNinf
import Verif.Oct.OctLemmas
import Verif.Oct.OfBox
import Verif.Oct.Precise
import Verif.Oct.QueryLemmas
import Verif.Oct.ReachLemmas
import Verif.Oct.Resize
import Verif.Oct.ResizeLemmas
import Verif.Oct.ResizeWf
import Verif.Oct.ShapeLemmas
import Verif.Oct.StrongClosure
import Verif.Oct.Transfer
import Verif.Oct.TransferSound
import Verif.Oct.TransferWf
import Verif.Poly.Bit
import Verif.Poly.BitLemmas
import Verif.Poly.Cone
import Verif.Poly.Conv
import Verif.Poly.ConvLoop
import Verif.Poly.Defs
import Verif.Poly.Dual
import Verif.Poly.Gauss
import Verif.Poly.Indep
import Verif.Poly.MinFacts
import Verif.Poly.MinOk
import Verif.Poly.Minimize
import Verif.Poly.PkApprox
import Verif.Poly.PkApproxLemmas
import Verif.Poly.PkArray
import Verif.Poly.PkAssign
import Verif.Poly.PkAssignLemmas
import Verif.Poly.PkAssignOps
import Verif.Poly.PkAssignUser
import Verif.Poly.PkBound
import Verif.Poly.PkBoundExpr
import Verif.Poly.PkCanon
import Verif.Poly.PkCanonOk
import Verif.Poly.PkDefs
import Verif.Poly.PkEq
import Verif.Poly.PkEqBest
import Verif.Poly.PkEqLemmas
import Verif.Poly.PkEqShape
import Verif.Poly.PkEqTest
import Verif.Poly.PkExpand
import Verif.Poly.PkExpandOps
import Verif.Poly.PkExtract
import Verif.Poly.PkGrid
import Verif.Poly.PkIso
import Verif.Poly.PkLeq
import Verif.Poly.PkMan
import Verif.Poly.PkMap
import Verif.Poly.PkMatrix
import Verif.Poly.PkMeet
import Verif.Poly.PkMeetCons
import Verif.Poly.PkNice
import Verif.Poly.PkNorm
import Verif.Poly.PkPrim
import Verif.Poly.PkRayBox
import Verif.Poly.PkResize
import Verif.Poly.PkResizeLemmas
import Verif.Poly.PkResizeOps
import Verif.Poly.PkRows
import Verif.Poly.PkSat
import Verif.Poly.PkSem
import Verif.Poly.PkTexpr
import Verif.Poly.PkTexprLemmas
import Verif.Poly.PkTop
import Verif.Poly.PkUniq
import Verif.Poly.PkUser
import Verif.Poly.PkUserOps
import Verif.Poly.PkWiden
import Verif.Poly.PkWidenOk
import Verif.Poly.PkWidenSearch
import Verif.Poly.PkWidenSem
import Verif.Poly.PkWidenTerm
import Verif.Poly.Redundant
import Verif.Poly.Simplify
import Verif.Poly.Spec
import Verif.Seq
import Verif.Texpr.ApLinearize
import Verif.Texpr.ApLinearizeLemmas
import Verif.Texpr.ApQuasi
import Verif.Texpr.Defs
import Verif.Texpr.EvalLemmas
import Verif.Texpr.Hc4
import Verif.Texpr.Hc4Lemmas
import Verif.Texpr.InPlace
import Verif.Texpr.Linearize
import Verif.Texpr.LinearizeDims
import Verif.Texpr.LinearizeFlags
import Verif.Texpr.LinearizeLemmas
import Verif.Texpr.Struct
import Verif.Zono.Defs
import Verif.Zono.DimLemmas
import Verif.Zono.DivLemmas
import Verif.Zono.EvalLemmas
import Verif.Zono.JoinLemmas
import Verif.Zono.Lattice
import Verif.Zono.LatticeLemmas
import Verif.Zono.Lemmas
import Verif.Zono.LinLemmas
import Verif.Zono.MulLemmas
import Verif.Zono.Prog
import Verif.Zono.State
import Verif.Zono.StateLemmas
import Verif.Zono.Widen
import Verif.Zono.WidenLemmas
import Verif.Props.Analysis
import Verif.Props.ApLinearize
import Verif.Props.ApQuasi
import Verif.Props.AvoAssign
import Verif.Props.AvoClosure
import Verif.Props.AvoConstraint
import Verif.Props.AvoLattice
import Verif.Props.AvoQuery
import Verif.Props.AvoResize
import Verif.Props.Bit
import Verif.Props.Box
import Verif.Props.BoxConstraint
import Verif.Props.BoxGen
import Verif.Props.BoxOps
import Verif.Props.BoxPolicy
import Verif.Props.BoxResize
import Verif.Props.ConsArray
import Verif.Props.ConsArrayInst
import Verif.Props.Constraint
import Verif.Props.CoreCompare
import Verif.Props.CoreDim
import Verif.Props.CoreEnv
import Verif.Props.CoreLinexpr
import Verif.Props.Disjunction
import Verif.Props.Disjunction2
import Verif.Props.DisjunctionInst
import Verif.Props.FppBitVecs
import Verif.Props.FppBitVecsInst
import Verif.Props.FppElim
import Verif.Props.FppElimInst
import Verif.Props.FppHull
import Verif.Props.FppHullInst
import Verif.Props.FppLazy
import Verif.Props.FppLazyInst
import Verif.Props.FppPred
import Verif.Props.FppPredInst
import Verif.Props.FppQuasi
import Verif.Props.FppQuasiInst
import Verif.Props.FppWiden
import Verif.Props.FppWidenInst
import Verif.Props.Generic
import Verif.Props.GenericInst
import Verif.Props.Itv
import Verif.Props.Level1
import Verif.Props.Level1Expr
import Verif.Props.Level1Fold
import Verif.Props.Level1Inst
import Verif.Props.Linearize
import Verif.Props.Manager
import Verif.Props.Native
import Verif.Props.OctClosure
import Verif.Props.OctLattice
import Verif.Props.OctReach
import Verif.Props.OctResize
import Verif.Props.OctTexpr
import Verif.Props.OctTransfer
import Verif.Props.PkApprox
import Verif.Props.PkAssign
import Verif.Props.PkCanon
import Verif.Props.PkEq
import Verif.Props.PkExpand
import Verif.Props.PkExtract
import Verif.Props.PkGrid
import Verif.Props.PkLattice
import Verif.Props.PkMan
import Verif.Props.PkResize
import Verif.Props.PkTexpr
import Verif.Props.PkUser
import Verif.Props.PkWiden
import Verif.Props.PolyConv
import Verif.Props.Product
import Verif.Props.Product2
import Verif.Props.ProductInst
import Verif.Props.Serialize
import Verif.Props.Texpr
import Verif.Props.TexprStruct
import Verif.Props.Zono
import Verif.Props.ZonoInst
import Verif.Props.ZonoLattice
import Verif.Props.ZonoLatticeInst
import Verif.Props.ZonoState
import Verif.Props.ZonoWiden
import Verif.Props.ZonoWidenInst
import Verif.Axioms
