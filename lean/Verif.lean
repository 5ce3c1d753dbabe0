import Verif.Props.Arith
import Verif.Props.Tuple
import Verif.Props.Loops
import Verif.Props.Layouts
import Verif.Props.Combo
import Verif.Props.Sched
import Verif.Props.Factors
import Verif.Props.Fd
import Verif.Props.VecSet
import Verif.Props.Args
import Verif.Props.Nano
import Verif.Props.BBox
import Verif.Props.VarAccess
import Verif.Props.VarSteps
import Verif.Props.VarSlice
import Verif.Props.VarReduce
import Verif.Props.VarCompare
import Verif.Props.Coherency
import Verif.Props.Shm
import Verif.Props.Halo
import Verif.Props.VecSlice
import Verif.Props.Deps
import Verif.Props.Parts
import Verif.Props.Expr
import Verif.Props.Vec
import Verif.Props.CompHalo
import Verif.Props.CompSteps
import Verif.Props.CompAlloc
import Verif.Props.Slots
import Verif.Props.Ranks
import Verif.Props.Settings
import Verif.Props.Tuner
import Verif.Props.NewVar
import Verif.Props.VarCalls
import Verif.Props.Storage
import Verif.Props.Boxes
import Verif.Props.Net
import Verif.Props.Soln
import Verif.Spec.CppSpec
import Verif.Compiler.PrintModel
import Verif.Compiler.PrintLemmas
import Verif.Compiler.PrintEval
import Verif.Compiler.PrintState
import Verif.Props.Print
import Verif.Spec.PointSpec
import Verif.Compiler.PtrModel
import Verif.Compiler.PtrLemmas
import Verif.Compiler.PtrLoop
import Verif.Compiler.PtrElem
import Verif.Props.Ptr
import Verif.Kernel.VecsModel
import Verif.Kernel.VecsLemmas
import Verif.Var.InfoModel
import Verif.Spec.InfoSpec
import Verif.Var.InfoLemmas
import Verif.Spec.AccessSpec
import Verif.Props.InStorage
import Verif.Var.FuseModel
import Verif.Spec.FuseSpec
import Verif.Var.FuseLemmas
import Verif.Props.Fuse
import Verif.Props.Scratch
import Verif.Sched.WithLemmas
import Verif.Sched.ScratchRun
import Verif.Sched.InlineSpec
import Verif.Sched.InlineLemmas
import Verif.Sched.ScratchTrace
import Verif.Sched.ScratchRefLemmas
import Verif.Props.ScratchRun
import Verif.Spec.ScrSolnSpec
import Verif.Compiler.ScrSolnModel
import Verif.Compiler.ScrSolnLemmas
import Verif.Compiler.ScrLinkModel
import Verif.Compiler.ScrLink
import Verif.Compiler.ScrLinkRuns
import Verif.Props.ScrSoln
import Verif.Mpi.ScrNetModel
import Verif.Mpi.ScrNetLemmas
import Verif.Spec.ScrNetSpec
import Verif.Compiler.ScrNetLink
import Verif.Props.ScrNet
import Verif.Spec.StatsSpec
import Verif.Kernel.StatsModel
import Verif.Kernel.StatsLemmas
import Verif.Props.Stats
import Verif.Kernel.ReadyModel
import Verif.Spec.PrepSpec
import Verif.Kernel.ReadyLemmas
import Verif.Props.Ready
import Verif.Setup.AgainModel
import Verif.Spec.AgainSpec
import Verif.Setup.AgainLemmas
import Verif.Props.Again
import Verif.Spec.ReadySpec
import Verif.Compiler.DimsModel
import Verif.Compiler.DimsLemmas
import Verif.Compiler.DimOrderLemmas
import Verif.Props.FoldLen
import Verif.Props.DimOrder
import Verif.Compiler.EqFormModel
import Verif.Compiler.EqFormLemmas
import Verif.Compiler.EqFormChecks
import Verif.Spec.EqFormSpec
import Verif.Props.EqForm
import Verif.Common.OptModel
import Verif.Spec.OptSpec
import Verif.Common.OptNumLemmas
import Verif.Common.OptLemmas
import Verif.Common.OptLineLemmas
import Verif.Props.Options
import Verif.Compiler.MiscModel
import Verif.Spec.MiscSpec
import Verif.Compiler.MiscLemmas
import Verif.Compiler.MiscDimLemmas
import Verif.Compiler.MiscHistLemmas
import Verif.Props.Misc
import Verif.Mpi.WinModel
import Verif.Mpi.WinLemmas
import Verif.Props.Win
import Verif.Kernel.MainModel
import Verif.Kernel.MainLemmas
import Verif.Props.MainPgm
import Verif.Compiler.InnerLoopModel
import Verif.Spec.LoopSpec
import Verif.Compiler.LaneLemmas
import Verif.Compiler.BufRel
import Verif.Compiler.FoldLane
import Verif.Compiler.InnerLoopLemmas
import Verif.Compiler.LoopReadLemmas
import Verif.Compiler.LoopBodyLemmas
import Verif.Compiler.LoopRunLemmas
import Verif.Compiler.LoopElemLemmas
import Verif.Props.InnerLoop
import Verif.Props.InnerLoopElem
import Verif.Kernel.NanoRunModel
import Verif.Spec.NanoRunSpec
import Verif.Kernel.NanoRunLemmas
import Verif.Kernel.NanoRunMem
import Verif.Props.NanoRun
import Verif.Compiler.AstModel
import Verif.Spec.AstSpec
import Verif.Compiler.AstLemmas
import Verif.Compiler.AstSteps
import Verif.Compiler.AstInv
import Verif.Compiler.AstRun
import Verif.Compiler.AstView
import Verif.Props.Ast
import Verif.Kernel.SolnRunModel
import Verif.Spec.SolnRunSpec
import Verif.Kernel.SolnRunPoint
import Verif.Kernel.SolnRunOrder
import Verif.Kernel.SolnRunTrace
import Verif.Props.SolnRun
import Verif.Spec.CodeRunSpec
import Verif.Spec.CodeSolnSpec
import Verif.Kernel.CodeSolnLemmas
import Verif.Kernel.CodeSolnIndep
import Verif.Kernel.CodeSolnSim
import Verif.Props.CodeSoln
import Verif.Spec.CondSpec
import Verif.Compiler.CondModel
import Verif.Compiler.CondLemmas
import Verif.Compiler.CondEval
import Verif.Props.Cond
import Verif.Mpi.CodeNetModel
import Verif.Spec.CodeNetSpec
import Verif.Mpi.CodeNetLemmas
import Verif.Mpi.CodeNetExchange
import Verif.Mpi.CodeNetRun
import Verif.Mpi.CodeNetRange
import Verif.Props.CodeNet
import Verif.Spec.SrcSpec
import Verif.Spec.SrcNetSpec
import Verif.Compiler.SrcModel
import Verif.Compiler.SrcLemmas
import Verif.Compiler.SrcLegal
import Verif.Compiler.SrcExist
import Verif.Mpi.SrcNetModel
import Verif.Mpi.SrcNetLemmas
import Verif.Props.Src
import Verif.Compiler.MergeModel
import Verif.Compiler.MergeLemmas
import Verif.Spec.ExprEqSpec
import Verif.Mpi.WholeModel
import Verif.Mpi.WholeLemmas
import Verif.Props.Whole
import Verif.Compiler.SessModel
import Verif.Compiler.SessLemmas
import Verif.Props.Sess
import Verif.Spec.CallsSpec
import Verif.Var.CallsModel
import Verif.Var.CallsLemmas
import Verif.Props.Calls
import Verif.Spec.HookSpec
import Verif.Kernel.HookModel
import Verif.Kernel.HookLemmas
import Verif.Props.Hook
import Verif.Spec.MsgSpec
import Verif.Mpi.MsgModel
import Verif.Mpi.MsgLemmas
import Verif.Mpi.MsgInv
import Verif.Mpi.MsgActs
import Verif.Mpi.MsgSteps
import Verif.Mpi.MsgProgress
import Verif.Mpi.MsgCalc
import Verif.Props.Msg
import Verif.Spec.FoldOptSpec
import Verif.Compiler.FoldOptModel
import Verif.Compiler.FoldOptLemmas
import Verif.Props.FoldOpt
import Verif.Spec.LoopDepSpec
import Verif.Compiler.LoopDepModel
import Verif.Compiler.LoopDepLemmas
import Verif.Props.LoopDep
import Verif.Var.InitSeqModel
import Verif.Var.InitSeqLemmas
import Verif.Props.InitSeq
import Verif.Compiler.RelPointModel
import Verif.Compiler.RelPointLemmas
import Verif.Props.RelPoint
import Verif.Var.SizeGetModel
import Verif.Var.SizeGetLemmas
import Verif.Props.SizeGet
import Verif.Spec.HaloFlagSpec
import Verif.Kernel.HaloFlagModel
import Verif.Kernel.HaloFlagLemmas
import Verif.Props.HaloFlag
import Verif.Spec.RegistrySpec
import Verif.Compiler.RegistryModel
import Verif.Compiler.RegistryLemmas
import Verif.Props.Registry
import Verif.Compiler.CcMainModel
import Verif.Spec.CcMainSpec
import Verif.Compiler.CcMainLemmas
import Verif.Props.CcMain
import Verif.Compiler.PrefetchModel
import Verif.Spec.PrefetchSpec
import Verif.Props.Prefetch
