import Verif.Kernel.NanoRunModel
import Verif.Sched.MicroModel
import Verif.Var.VarModel

/-!
# Model of a run of the generated code

`Sched/MicroModel.lean` models which micro-blocks `run_solution` evaluates, in which steps and stages, and in which orders if there are
several threads. Here the parts of the stage are evaluated in each micro-block by running the inner loops of `Kernel/NanoRunModel.lean`
on the storage of the vars: `StencilPartBase::calc_micro_block` (`src/kernel/lib/stencil_calc.cpp:136-277`) and what it calls.

Simplifications: as in the two models. One run of the inner loop is one action: inner loops that are run at the same time by different
threads are not interleaved further. The order of the inner loops of a micro-block is free, although one thread evaluates the nano-blocks
that it gets in order. There are no scratch vars.
-/

namespace Yask.Nano
open Spec Comp Spec.Cpp Var

/-- The code of a part at step `t`: the slots of the steps that are used are set before the inner loop
(`CppPreLoopPrintMetaVisitor::visit`, `src/compiler/lib/Cpp.cpp:1252-1260`, `VarPoint.cpp:209-233`). -/
def _root_.Yask.Comp.PartLoop.atStep (c : PartLoop) (dynamic : Bool) (alloc : Nat → Int) (t : Int) : PartLoop :=
  { c with vars := fun i =>
    { c.vars i with slot := fun s =>
      match stepSlot (c.vars i).g dynamic (alloc i) (t + s) with
      | .ok k => k
      | _ => 0 } }

/-- A solution with its generated code: settings of the run; domain dims and step dim; the code of each part of each stage; whether the
step allocation is read at run time, else the allocation of each var; layout of the fold; paths of the micro-block and nano-block loops;
settings of the nano-block loops and binding of threads, in each micro-block; and the full bounding boxes of each part. -/
structure SolnCode where
  cfg : RunCfg
  dims : List String
  step : String
  code : Nat → Nat → PartLoop
  dynamic : Bool
  alloc : Nat → Int
  firstInner : Bool
  microFeat : LoopFeat
  nanoFeat : LoopFeat
  micro : Int → Nat → Nat → Box → List MicroDim
  bind : Int → Nat → Nat → Box → Option Binding
  bbs : Nat → Nat → List Box

/-- A part of a stage at step `t`. -/
def SolnCode.partAt (R : SolnCode) (stage part : Nat) (t : Int) : PartAt :=
  ⟨(R.code stage part).atStep R.dynamic R.alloc t, R.dims, R.step, t⟩

/-- A run of the inner loop of a part of a stage, in a step. -/
structure CodeAct where
  step : Int
  stage : Nat
  part : Nat
  run : InnerRun
deriving Repr, DecidableEq

/-- Runs of the inner loops for all parts of a stage in the micro-block `bx` (`src/kernel/lib/context.cpp:1120-1160`,
`stencil_calc.cpp:136-277`): one part after the other, if its step condition holds. -/
def SolnCode.evalMicro (R : SolnCode) (t : Int) (stage : Nat) (bx : Box) : Traces CodeAct :=
  doSeq ((List.range (R.cfg.nparts stage)).map fun (p : Nat) =>
    if R.cfg.stepOk stage p t then
      match microRuns R.microFeat R.nanoFeat R.firstInner (R.micro t stage p bx) (R.bind t stage p bx) (R.bbs stage p) bx with
      | none => undefinedBehaviour
      | some runs => doPar (runs.map fun r => doOne ⟨t, stage, p, r⟩)
    else doNothing)

/-- The runs of the inner loops in `run_solution(first, last)` (`src/kernel/lib/context.cpp:218-615`), in the orders that are possible. -/
def SolnCode.runSolution (R : SolnCode) (first last : Int) : Traces CodeAct :=
  R.cfg.runSolutionWith R.evalMicro first last

section
variable {V : Type}

/-- Execution of runs of the inner loops on the storage of the vars. -/
def SolnCode.exec (R : SolnCode) (u : V) (A : Arith V) : List CodeAct → (Nat → Int → V) → Outcome (Nat → Int → V)
  | [], mem => .ok mem
  | a :: tr, mem => do
    let m ← (R.partAt a.stage a.part a.step).runInner u A a.run mem
    exec R u A tr m

end
end Yask.Nano
