import Verif.Sched.SchedModel

/-!
# Micro-blocks of a run

The same functions as in `Sched.SchedModel`, with the action taken on a micro-block as a parameter: with `evalBox` they are those functions
(`runBatchWith_evalBox`), with `doOne` they list the micro-blocks that are evaluated.
-/

namespace Yask.RunCfg
open Spec

variable {α : Type*} (c : RunCfg)

/-- As the function of the same name without `With`: `calc_micro_block` (`src/kernel/lib/context.cpp:1014-1174`).  `stages` are the stages evaluated (all, or
the selected one), `nt` the number of steps from `t0` in direction `dir`. -/
def calcMicroWith (ev : Int → Nat → Box → Traces α) (dir : Int) (stages : List Nat) (megaShift : Int) (multi : Bool) (bridge : Nat → Bool)
    (sect : Sect) (rankBase mega blk adj mb : Box) (t0 : Int) (nt : Nat) : Traces α :=
  doSeq ((List.range nt).map fun (i : Nat) =>
    doSeq ((List.range stages.length).map fun (q : Nat) =>
      let stage := stages.getD q 0
      let shift : Int := (i * stages.length + q : Nat)
      match c.shiftMega stage sect rankBase (megaShift + shift) with
      | none => doNothing
      | some idxs =>
        match c.shiftMicro mb adj blk mega shift multi bridge idxs with
        | none => doNothing
        | some bx => ev (t0 + dir * i) stage bx))

/-- As the function of the same name without `With`: `calc_block` without temporal blocking (`src/kernel/lib/context.cpp:858-922`). -/
def calcBlockNoTbWith (ev : Int → Nat → Box → Traces α) (dir : Int) (stage : Nat) (megaShift : Int) (sect : Sect)
    (rankBase mega blk : Box) (t0 : Int) : Traces α :=
  doSeq ((scan (c.blockLoop false blk)).map fun mb =>
    c.calcMicroWith ev dir [stage] megaShift false (fun _ => false) sect rankBase mega blk
      (c.adjBlock false blk) mb t0 1)

/-- As the function of the same name without `With`: `calc_block` with temporal blocking, for one phase (`src/kernel/lib/context.cpp:925-1003`). -/
def calcBlockTbWith (ev : Int → Nat → Box → Traces α) (dir : Int) (megaShift : Int) (phase : Nat) (sect : Sect)
    (rankBase mega blk : Box) (t0 : Int) (nt : Nat) : Traces α :=
  match nChooseK c.nd phase with
  | none => undefinedBehaviour
  | some nshapes =>
    doSeq ((List.range nshapes.toNat).map fun (shape : Nat) =>
      match nChooseKSet c.nd phase shape with
      | none => undefinedBehaviour
      | some mask =>
        doSeq ((scan (c.blockLoop true blk)).map fun mb =>
          c.calcMicroWith ev dir (List.range c.nst) megaShift true
            (fun j => decide (phase > 0) && isBitSet mask j) sect rankBase mega blk
            (c.adjBlock true blk) mb t0 nt))

/-- As the function of the same name without `With`: `calc_mega_block` (`src/kernel/lib/context.cpp:631-815`) for `nt` steps from `t0`. -/
def calcMegaWith (ev : Int → Nat → Box → Traces α) (dir : Int) (stages : List Nat) (sect : Sect) (rankBase : Box) (t0 : Int) (nt : Nat) :
    Traces α :=
  if c.tbSteps = 0 then
    doSeq ((List.range nt).map fun (i : Nat) =>
      doSeq ((List.range stages.length).map fun (q : Nat) =>
        let stage := stages.getD q 0
        let shift : Int := (i * stages.length + q : Nat)
        match c.shiftMega stage sect rankBase shift with
        | none => doNothing
        | some mega =>
          doPar ((scan (c.megaLoop mega)).map fun blk =>
            c.calcBlockNoTbWith ev dir stage shift sect rankBase mega blk (t0 + dir * i))))
  else
    let st := c.tbSteps.toNat
    doSeq ((List.range ((nt + st - 1) / st)).map fun (layer : Nat) =>
      let shift : Int := (layer * st * c.nst : Nat)
      let mega := c.shiftMegaAll rankBase shift
      doSeq ((List.range (c.nd + 1)).map fun (phase : Nat) =>
        doPar ((scan (c.megaLoop mega)).map fun blk =>
          c.calcBlockTbWith ev dir shift phase sect rankBase mega blk
            (t0 + dir * (layer * st : Nat)) (min st (nt - layer * st)))))

/-- As the function of the same name without `With`: One iteration of the step loop of `run_solution`: `nt` steps from `t0`
(`src/kernel/lib/context.cpp:346-589`). -/
def runBatchWith (ev : Int → Nat → Box → Traces α) (dir : Int) (t0 : Int) (nt : Nat) : Traces α :=
  if c.wfSteps = 0 then
    doSeq ((List.range c.nst).map fun (stage : Nat) =>
      doSeq (c.sections.map fun sect =>
        doSeq ((scan c.rankLoop).map fun base => c.calcMegaWith ev dir [stage] sect base t0 nt)))
  else
    doSeq (c.sections.map fun sect =>
      doSeq ((scan c.rankLoop).map fun base =>
        c.calcMegaWith ev dir (List.range c.nst) sect base t0 nt))

theorem runBatchWith_evalBox (dir t0 : Int) (nt : Nat) : c.runBatchWith c.evalBox dir t0 nt = c.runBatch dir t0 nt := rfl

/-- `run_solution(first, last)`, as `runSolution`. -/
def runSolutionWith (ev : Int → Nat → Box → Traces α) (first last : Int) : Traces α :=
  let dir := stepDir first last
  let st := (max c.wfSteps 1).toNat
  let n := numSteps first last
  doSeq ((List.range ((n + st - 1) / st)).map fun (k : Nat) =>
    c.runBatchWith ev dir (first + dir * (k * st : Nat)) (min st (n - k * st)))

theorem runSolutionWith_evalBox (first last : Int) : c.runSolutionWith c.evalBox first last = c.runSolution first last := rfl

/-- The micro-blocks that `run_solution(first, last)` may evaluate: step, stage and box. -/
def microRuns (first last : Int) : Traces (Int × Nat × Box) := c.runSolutionWith (fun t st bx => doOne (t, st, bx)) first last

end Yask.RunCfg
