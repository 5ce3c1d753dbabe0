import Verif.Sched.MicroModel
import Verif.Sched.SeqTrace

/-!
The micro-blocks of an execution by a single thread, as a list that can be computed.
-/

namespace Yask
open Spec
namespace RunCfg

variable (c : RunCfg)

/-- The action that lists micro-blocks. -/
abbrev listing : Int → Nat → Box → Traces (Int × Nat × Box) := fun t st bx => doOne (t, st, bx)

/-- Single-thread trace of `calcMicroWith`. -/
def calcMicroM (dir : Int) (stages : List Nat) (megaShift : Int) (multi : Bool) (bridge : Nat → Bool)
    (sect : Sect) (rankBase mega blk adj mb : Box) (t0 : Int) (nt : Nat) : List (Int × Nat × Box) :=
  (List.range nt).flatMap fun (i : Nat) =>
    (List.range stages.length).flatMap fun (q : Nat) =>
      let stage := stages.getD q 0
      let shift : Int := (i * stages.length + q : Nat)
      match c.shiftMega stage sect rankBase (megaShift + shift) with
      | none => []
      | some idxs =>
        match c.shiftMicro mb adj blk mega shift multi bridge idxs with
        | none => []
        | some bx => [(t0 + dir * i, stage, bx)]

/-- Single-thread trace of `calcBlockNoTbWith`. -/
def calcBlockNoTbM (dir : Int) (stage : Nat) (megaShift : Int) (sect : Sect)
    (rankBase mega blk : Box) (t0 : Int) : List (Int × Nat × Box) :=
  (scan (c.blockLoop false blk)).flatMap fun mb =>
    c.calcMicroM dir [stage] megaShift false (fun _ => false) sect rankBase mega blk
      (c.adjBlock false blk) mb t0 1

/-- Single-thread trace of `calcBlockTbWith`. -/
def calcBlockTbM (dir : Int) (megaShift : Int) (phase : Nat) (sect : Sect)
    (rankBase mega blk : Box) (t0 : Int) (nt : Nat) : List (Int × Nat × Box) :=
  match nChooseK c.nd phase with
  | none => []
  | some nshapes =>
    (List.range nshapes.toNat).flatMap fun (shape : Nat) =>
      match nChooseKSet c.nd phase shape with
      | none => []
      | some mask =>
        (scan (c.blockLoop true blk)).flatMap fun mb =>
          c.calcMicroM dir (List.range c.nst) megaShift true
            (fun j => decide (phase > 0) && isBitSet mask j) sect rankBase mega blk
            (c.adjBlock true blk) mb t0 nt

/-- Single-thread trace of `calcMegaWith`. -/
def calcMegaM (dir : Int) (stages : List Nat) (sect : Sect) (rankBase : Box) (t0 : Int) (nt : Nat) :
    List (Int × Nat × Box) :=
  if c.tbSteps = 0 then
    (List.range nt).flatMap fun (i : Nat) =>
      (List.range stages.length).flatMap fun (q : Nat) =>
        let stage := stages.getD q 0
        let shift : Int := (i * stages.length + q : Nat)
        match c.shiftMega stage sect rankBase shift with
        | none => []
        | some mega =>
          (scan (c.megaLoop mega)).flatMap fun blk =>
            c.calcBlockNoTbM dir stage shift sect rankBase mega blk (t0 + dir * i)
  else
    let st := c.tbSteps.toNat
    (List.range ((nt + st - 1) / st)).flatMap fun (layer : Nat) =>
      let shift : Int := (layer * st * c.nst : Nat)
      let mega := c.shiftMegaAll rankBase shift
      (List.range (c.nd + 1)).flatMap fun (phase : Nat) =>
        (scan (c.megaLoop mega)).flatMap fun blk =>
          c.calcBlockTbM dir shift phase sect rankBase mega blk
            (t0 + dir * (layer * st : Nat)) (min st (nt - layer * st))

/-- Single-thread trace of `runBatchWith`. -/
def runBatchM (dir : Int) (t0 : Int) (nt : Nat) : List (Int × Nat × Box) :=
  if c.wfSteps = 0 then
    (List.range c.nst).flatMap fun (stage : Nat) =>
      c.sections.flatMap fun sect =>
        (scan c.rankLoop).flatMap fun base => c.calcMegaM dir [stage] sect base t0 nt
  else
    c.sections.flatMap fun sect =>
      (scan c.rankLoop).flatMap fun base =>
        c.calcMegaM dir (List.range c.nst) sect base t0 nt

/-- Single-thread trace of `runSolutionWith`. -/
def runSolutionM (first last : Int) : List (Int × Nat × Box) :=
  let dir := stepDir first last
  let st := (max c.wfSteps 1).toNat
  let n := numSteps first last
  (List.range ((n + st - 1) / st)).flatMap fun (k : Nat) =>
    c.runBatchM dir (first + dir * (k * st : Nat)) (min st (n - k * st))

theorem calcMicroM_trace (dir : Int) (stages : List Nat) (megaShift : Int) (multi : Bool)
    (bridge : Nat → Bool) (sect : Sect) (rankBase mega blk adj mb : Box) (t0 : Int) (nt : Nat) :
    c.calcMicroWith listing dir stages megaShift multi bridge sect rankBase mega blk adj mb t0 nt
      (c.calcMicroM dir stages megaShift multi bridge sect rankBase mega blk adj mb t0 nt) := by
  unfold calcMicroWith calcMicroM
  refine doSeq_flatMap _ _ _ fun i _ => doSeq_flatMap _ _ _ fun q _ => ?_
  cases h1 : c.shiftMega (stages.getD q 0) sect rankBase (megaShift + (i * stages.length + q : Nat)) with
  | none => simp only [h1]; rfl
  | some idxs =>
    cases h2 : c.shiftMicro mb adj blk mega (i * stages.length + q : Nat) multi bridge idxs with
    | none => simp only [h1, h2]; rfl
    | some bx => simp only [h1, h2]; rfl

theorem calcBlockNoTbM_trace (dir : Int) (stage : Nat) (megaShift : Int) (sect : Sect)
    (rankBase mega blk : Box) (t0 : Int) :
    c.calcBlockNoTbWith listing dir stage megaShift sect rankBase mega blk t0
      (c.calcBlockNoTbM dir stage megaShift sect rankBase mega blk t0) :=
  doSeq_flatMap _ _ _ fun _ _ => c.calcMicroM_trace _ _ _ _ _ _ _ _ _ _ _ _ _

theorem calcBlockTbM_trace (dir : Int) (megaShift : Int) (phase : Nat) (sect : Sect)
    (rankBase mega blk : Box) (t0 : Int) (nt : Nat) :
    c.calcBlockTbWith listing dir megaShift phase sect rankBase mega blk t0 nt
      (c.calcBlockTbM dir megaShift phase sect rankBase mega blk t0 nt) := by
  unfold calcBlockTbWith calcBlockTbM
  cases h1 : nChooseK c.nd phase with
  | none => trivial
  | some ns =>
    refine doSeq_flatMap _ _ _ fun shape _ => ?_
    cases h2 : nChooseKSet c.nd phase shape with
    | none => trivial
    | some mask => exact doSeq_flatMap _ _ _ fun _ _ => c.calcMicroM_trace _ _ _ _ _ _ _ _ _ _ _ _ _

theorem calcMegaM_trace (dir : Int) (stages : List Nat) (sect : Sect) (rankBase : Box) (t0 : Int)
    (nt : Nat) :
    c.calcMegaWith listing dir stages sect rankBase t0 nt (c.calcMegaM dir stages sect rankBase t0 nt) := by
  unfold calcMegaWith calcMegaM
  split
  · refine doSeq_flatMap _ _ _ fun i _ => doSeq_flatMap _ _ _ fun q _ => ?_
    cases h1 : c.shiftMega (stages.getD q 0) sect rankBase (i * stages.length + q : Nat) with
    | none => simp only [h1]; rfl
    | some mega => simp only [h1]; exact doPar_flatMap _ _ _ fun _ _ => c.calcBlockNoTbM_trace _ _ _ _ _ _ _ _
  · exact doSeq_flatMap _ _ _ fun _ _ => doSeq_flatMap _ _ _ fun _ _ => doPar_flatMap _ _ _ fun _ _ =>
      c.calcBlockTbM_trace _ _ _ _ _ _ _ _ _

theorem runBatchM_trace (dir : Int) (t0 : Int) (nt : Nat) :
    c.runBatchWith listing dir t0 nt (c.runBatchM dir t0 nt) := by
  unfold runBatchWith runBatchM
  split
  · exact doSeq_flatMap _ _ _ fun _ _ => doSeq_flatMap _ _ _ fun _ _ => doSeq_flatMap _ _ _ fun _ _ =>
      c.calcMegaM_trace _ _ _ _ _ _
  · exact doSeq_flatMap _ _ _ fun _ _ => doSeq_flatMap _ _ _ fun _ _ => c.calcMegaM_trace _ _ _ _ _ _

theorem runSolutionM_trace (first last : Int) :
    c.runSolutionWith listing first last (c.runSolutionM first last) :=
  doSeq_flatMap _ _ _ fun _ _ => c.runBatchM_trace _ _ _

end RunCfg
end Yask
