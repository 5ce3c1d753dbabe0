import Verif.Sched.GoodLemmas

/-!
The trace of an execution by a single thread, as a list that can be computed: every parallel loop runs its
iterations in order.  Used to show that executions exist and to exhibit executions that violate an order.
-/

namespace Yask
open Spec

theorem doSeq_flatMap {ι α : Type*} (xs : List ι) (f : ι → Traces α) (g : ι → List α)
    (h : ∀ x ∈ xs, f x (g x)) : doSeq (xs.map f) (xs.flatMap g) := by
  induction xs with
  | nil => rfl
  | cons x xs ih =>
    exact ⟨g x, xs.flatMap g, h x List.mem_cons_self, ih (fun y hy => h y (List.mem_cons_of_mem _ hy)), rfl⟩

theorem doPar_flatMap {ι α : Type*} (xs : List ι) (f : ι → Traces α) (g : ι → List α)
    (h : ∀ x ∈ xs, f x (g x)) : doPar (xs.map f) (xs.flatMap g) := by
  induction xs with
  | nil => rfl
  | cons x xs ih =>
    exact ⟨g x, xs.flatMap g, h x List.mem_cons_self, ih (fun y hy => h y (List.mem_cons_of_mem _ hy)),
      interleave_append _ _⟩

namespace RunCfg

variable (c : RunCfg)

/-- Single-thread trace of `evalBox`. -/
def evalBoxL (t : Int) (stage : Nat) (bx : Box) : List Task :=
  (List.range (c.nparts stage)).flatMap fun (p : Nat) =>
    if c.stepOk stage p t then
      ((boxPoints bx).filter (c.dom stage p)).flatMap fun x => [⟨t, stage, p, x⟩]
    else []

/-- Single-thread trace of `calcMicro`. -/
def calcMicroL (dir : Int) (stages : List Nat) (megaShift : Int) (multi : Bool) (bridge : Nat → Bool)
    (sect : Sect) (rankBase mega blk adj mb : Box) (t0 : Int) (nt : Nat) : List Task :=
  (List.range nt).flatMap fun (i : Nat) =>
    (List.range stages.length).flatMap fun (q : Nat) =>
      let stage := stages.getD q 0
      let shift : Int := (i * stages.length + q : Nat)
      match c.shiftMega stage sect rankBase (megaShift + shift) with
      | none => []
      | some idxs =>
        match c.shiftMicro mb adj blk mega shift multi bridge idxs with
        | none => []
        | some bx => c.evalBoxL (t0 + dir * i) stage bx

/-- Single-thread trace of `calcBlockNoTb`. -/
def calcBlockNoTbL (dir : Int) (stage : Nat) (megaShift : Int) (sect : Sect)
    (rankBase mega blk : Box) (t0 : Int) : List Task :=
  (scan (c.blockLoop false blk)).flatMap fun mb =>
    c.calcMicroL dir [stage] megaShift false (fun _ => false) sect rankBase mega blk
      (c.adjBlock false blk) mb t0 1

/-- Single-thread trace of `calcBlockTb`. -/
def calcBlockTbL (dir : Int) (megaShift : Int) (phase : Nat) (sect : Sect)
    (rankBase mega blk : Box) (t0 : Int) (nt : Nat) : List Task :=
  match nChooseK c.nd phase with
  | none => []
  | some nshapes =>
    (List.range nshapes.toNat).flatMap fun (shape : Nat) =>
      match nChooseKSet c.nd phase shape with
      | none => []
      | some mask =>
        (scan (c.blockLoop true blk)).flatMap fun mb =>
          c.calcMicroL dir (List.range c.nst) megaShift true
            (fun j => decide (phase > 0) && isBitSet mask j) sect rankBase mega blk
            (c.adjBlock true blk) mb t0 nt

/-- Single-thread trace of `calcMega`. -/
def calcMegaL (dir : Int) (stages : List Nat) (sect : Sect) (rankBase : Box) (t0 : Int) (nt : Nat) :
    List Task :=
  if c.tbSteps = 0 then
    (List.range nt).flatMap fun (i : Nat) =>
      (List.range stages.length).flatMap fun (q : Nat) =>
        let stage := stages.getD q 0
        let shift : Int := (i * stages.length + q : Nat)
        match c.shiftMega stage sect rankBase shift with
        | none => []
        | some mega =>
          (scan (c.megaLoop mega)).flatMap fun blk =>
            c.calcBlockNoTbL dir stage shift sect rankBase mega blk (t0 + dir * i)
  else
    let st := c.tbSteps.toNat
    (List.range ((nt + st - 1) / st)).flatMap fun (layer : Nat) =>
      let shift : Int := (layer * st * c.nst : Nat)
      let mega := c.shiftMegaAll rankBase shift
      (List.range (c.nd + 1)).flatMap fun (phase : Nat) =>
        (scan (c.megaLoop mega)).flatMap fun blk =>
          c.calcBlockTbL dir shift phase sect rankBase mega blk
            (t0 + dir * (layer * st : Nat)) (min st (nt - layer * st))

/-- Single-thread trace of `runBatch`. -/
def runBatchL (dir : Int) (t0 : Int) (nt : Nat) : List Task :=
  if c.wfSteps = 0 then
    (List.range c.nst).flatMap fun (stage : Nat) =>
      c.sections.flatMap fun sect =>
        (scan c.rankLoop).flatMap fun base => c.calcMegaL dir [stage] sect base t0 nt
  else
    c.sections.flatMap fun sect =>
      (scan c.rankLoop).flatMap fun base =>
        c.calcMegaL dir (List.range c.nst) sect base t0 nt

/-- Single-thread trace of `runSolution`. -/
def runSolutionL (first last : Int) : List Task :=
  let dir := stepDir first last
  let st := (max c.wfSteps 1).toNat
  let n := numSteps first last
  (List.range ((n + st - 1) / st)).flatMap fun (k : Nat) =>
    c.runBatchL dir (first + dir * (k * st : Nat)) (min st (n - k * st))

theorem evalBoxL_trace (t : Int) (stage : Nat) (bx : Box) : c.evalBox t stage bx (c.evalBoxL t stage bx) := by
  unfold evalBox evalBoxL
  apply doSeq_flatMap
  intro p _
  split
  · exact doPar_flatMap _ _ _ (fun x _ => rfl)
  · rfl

theorem calcMicroL_trace (dir : Int) (stages : List Nat) (megaShift : Int) (multi : Bool)
    (bridge : Nat → Bool) (sect : Sect) (rankBase mega blk adj mb : Box) (t0 : Int) (nt : Nat) :
    c.calcMicro dir stages megaShift multi bridge sect rankBase mega blk adj mb t0 nt
      (c.calcMicroL dir stages megaShift multi bridge sect rankBase mega blk adj mb t0 nt) := by
  unfold calcMicro calcMicroL
  refine doSeq_flatMap _ _ _ fun i _ => doSeq_flatMap _ _ _ fun q _ => ?_
  cases h1 : c.shiftMega (stages.getD q 0) sect rankBase (megaShift + (i * stages.length + q : Nat)) with
  | none => simp only [h1]; rfl
  | some idxs =>
    cases h2 : c.shiftMicro mb adj blk mega (i * stages.length + q : Nat) multi bridge idxs with
    | none => simp only [h1, h2]; rfl
    | some bx => simp only [h1, h2]; exact c.evalBoxL_trace _ _ _

theorem calcBlockNoTbL_trace (dir : Int) (stage : Nat) (megaShift : Int) (sect : Sect)
    (rankBase mega blk : Box) (t0 : Int) :
    c.calcBlockNoTb dir stage megaShift sect rankBase mega blk t0
      (c.calcBlockNoTbL dir stage megaShift sect rankBase mega blk t0) :=
  doSeq_flatMap _ _ _ fun _ _ => c.calcMicroL_trace _ _ _ _ _ _ _ _ _ _ _ _ _

theorem calcBlockTbL_trace (dir : Int) (megaShift : Int) (phase : Nat) (sect : Sect)
    (rankBase mega blk : Box) (t0 : Int) (nt : Nat) :
    c.calcBlockTb dir megaShift phase sect rankBase mega blk t0 nt
      (c.calcBlockTbL dir megaShift phase sect rankBase mega blk t0 nt) := by
  unfold calcBlockTb calcBlockTbL
  cases h1 : nChooseK c.nd phase with
  | none => trivial
  | some ns =>
    refine doSeq_flatMap _ _ _ fun shape _ => ?_
    cases h2 : nChooseKSet c.nd phase shape with
    | none => trivial
    | some mask => exact doSeq_flatMap _ _ _ fun _ _ => c.calcMicroL_trace _ _ _ _ _ _ _ _ _ _ _ _ _

theorem calcMegaL_trace (dir : Int) (stages : List Nat) (sect : Sect) (rankBase : Box) (t0 : Int)
    (nt : Nat) :
    c.calcMega dir stages sect rankBase t0 nt (c.calcMegaL dir stages sect rankBase t0 nt) := by
  unfold calcMega calcMegaL
  split
  · refine doSeq_flatMap _ _ _ fun i _ => doSeq_flatMap _ _ _ fun q _ => ?_
    cases h1 : c.shiftMega (stages.getD q 0) sect rankBase (i * stages.length + q : Nat) with
    | none => simp only [h1]; rfl
    | some mega => simp only [h1]; exact doPar_flatMap _ _ _ fun _ _ => c.calcBlockNoTbL_trace _ _ _ _ _ _ _ _
  · exact doSeq_flatMap _ _ _ fun _ _ => doSeq_flatMap _ _ _ fun _ _ => doPar_flatMap _ _ _ fun _ _ =>
      c.calcBlockTbL_trace _ _ _ _ _ _ _ _ _

theorem runBatchL_trace (dir : Int) (t0 : Int) (nt : Nat) :
    c.runBatch dir t0 nt (c.runBatchL dir t0 nt) := by
  unfold runBatch runBatchL
  split
  · exact doSeq_flatMap _ _ _ fun _ _ => doSeq_flatMap _ _ _ fun _ _ => doSeq_flatMap _ _ _ fun _ _ =>
      c.calcMegaL_trace _ _ _ _ _ _
  · exact doSeq_flatMap _ _ _ fun _ _ => doSeq_flatMap _ _ _ fun _ _ => c.calcMegaL_trace _ _ _ _ _ _

theorem runSolutionL_trace (first last : Int) :
    c.runSolution first last (c.runSolutionL first last) :=
  doSeq_flatMap _ _ _ fun _ _ => c.runBatchL_trace _ _ _

end RunCfg
end Yask
