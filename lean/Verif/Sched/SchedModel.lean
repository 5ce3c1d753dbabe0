import Verif.Common.IdivModel
import Verif.Common.ComboModel
import Verif.Loops.LoopModel
import Verif.Spec.Cover
import Verif.Spec.Trace

/-!
# Model of the temporal and spatial tiling of one rank

Models `run_solution`, `calc_mega_block`, `calc_block`, `calc_micro_block`, `shift_mega_block` and
`shift_micro_block` of `src/kernel/lib/context.cpp`, the computation of the tiling angles and sizes in
`update_var_info` and `update_tb_info` of `src/kernel/lib/setup.cpp`, and the stride adjustments of
`ScanIndices` in `src/kernel/lib/indices.hpp`.

The result of the model is the *set of traces* of point evaluations that a call may produce
(`Verif.Spec.Trace`): loops without OpenMP are sequential, the mega-block loop (the only loop of this
file's code that is parallel across threads, `src/kernel/Makefile:497-502`) and the points of a
micro-block run in any interleaving.

Simplifications.
* Halo exchanges, timers, auto-tuner calls, cache modelling, dirty flags and device copies are not part
  of the trace.
* An evaluation of a part at a point stands for the part and the scratch parts it requires; scratch
  variables are private to a thread and are not memory of the model.
* The set of points where a part is valid (its bounding-box list) is the predicate `dom`.
* Loop tile sizes are irrelevant because the default loops are not tiled; `tileSize` is set to 1.
* `shift_num` counters are written in closed form: the number of (step, stage) pairs done before.
* `idx_t` is unbounded.
-/

namespace Yask

open Spec

/-- What the tiling code knows about one domain dimension of a rank: fold length (`_fold_pts`), largest
halo (`max_halos`), first index and size of the rank, sizes of the nested tiles (`_mega_block_sizes`,
`_block_sizes`, `_micro_block_sizes`), number of ranks and whether this rank is the first or last one,
and the MPI interior (`mpi_interior`).  `src/kernel/lib/setup.cpp:672-1010`,
`src/kernel/lib/context.hpp:245-283`. -/
structure DimIn where
  fold : Int
  maxHalo : Int
  rankBeg : Int
  rankSize : Int
  megaSize : Int
  blockSize : Int
  microSize : Int
  nranks : Int
  firstRank : Bool
  lastRank : Bool
  intBeg : Int
  intEnd : Int

/-- A prepared solution on one rank, as far as tiling is concerned: domain dimensions, number of
stages, requested steps per mega-block and per block (the step-dimension entries of the sizes),
`_round_up_tb_angles`, whether computation overlaps communication (`mpi_interior.bb_valid`), the
bounding box of each stage, and for each stage its parts with the points and steps where they are
valid. -/
structure RunCfg where
  nd : Nat
  dim : Nat → DimIn
  nst : Nat
  megaSteps : Int
  blockSteps : Int
  roundTb : Bool
  overlap : Bool
  stageBB : Nat → Nat → Ivl
  nparts : Nat → Nat
  dom : Nat → Nat → List Int → Bool
  stepOk : Nat → Nat → Int → Bool

/-- One evaluation: part `part` of stage `stage` at step `step` and point `pt`. -/
structure Task where
  step : Int
  stage : Nat
  part : Nat
  pt : List Int
deriving DecidableEq, Repr

namespace RunCfg

variable (c : RunCfg)

/-! ### Derived settings -/

/-- `wf_steps` (`src/kernel/lib/setup.cpp:722-725`). -/
def wfSteps : Int := max c.megaSteps c.blockSteps

/-- `num_wf_shifts` (`src/kernel/lib/setup.cpp:726-736`). -/
def numWfShifts : Int :=
  if c.wfSteps > 0 then
    (if (c.nst : Int) * c.wfSteps > 0 then (c.nst : Int) * c.wfSteps - 1 else (c.nst : Int) * c.wfSteps)
  else 0

/-- `wf_angles` (`src/kernel/lib/setup.cpp:748-759`). -/
def wfAngle (j : Nat) : Int :=
  let d := c.dim j
  if d.megaSize < d.rankSize ∨ d.nranks > 1 then roundUp d.maxHalo d.fold else 0

/-- `wf_shift_pts` (`src/kernel/lib/setup.cpp:763-764`). -/
def wfShiftPts (j : Nat) : Int := c.wfAngle j * c.numWfShifts

/-- `left_wf_exts` (`src/kernel/lib/setup.cpp:780`). -/
def leftExt (j : Nat) : Int := if (c.dim j).firstRank then 0 else c.wfShiftPts j

/-- `right_wf_exts` (`src/kernel/lib/setup.cpp:784`). -/
def rightExt (j : Nat) : Int := if (c.dim j).lastRank then 0 else c.wfShiftPts j

/-- `rank_bb.bb_end` (`src/kernel/lib/setup.cpp:1090-1091`). -/
def rankEnd (j : Nat) : Int := (c.dim j).rankBeg + (c.dim j).rankSize

/-- `ext_bb.bb_begin` (`src/kernel/lib/setup.cpp:1095`). -/
def extBeg (j : Nat) : Int := (c.dim j).rankBeg - c.leftExt j

/-- `ext_bb.bb_end` (`src/kernel/lib/setup.cpp:1096`). -/
def extEnd (j : Nat) : Int := c.rankEnd j + c.rightExt j

/-- The angle of temporal blocking before deciding whether it is needed
(`src/kernel/lib/setup.cpp:900-906`). -/
def rawTbAngle (j : Nat) : Int :=
  if c.roundTb then roundUp (c.dim j).maxHalo (c.dim j).fold else (c.dim j).maxHalo

/-- `mb_angles` (`src/kernel/lib/setup.cpp:877,909-913`). -/
def mbAngle (j : Nat) : Int :=
  if c.blockSteps > 0 ∧ (c.dim j).microSize < (c.dim j).blockSize then c.rawTbAngle j else 0

/-- `tb_angles` (`src/kernel/lib/setup.cpp:874,916-920`). -/
def tbAngle (j : Nat) : Int :=
  if c.blockSteps > 0 ∧ (c.dim j).blockSize < (c.dim j).megaSize then c.rawTbAngle j else 0

/-- `max_steps` after looking at the dimensions `j < k` (`src/kernel/lib/setup.cpp:887-943`). -/
def tbMaxSteps : Nat → Int
  | 0 => min c.blockSteps c.wfSteps
  | k + 1 =>
    if c.tbAngle k > 0 then
      min (tbMaxSteps k)
        (((c.dim k).blockSize - (c.dim k).fold + c.tbAngle k * 2).tdiv (c.tbAngle k * 2 * c.nst))
    else tbMaxSteps k

/-- `tb_steps` (`src/kernel/lib/setup.cpp:870,944`). -/
def tbSteps : Int := if c.blockSteps > 0 then min c.blockSteps (c.tbMaxSteps c.nd) else c.blockSteps

/-- `num_tb_shifts` (`src/kernel/lib/setup.cpp:950-960`). -/
def numTbShifts : Int :=
  if c.tbSteps > 0 then
    (if (c.nst : Int) * c.tbSteps > 0 then (c.nst : Int) * c.tbSteps - 1 else (c.nst : Int) * c.tbSteps)
  else 0

/-- `tb_widths` (`src/kernel/lib/setup.cpp:998-1019`). -/
def tbWidth (j : Nat) : Int :=
  let d := c.dim j
  if c.numTbShifts > 0 ∧ c.tbAngle j > 0 then
    let sa := c.numTbShifts * c.tbAngle j
    max (roundUp (ceilDiv d.blockSize 2 + sa) d.fold) (d.fold + 2 * sa)
  else d.blockSize

/-- `does_exterior_exist` (`src/kernel/lib/context.hpp:279-283`). -/
def exteriorExists (j : Nat) (left : Bool) : Bool :=
  if left then decide ((c.dim j).intBeg > c.extBeg j) else decide ((c.dim j).intEnd < c.extEnd j)

/-! ### Mega-block boundaries -/

/-- The part of the rank being computed: everything, one exterior side of one dimension, or the interior
(`MpiSection`, `src/kernel/lib/context.hpp:785-844`). -/
inductive Sect
  | whole
  | ext (dim : Nat) (left : Bool)
  | interior
deriving DecidableEq, Repr

/-- Interior boundaries in dimension `j`, adjusted for the wave-front shift
(`src/kernel/lib/context.cpp:1235-1268`). -/
def intRange (j : Nat) (shiftAmt : Int) : Ivl :=
  let d := c.dim j
  if c.wfSteps > 0 then
    (if c.exteriorExists j true then d.intBeg + c.wfShiftPts j - shiftAmt else d.intBeg,
     if c.exteriorExists j false then d.intEnd - c.wfShiftPts j + shiftAmt else d.intEnd)
  else (d.intBeg, d.intEnd)

/-- Trimming of `[rstart, rstop)` to the current MPI section in dimension `j`
(`src/kernel/lib/context.cpp:1231-1325`). -/
def sectTrim (sect : Sect) (j : Nat) (shiftAmt : Int) (r : Ivl) : Ivl :=
  let i := c.intRange j shiftAmt
  match sect with
  | .whole => r
  | .interior => (max r.1 i.1, min r.2 i.2)
  | .ext dim left =>
    let r1 : Ivl :=
      if j = dim then
        (if left then (r.1, min r.2 i.1) else (max (max r.1 i.2) i.1, r.2))
      else r
    if j < dim then (max r1.1 i.1, min r1.2 i.2) else r1

/-- Boundaries of a mega-block in dimension `j` before trimming
(`src/kernel/lib/context.cpp:1200-1208`). -/
def shiftOnly (j : Nat) (base : Ivl) (shift : Int) : Ivl :=
  (base.1 - c.wfAngle j * shift, base.2 - c.wfAngle j * shift)

/-- Boundaries of a mega-block in dimension `j` after trimming to the stage, the wave-front extensions and
the MPI section (`src/kernel/lib/context.cpp:1200-1325`). -/
def shiftTrim (stage : Nat) (sect : Sect) (j : Nat) (base : Ivl) (shift : Int) : Ivl :=
  let shiftAmt := c.wfAngle j * shift
  let r := c.shiftOnly j base shift
  let bb := c.stageBB stage j
  let rstart := max r.1 bb.1
  let rstop := min r.2 bb.2
  let dbegin := (c.dim j).rankBeg
  let dend := c.rankEnd j
  let rstart := if rstart < dbegin ∧ c.leftExt j ≠ 0 then
      max rstart (dbegin - c.leftExt j + shiftAmt) else rstart
  let rstop := if rstop > dend ∧ c.rightExt j ≠ 0 then
      min rstop (dend + c.rightExt j - shiftAmt) else rstop
  c.sectTrim sect j shiftAmt (rstart, rstop)

/-- `shift_mega_block` for a null stage pointer: shift only, always succeeds
(`src/kernel/lib/context.cpp:1181-1355`). -/
def shiftMegaAll (base : Box) (shift : Int) : Box :=
  (List.range c.nd).map fun (j : Nat) => c.shiftOnly j (base.getD j (0, 0)) shift

/-- `shift_mega_block` for a given stage: `none` when it returns `false` because some dimension is empty
or the exterior section does not exist (`src/kernel/lib/context.cpp:1181-1355`). -/
def shiftMega (stage : Nat) (sect : Sect) (base : Box) (shift : Int) : Option Box :=
  let r := fun (j : Nat) => c.shiftTrim stage sect j (base.getD j (0, 0)) shift
  let sectOk : Bool := match sect with
    | .ext dim left => c.exteriorExists dim left
    | _ => true
  if sectOk = true ∧ ∀ j < c.nd, (r j).1 < (r j).2 then some ((List.range c.nd).map r) else none

/-! ### Micro-block boundaries -/

/-- The shape of a block in one dimension: base of the block `blk`, base of the mega-block `mega`, bounds of
the trimmed mega-block `idxs`, shift number, whether there is more than one phase, and whether this
dimension is bridged (`src/kernel/lib/context.cpp:1388-1458`). -/
def blockShape (j : Nat) (mega blk idxs : Ivl) (shift : Int) (multi bridge : Bool) : Ivl :=
  let a := c.tbAngle j
  let isFirst := decide (blk.1 ≤ mega.1)
  let isLast := decide (blk.2 ≥ mega.2)
  let isOne := isFirst && isLast
  let start0 := blk.1
  let stop0 := if multi && !isOne then min (start0 + c.tbWidth j) blk.2 else blk.2
  let next0 := blk.2
  let start1 := if isFirst then idxs.1 else start0 + a * shift
  let stop1 := if (!multi || isOne) && isLast then idxs.2 else stop0 - a * shift
  let next1 := if isLast then idxs.2 else next0 + a * shift
  if bridge then (max stop1 start1, next1) else (start1, stop1)

/-- The micro-block `mb` in one dimension, within the adjusted block `adj`, trimmed to `idxs` and to the
shape (`src/kernel/lib/context.cpp:1466-1503`). -/
def microTrim (j : Nat) (adj mb idxs shape : Ivl) (shift : Int) : Ivl :=
  let isFirst := decide (mb.1 ≤ adj.1)
  let isLast := decide (mb.2 ≥ adj.2)
  let isOne := isFirst && isLast
  let start0 := if isOne then mb.1 else mb.1 - c.mbAngle j * shift
  let stop0 := if isOne then mb.2 else mb.2 - c.mbAngle j * shift
  let start1 := if isFirst then shape.1 else start0
  let stop1 := if isLast then shape.2 else stop0
  (max (max start1 idxs.1) shape.1, min (min stop1 idxs.2) shape.2)

/-- `shift_micro_block` (`src/kernel/lib/context.cpp:1366-1520`): `none` when it returns `false` because
some dimension is empty.  `bridge` tells which dimensions are bridged. -/
def shiftMicro (mb adj blk mega : Box) (shift : Int) (multi : Bool) (bridge : Nat → Bool)
    (idxs : Box) : Option Box :=
  let g := fun (b : Box) (j : Nat) => b.getD j (0, 0)
  let sh := fun (j : Nat) => c.blockShape j (g mega j) (g blk j) (g idxs j) shift multi (bridge j)
  let r := fun (j : Nat) => c.microTrim j (g adj j) (g mb j) (g idxs j) (sh j) shift
  if ∀ j < c.nd, (sh j).1 < (sh j).2 ∧ (r j).1 < (r j).2 then some ((List.range c.nd).map r)
  else none

/-! ### Loops -/

/-- Strides of a scan: `set_strides_from_inner` on a region of `range` points, then
`adjust_from_settings` on a region of `range'` points (`src/kernel/lib/indices.hpp:768-809`).
`inner` is the size of the inner tile and `outer` the configured size of this one. -/
def strideOf (fold inner outer range range' : Int) : Int :=
  if inner ≥ outer then roundUp range' fold * 2
  else if roundUp inner fold > range then roundUp inner fold * 2 else roundUp inner fold

/-- The scan over the mega-blocks of the rank (`src/kernel/lib/context.cpp:248-258,314-336`). -/
def rankLoop : List LoopDim :=
  (List.range c.nd).map fun (j : Nat) =>
    let d := c.dim j
    let b := c.extBeg j
    let e := if c.wfSteps > 0 ∧ c.rightExt j = 0 then c.extEnd j + c.wfShiftPts j else c.extEnd j
    { begin_ := b, end_ := e
      stride := if d.megaSize ≥ d.rankSize then roundUp (e - b) d.fold * 2 else d.megaSize
      align := d.fold, alignOfs := d.rankBeg, tileSize := 1 }

/-- The scan over the blocks of a mega-block (`src/kernel/lib/context.cpp:688-709,757-773`). -/
def megaLoop (mega : Box) : List LoopDim :=
  (List.range c.nd).map fun (j : Nat) =>
    let d := c.dim j
    let m := mega.getD j (0, 0)
    { begin_ := m.1, end_ := m.2
      stride := strideOf d.fold d.blockSize d.megaSize (m.2 - m.1) (m.2 - m.1)
      align := d.fold, alignOfs := d.rankBeg, tileSize := 1 }

/-- The region scanned for the micro-blocks of a block: with temporal blocking it is extended to the right
by the width of the block (`src/kernel/lib/context.cpp:936-960`). -/
def adjBlock (tb : Bool) (blk : Box) : Box :=
  (List.range c.nd).map fun (j : Nat) =>
    let b := blk.getD j (0, 0)
    (b.1, if tb then b.2 + (b.2 - b.1) else b.2)

/-- The scan over the micro-blocks of a block (`src/kernel/lib/context.cpp:880-900,936-966`). -/
def blockLoop (tb : Bool) (blk : Box) : List LoopDim :=
  (List.range c.nd).map fun (j : Nat) =>
    let d := c.dim j
    let b := blk.getD j (0, 0)
    let a := (c.adjBlock tb blk).getD j (0, 0)
    { begin_ := a.1, end_ := a.2
      stride := strideOf d.fold d.microSize d.blockSize (b.2 - b.1) (a.2 - a.1)
      align := d.fold, alignOfs := d.rankBeg, tileSize := 1 }

/-- The boxes visited by a generated loop with the default modifiers, in program order
(`src/kernel/Makefile:489-520`; by `C12_increasing_order` a flattened loop visits them in the same order
as a nested one). -/
def scan (ds : List LoopDim) : List Box :=
  (loopBodies true [({ nested := true }, ds)]).map Prod.snd

/-! ### Evaluation -/

/-- All points of a box, in row-major order. -/
def boxPoints : Box → List (List Int)
  | [] => [[]]
  | r :: rs =>
    (List.range (r.2 - r.1).toNat).flatMap fun (i : Nat) => (boxPoints rs).map ((r.1 + i) :: ·)

/-- Evaluation of every part of a stage that is valid at step `t` in the points of `bx`
(`src/kernel/lib/context.cpp:1136-1163`; `StencilPartBase::calc_micro_block`). -/
def evalBox (t : Int) (stage : Nat) (bx : Box) : Traces Task :=
  doSeq ((List.range (c.nparts stage)).map fun (p : Nat) =>
    if c.stepOk stage p t then
      doPar (((boxPoints bx).filter (c.dom stage p)).map fun x => doOne ⟨t, stage, p, x⟩)
    else doNothing)

/-- `calc_micro_block` (`src/kernel/lib/context.cpp:1014-1174`).  `stages` are the stages evaluated (all, or
the selected one), `nt` the number of steps from `t0` in direction `dir`. -/
def calcMicro (dir : Int) (stages : List Nat) (megaShift : Int) (multi : Bool) (bridge : Nat → Bool)
    (sect : Sect) (rankBase mega blk adj mb : Box) (t0 : Int) (nt : Nat) : Traces Task :=
  doSeq ((List.range nt).map fun (i : Nat) =>
    doSeq ((List.range stages.length).map fun (q : Nat) =>
      let stage := stages.getD q 0
      let shift : Int := (i * stages.length + q : Nat)
      match c.shiftMega stage sect rankBase (megaShift + shift) with
      | none => doNothing
      | some idxs =>
        match c.shiftMicro mb adj blk mega shift multi bridge idxs with
        | none => doNothing
        | some bx => c.evalBox (t0 + dir * i) stage bx))

/-- `calc_block` without temporal blocking (`src/kernel/lib/context.cpp:858-922`). -/
def calcBlockNoTb (dir : Int) (stage : Nat) (megaShift : Int) (sect : Sect)
    (rankBase mega blk : Box) (t0 : Int) : Traces Task :=
  doSeq ((scan (c.blockLoop false blk)).map fun mb =>
    c.calcMicro dir [stage] megaShift false (fun _ => false) sect rankBase mega blk
      (c.adjBlock false blk) mb t0 1)

/-- `calc_block` with temporal blocking, for one phase (`src/kernel/lib/context.cpp:925-1003`). -/
def calcBlockTb (dir : Int) (megaShift : Int) (phase : Nat) (sect : Sect)
    (rankBase mega blk : Box) (t0 : Int) (nt : Nat) : Traces Task :=
  match nChooseK c.nd phase with
  | none => undefinedBehaviour
  | some nshapes =>
    doSeq ((List.range nshapes.toNat).map fun (shape : Nat) =>
      match nChooseKSet c.nd phase shape with
      | none => undefinedBehaviour
      | some mask =>
        doSeq ((scan (c.blockLoop true blk)).map fun mb =>
          c.calcMicro dir (List.range c.nst) megaShift true
            (fun j => decide (phase > 0) && isBitSet mask j) sect rankBase mega blk
            (c.adjBlock true blk) mb t0 nt))

/-- `calc_mega_block` (`src/kernel/lib/context.cpp:631-815`) for `nt` steps from `t0`. -/
def calcMega (dir : Int) (stages : List Nat) (sect : Sect) (rankBase : Box) (t0 : Int) (nt : Nat) :
    Traces Task :=
  if c.tbSteps = 0 then
    doSeq ((List.range nt).map fun (i : Nat) =>
      doSeq ((List.range stages.length).map fun (q : Nat) =>
        let stage := stages.getD q 0
        let shift : Int := (i * stages.length + q : Nat)
        match c.shiftMega stage sect rankBase shift with
        | none => doNothing
        | some mega =>
          doPar ((scan (c.megaLoop mega)).map fun blk =>
            c.calcBlockNoTb dir stage shift sect rankBase mega blk (t0 + dir * i))))
  else
    let st := c.tbSteps.toNat
    doSeq ((List.range ((nt + st - 1) / st)).map fun (layer : Nat) =>
      let shift : Int := (layer * st * c.nst : Nat)
      let mega := c.shiftMegaAll rankBase shift
      doSeq ((List.range (c.nd + 1)).map fun (phase : Nat) =>
        doPar ((scan (c.megaLoop mega)).map fun blk =>
          c.calcBlockTb dir shift phase sect rankBase mega blk
            (t0 + dir * (layer * st : Nat)) (min st (nt - layer * st)))))

/-- The sections computed one after another by a pass over the rank
(`src/kernel/lib/context.cpp:376-445,486-549`). -/
def sections : List Sect :=
  if c.overlap then
    ((List.range c.nd).flatMap fun (j : Nat) =>
      [true, false].filterMap fun left =>
        if c.exteriorExists j left then some (Sect.ext j left) else none) ++ [.interior]
  else [.whole]

/-- One iteration of the step loop of `run_solution`: `nt` steps from `t0`
(`src/kernel/lib/context.cpp:346-589`). -/
def runBatch (dir : Int) (t0 : Int) (nt : Nat) : Traces Task :=
  if c.wfSteps = 0 then
    doSeq ((List.range c.nst).map fun (stage : Nat) =>
      doSeq (c.sections.map fun sect =>
        doSeq ((scan c.rankLoop).map fun base => c.calcMega dir [stage] sect base t0 nt)))
  else
    doSeq (c.sections.map fun sect =>
      doSeq ((scan c.rankLoop).map fun base =>
        c.calcMega dir (List.range c.nst) sect base t0 nt))

/-- Steps in direction `dir` from `first` to `last`. -/
def numSteps (first last : Int) : Nat := (last - first).natAbs + 1

/-- Direction of the steps (`src/kernel/lib/context.cpp:235`). -/
def stepDir (first last : Int) : Int := if last ≥ first then 1 else -1

/-- `run_solution(first, last)` (`src/kernel/lib/context.cpp:218-615`), without MPI exchanges: batches of
`wf_steps` steps. -/
def runSolution (first last : Int) : Traces Task :=
  let dir := stepDir first last
  let st := (max c.wfSteps 1).toNat
  let n := numSteps first last
  doSeq ((List.range ((n + st - 1) / st)).map fun (k : Nat) =>
    c.runBatch dir (first + dir * (k * st : Nat)) (min st (n - k * st)))

/-- `run_ref(first, last)` on one rank: each step, each part, all points of the rank where the part is
valid, in row-major order (`src/kernel/lib/context.cpp:52-218`).  The list of all parts is the
concatenation of the parts of the stages, in order. -/
def runRef (first last : Int) : List Task :=
  let dir := stepDir first last
  (List.range (numSteps first last)).flatMap fun (i : Nat) =>
    (List.range c.nst).flatMap fun (stage : Nat) =>
      (List.range (c.nparts stage)).flatMap fun (p : Nat) =>
        if c.stepOk stage p (first + dir * i) then
          ((boxPoints ((List.range c.nd).map fun (j : Nat) => ((c.dim j).rankBeg, c.rankEnd j))).filter
            (c.dom stage p)).map fun x => ⟨first + dir * i, stage, p, x⟩
        else []

end RunCfg

end Yask
