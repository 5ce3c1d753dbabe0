import Verif.Var.InfoModel
import Verif.Sched.MicroModel

/-!
# Model of the storage of scratch vars

`StencilContext::alloc_scratch_data` (`src/kernel/lib/alloc.cpp:1038-1186`) sets the size of the scratch vars of a thread before they are
allocated, `update_scratch_var_info` (`src/kernel/lib/setup.cpp:806-855`) moves them to the current micro-block.

Simplifications.  The calls made for one var do not affect another var.  Memory slots are modelled in `Compiler.SlotModel`.
-/

namespace Yask.Var

variable {V : Type}

/-- `shift_pts` (`alloc.cpp:1106-1109`): the allowance for wave-fronts and temporal blocks. -/
def scratchExt (c : RunCfg) (j : Nat) : Int := max (c.wfShiftPts j) (c.tbAngle j * c.numTbShifts) * 2

/-- Calls for one domain dim of a scratch var (`alloc.cpp:1098-1116`); `wl` and `wr` are `max_write_halo_left` and `max_write_halo_right`
of the context. -/
def scratchCalls (c : RunCfg) (wl wr : Nat → Int) (posn : Nat → Option Nat) (j : Nat) : List (Nat × Setting × Int) :=
  match posn j with
  | none => []
  | some p => [(p, .size, (c.dim j).microSize), (p, .leftExt, scratchExt c j), (p, .rightExt, scratchExt c j), (p, .updExtraPad, 0),
      (p, .updLeftMinPad, wl j), (p, .updRightMinPad, wr j)]

/-- The sizes of a scratch var before it is allocated (`alloc.cpp:1095-1118`); `none` is an exception. -/
def KVar.setScratch (c : RunCfg) (wl wr : Nat → Int) (k : KVar V) : Option (KVar V) :=
  (runSettings k.v ((List.range c.nd).flatMap (scratchCalls c wl wr k.posn))).map fun v => { k with v := v }

/-- Calls for one domain dim in `update_scratch_var_info` (`setup.cpp:828-851`) for the micro-block `mb`. -/
def moveCalls (c : RunCfg) (mb : Spec.Box) (k : KVar V) (j : Nat) : List (Nat × Setting × Int) :=
  match k.posn j with
  | none => []
  | some p =>
    let vlen := ((k.v.g.dims[p]?).map DimG.varVL).getD 1
    [(p, .rankOfs, (c.dim j).rankBeg), (p, .localOfs, roundDownFlr ((mb.getD j (0, 0)).1 - (c.dim j).rankBeg) vlen)]

/-- `update_scratch_var_info` for one var (`setup.cpp:806-855`). -/
def KVar.moveTo (c : RunCfg) (mb : Spec.Box) (k : KVar V) : Option (KVar V) :=
  (runSettings k.v ((List.range c.nd).flatMap (moveCalls c mb k))).map fun v => { k with v := v }

/-- The area on which a scratch part with these write halos is evaluated: `adjust_scratch_span` (`src/kernel/lib/stencil_calc.cpp:331-410`). -/
def adjustScratchSpan (wl wr : Nat → Int) (mb : Spec.Box) (j : Nat) : Spec.Ivl :=
  ((mb.getD j (0, 0)).1 - wl j, (mb.getD j (0, 0)).2 + wr j)

end Yask.Var
