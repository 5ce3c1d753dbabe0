import Verif.Sched.MicroModel
import Verif.Sched.SchedSpec

/-!
# Model: evaluation of scratch vars in micro-blocks

`StencilContext::calc_micro_block` (`src/kernel/lib/context.cpp:1124-1163`) and `StencilPartBase::calc_micro_block`
(`src/kernel/lib/stencil_calc.cpp:35-285`) with the scratch parts that a part requires, and `run_ref`
(`src/kernel/lib/context.cpp:112-200`) likewise.

Simplifications.
* Each outer thread has its own scratch vars and works on one micro-block at a time.  In the model each micro-block (step, stage and box) has
  its own scratch vars, whose initial contents are arbitrary: whatever earlier micro-blocks of the thread left there.
* Option `-init_scratch_vars`, off by default, is not modelled.
* That the elements of a micro-block fit in the storage of the scratch vars, and are different ones, is C68.
-/

namespace Yask
open Spec

/-- What the kernel knows about scratch parts (identified by numbers): the scratch parts that part `p` of stage `st` requires, in the order of
`get_reqd_parts` (`src/kernel/lib/stencil_calc.hpp:136-146`); whether the bounding box of the part is empty (`src/kernel/lib/context.cpp:1152-1154`);
the write halos of a scratch part in each dim (`adjust_scratch_span`, `src/kernel/lib/stencil_calc.cpp:342-427`); the points of its bounding
boxes; and the steps in which it is valid. -/
structure ScrCfg where
  children : Nat → Nat → List Nat
  empty : Nat → Nat → Bool
  wl : Nat → Nat → Int
  wr : Nat → Nat → Int
  sdom : Nat → List Int → Bool
  sstep : Nat → Int → Bool

/-- What happens in a micro-block: the scratch vars of the thread are moved to it (`update_scratch_var_info`,
`src/kernel/lib/context.cpp:1131-1134`); a scratch part is evaluated at a point; a part is evaluated at a point. -/
inductive STask
  | start (t : Int) (st : Nat) (bx : Box)
  | scr (t : Int) (st : Nat) (bx : Box) (k : Nat) (y : List Int)
  | main (bx : Box) (a : Task)
deriving DecidableEq

/-- A part evaluated in a micro-block. -/
inductive SItem
  | scr (k : Nat)
  | main (p : Nat)
deriving DecidableEq

namespace ScrCfg
variable (s : ScrCfg) (c : RunCfg)

/-- One required scratch part: skipped if not valid in the step or done already (`src/kernel/lib/stencil_calc.cpp:118-134,276-279`). -/
def addScr (t : Int) (done : List SItem) (k : Nat) : List SItem :=
  if s.sstep k t = true ∧ SItem.scr k ∉ done then done ++ [.scr k] else done

/-- One part: the scratch parts that it requires, then itself (`src/kernel/lib/stencil_calc.cpp:77-281`); skipped if not valid in the step or
without points (`src/kernel/lib/context.cpp:1143-1154`). -/
def addPart (st : Nat) (t : Int) (done : List SItem) (p : Nat) : List SItem :=
  if c.stepOk st p t = true ∧ s.empty st p = false then (s.children st p).foldl (s.addScr t) done ++ [.main p] else done

/-- The parts evaluated in a micro-block at step `t` of stage `st`, in order (`src/kernel/lib/context.cpp:1136-1160`). -/
def items (st : Nat) (t : Int) : List SItem := (List.range (c.nparts st)).foldl (s.addPart c st t) []

/-- The box on which scratch part `k` is evaluated: expanded by its write halos (`src/kernel/lib/stencil_calc.cpp:136-143,395-455`). -/
def area (k : Nat) (bx : Box) : Box :=
  (List.range bx.length).map fun j => ((bx.getD j (0, 0)).1 - s.wl k j, (bx.getD j (0, 0)).2 + s.wr k j)

/-- The evaluation of a scratch part (`src/kernel/lib/stencil_calc.cpp:145-272`): all points of its area in its bounding boxes, in any order. -/
def evScr (t : Int) (st : Nat) (bx : Box) (k : Nat) : Traces STask :=
  doPar (((RunCfg.boxPoints (s.area k bx)).filter (s.sdom k)).map fun y => doOne (.scr t st bx k y))

/-- The evaluation of a part. -/
def evItem (t : Int) (st : Nat) (bx : Box) : SItem → Traces STask
  | .scr k => s.evScr t st bx k
  | .main p => doPar (((RunCfg.boxPoints bx).filter (c.dom st p)).map fun x => doOne (.main bx ⟨t, st, p, x⟩))

/-- A micro-block with scratch vars (`src/kernel/lib/context.cpp:1131-1160`). -/
def evBox (t : Int) (st : Nat) (bx : Box) : Traces STask :=
  doSeq (doOne (.start t st bx) :: (s.items c st t).map (s.evItem c t st bx))

/-- `run_solution(first, last)` with scratch vars. -/
def runSolution (first last : Int) : Traces STask := c.runSolutionWith (s.evBox c) first last

/-! ### `run_ref` -/

/-- The domain of the rank. -/
def rankBox : Box := (List.range c.nd).map fun j => ((c.dim j).rankBeg, c.rankEnd j)

/-- A part in `run_ref`: the scratch parts that it requires are evaluated on the whole rank expanded by their write halos
(`src/kernel/lib/context.cpp:130-192`).  That scratch vars are set to zero before (`context.cpp:161-171`) is a choice of their initial
contents, which are arbitrary here. -/
def refPart (t : Int) (st p : Nat) : Traces STask :=
  if c.stepOk st p t = true then
    doSeq (doOne (.start t st (rankBox c)) ::
      ((s.children st p).map fun k => if s.sstep k t = true then s.evScr t st (rankBox c) k else doNothing) ++ [s.evItem c t st (rankBox c) (.main p)])
  else doNothing

/-- `run_ref(first, last)` with scratch vars: parts one after another, in stage order (`src/kernel/lib/context.cpp:112-200`). -/
def runRef (first last : Int) : Traces STask :=
  doSeq ((List.range (RunCfg.numSteps first last)).map fun (i : Nat) =>
    doSeq ((List.range c.nst).map fun (st : Nat) =>
      doSeq ((List.range (c.nparts st)).map fun (p : Nat) => s.refPart c (first + RunCfg.stepDir first last * i) st p)))

end ScrCfg

/-! ### What the tasks compute -/

/-- Stencils with scratch vars.  Scratch part `k` at step `t` and point `y` writes the scratch vars `outs k` at `y`; the value of `v` depends on
elements of vars (`sreadsB k t y v`) and of scratch vars (`sreadsS k t y v`).  Task `a` writes the buffers `writes a` at its point. -/
structure Scr (Buf SVar Val : Type*) extends ScrCfg where
  outs : Nat → SVar → Prop
  sreadsB : Nat → Int → List Int → SVar → Buf → List Int → Prop
  sreadsS : Nat → Int → List Int → SVar → SVar → List Int → Prop
  sval : Nat → Int → List Int → (Buf × List Int → Val) → (SVar × List Int → Val) → SVar → Val
  sval_local : ∀ k t y m m' f f' v, (∀ β q, sreadsB k t y v β q → m (β, q) = m' (β, q)) → (∀ w q, sreadsS k t y v w q → f (w, q) = f' (w, q)) →
    sval k t y m f v = sval k t y m' f' v
  writes : Task → Buf → Prop
  readsB : Task → Buf → List Int → Prop
  readsS : Task → SVar → List Int → Prop
  value : Task → (Buf × List Int → Val) → (SVar × List Int → Val) → Buf → Val

namespace Scr
variable {Buf SVar Val : Type*} (X : Scr Buf SVar Val)

/-- Contents of the vars, and of the scratch vars of each micro-block. -/
structure Mem (Buf SVar Val : Type*) where
  vars : Buf × List Int → Val
  scratch : Int × Nat × Box → SVar × List Int → Val

open Classical in
/-- The effect of a task. -/
noncomputable def step (s : Mem Buf SVar Val) : STask → Mem Buf SVar Val
  | .start _ _ _ => s
  | .scr t st bx k y =>
    { s with scratch := fun M l =>
        if M = (t, st, bx) ∧ X.outs k l.1 ∧ l.2 = y then X.sval k t y s.vars (s.scratch M) l.1 else s.scratch M l }
  | .main bx a =>
    { s with vars := fun l => if X.writes a l.1 ∧ l.2 = a.pt then X.value a s.vars (s.scratch (a.step, a.stage, bx)) l.1 else s.vars l }

/-- The memory after a trace. -/
noncomputable def exec (tr : List STask) (s : Mem Buf SVar Val) : Mem Buf SVar Val := tr.foldl X.step s

end Scr
end Yask
