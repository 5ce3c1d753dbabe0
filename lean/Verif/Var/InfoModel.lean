import Verif.Var.StepModel
import Verif.Sched.SchedModel

/-!
# Model of `StencilContext::update_var_info`

`src/kernel/lib/setup.cpp:663-805`: sizes, offsets and wave-front extensions of the vars of a rank, and the largest halo.

Simplifications.  The calls made for one var do not affect another var, so they are made var by var; the order of the calls for one var
is as in the source.  `update_tb_info`, which does not touch vars, is part of `RunCfg`.
-/

namespace Yask.Var

variable {V : Type}

/-- What `update_var_info` knows of a var: the var, the position of each domain dim of the solution, `is_fixed_size()`, `is_user_var()`,
and whether it is in `orig_var_ptrs` (declared in the solution). -/
structure KVar (V : Type) where
  v : YVar V
  posn : Nat → Option Nat
  fixed : Bool
  user : Bool
  orig : Bool

/-- Calls for one domain dim (`setup.cpp:694-707`); `ep` and `mp` are the extra and minimum pad sizes of the settings. -/
def sizeCalls (c : RunCfg) (ep mp : Nat → Int) (posn : Nat → Option Nat) (j : Nat) : List (Nat × Setting × Int) :=
  match posn j with
  | none => []
  | some p => [(p, .size, (c.dim j).rankSize), (p, .updExtraPad, ep j), (p, .updMinPad, mp j), (p, .localOfs, 0),
      (p, .rankOfs, (c.dim j).rankBeg)]

/-- The first loop for one var (`setup.cpp:679-708`); `none` is an exception. -/
def KVar.setSizes (c : RunCfg) (ep mp : Nat → Int) (force : Bool) (k : KVar V) : Option (KVar V) :=
  if !k.fixed || (!k.user && force) then
    (runSettings k.v ((List.range c.nd).flatMap (sizeCalls c ep mp k.posn))).map fun v => { k with v := v }
  else some k

/-- The larger halo of a var in a domain dim, zero if it does not have the dim. -/
def KVar.halo (k : KVar V) (j : Nat) : Int :=
  match k.posn j with
  | none => 0
  | some p => match k.v.g.dims[p]? with
    | none => 0
    | some d => max d.lHalo d.rHalo

/-- `max_halos` (`setup.cpp:675-676`, `710-714`). -/
def maxHalos (ks : List (KVar V)) (j : Nat) : Int :=
  ks.foldl (fun h k => if k.user then h else max h (k.halo j)) 0

/-- The configuration with these halos. -/
def withHalos (c : RunCfg) (ks : List (KVar V)) : RunCfg :=
  { c with dim := fun j => { c.dim j with maxHalo := maxHalos ks j } }

/-- The test of the size of the rank (`setup.cpp:766-776`). -/
def sizesOk (c : RunCfg) : Bool :=
  (List.range c.nd).all fun (j : Nat) =>
    !(decide ((c.dim j).nranks > 1) && decide ((c.dim j).rankSize < (c.dim j).maxHalo + c.wfShiftPts j))

/-- Calls for one domain dim in the last loop (`setup.cpp:793-797`). -/
def extCalls (c : RunCfg) (posn : Nat → Option Nat) (j : Nat) : List (Nat × Setting × Int) :=
  match posn j with
  | none => []
  | some p => [(p, .leftExt, c.leftExt j), (p, .rightExt, c.rightExt j)]

/-- The last loop for one var (`setup.cpp:787-799`). -/
def KVar.setExts (c : RunCfg) (k : KVar V) : Option (KVar V) :=
  if k.orig then (runSettings k.v ((List.range c.nd).flatMap (extCalls c k.posn))).map fun v => { k with v := v } else some k

/-- `update_var_info` (`setup.cpp:663-805`); `none` is an exception. -/
def updateVarInfo (c : RunCfg) (ep mp : Nat → Int) (force : Bool) (ks : List (KVar V)) : Option (RunCfg × List (KVar V)) := do
  let ks1 ← ks.mapM (KVar.setSizes c ep mp force)
  let c1 := withHalos c ks1
  if sizesOk c1 then do
    let ks2 ← ks1.mapM (KVar.setExts c1)
    pure (c1, ks2)
  else none

end Yask.Var
