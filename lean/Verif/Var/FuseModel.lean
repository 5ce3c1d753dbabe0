import Verif.Var.InfoModel
import Verif.Var.AddrLemmas

/-!
# Model of `is_storage_layout_identical` and `fuse_vars`

`src/kernel/lib/yk_var_apis.cpp:300-366`, `yk_var.hpp:2616-2623`; `soln_apis.cpp:186-284`.

A `yk_var_ptr` of the API points to a `YkVarImpl`, a handle, which points to a `YkVarBase`, the var. Both are numbered here. A var exists
as long as a handle points to it (`shared_ptr`); the solution and the caller keep all handles.
-/

namespace Yask.Var

variable {V : Type}

/-- A `YkVarBase`: names of its dims (`_dim_names`), meta-data and storage, `_fixed_size`, `_is_user_var`. -/
structure VBase (V : Type) where
  names : List String
  v : YVar V
  fixed : Bool
  user : Bool

/-- One pass of the loop of `is_storage_layout_identical` (`yk_var_apis.cpp:310-330`). -/
def sameDim (checkSizes : Bool) (x y : String × DimG) : Bool :=
  if x.1 ≠ y.1 then false
  else if x.2.varVL ≠ y.2.varVL then false
  else if checkSizes then
    if x.2.domain ≠ y.2.domain then false
    else if x.2.lPad ≠ y.2.lPad then false
    else if x.2.rPad ≠ y.2.rPad then false
    else true
  else true

/-- `is_storage_layout_identical` (`yk_var_apis.cpp:300-332`); the API calls it with `checkSizes` (`yk_var.hpp:2618-2622`). The sizes of
the storage are compared as numbers of reals, whose size is the same for all vars of a solution. -/
def sameLayout (checkSizes : Bool) (x y : VBase V) : Bool :=
  if checkSizes && decide (x.v.g.numReals ≠ y.v.g.numReals) then false
  else if x.v.g.dims.length ≠ y.v.g.dims.length then false
  else (List.range x.v.g.dims.length).all fun (i : Nat) =>
    match (x.names.zip x.v.g.dims)[i]?, (y.names.zip y.v.g.dims)[i]? with
    | some a, some b => sameDim checkSizes a b
    | _, _ => false

/-- Vars and handles: contents of each var, number of handles, the var of each handle, and the var whose core data the kernels of the
solution use for a handle (`_core_data`, set by `set_core()`). -/
structure Proc (V : Type) where
  base : Nat → VBase V
  handles : Nat
  ptr : Nat → Nat
  core : Nat → Option Nat

/-- What a handle points to. -/
def Proc.of (p : Proc V) (h : Nat) : VBase V := p.base (p.ptr h)

/-- A call of any API on a handle, with any result. -/
def Proc.call {R : Type} (p : Proc V) (h : Nat) (f : VBase V → VBase V × R) : Proc V × R :=
  ({ p with base := Function.update p.base (p.ptr h) (f (p.of h)).1 }, (f (p.of h)).2)

/-- `fuse_vars` of vars (`yk_var_apis.cpp:334-366`): `a->fuse_vars(b)`. -/
def Proc.fuse (p : Proc V) (a b : Nat) : Outcome (Proc V) :=
  if (p.of a).user && !sameLayout false (p.of a) (p.of b) then .throws
  else .ok { p with
    ptr := Function.update p.ptr a (p.ptr b)
    base := if (p.of a).user then Function.update p.base (p.ptr b) { p.of b with user := false } else p.base }

/-- `set_core()` in `prepare_solution()` (`soln_apis.cpp:214`; generated, `YaskKernel.cpp:882-886`). -/
def Proc.setCore (p : Proc V) : Proc V := { p with core := fun h => some (p.ptr h) }

/-- Some handle points to the var. -/
def Proc.live (p : Proc V) (o : Nat) : Bool := (List.range p.handles).any fun h => p.ptr h == o

/-- A read by a kernel: of core data that no longer exists it is undefined. -/
def Proc.kernelRead (p : Proc V) (h : Nat) (idx : List Int) : Outcome V :=
  match p.core h with
  | none => .undefined
  | some o =>
    if p.live o then
      match (p.base o).v.mem with
      | none => .undefined
      | some m => do
        let a ← (p.base o).v.g.addrOf idx
        rdMem (p.base o).v.g m a
    else .undefined

/-- What `update_var_info` sees of a handle: `dims` are the domain dims of the solution, `orig` says whether it was declared there. -/
def Proc.kvar (p : Proc V) (dims : List String) (orig : Bool) (h : Nat) : KVar V :=
  ⟨(p.of h).v, fun j => (dims[j]?).bind fun d => if d ∈ (p.of h).names then some ((p.of h).names.idxOf d) else none,
    (p.of h).fixed, (p.of h).user, orig⟩

end Yask.Var
