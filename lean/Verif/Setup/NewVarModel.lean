import Verif.Common.Outcome

/-!
# Model of creating vars

`new_var()` and `new_fixed_size_var()` (`src/kernel/lib/new_var.cpp:32-159`, `context.hpp:642-667`), in the usual build with
new var types allowed (`ALLOW_NEW_VARS`). A failing call can leave changes behind, so every call returns the solution
with the outcome. Not modelled: `update_var_info()` at the end, which sets the sizes of vars without given sizes, the paddings,
and the storage.
-/

namespace Yask.Setup

/-- A var of the solution: name, dims (`_var_dims`), number of sizes of its layout, whether its step index wraps, the domain
sizes by position (`_domains`, `none` if not given), `_fixed_size`, and whether it was made by the user. -/
structure SVar where
  name : String
  dims : List String
  rank : Nat
  wrap : Bool
  sizes : Option (List Int)
  fixed : Bool
  user : Bool
deriving DecidableEq, Repr

/-- The solution: step dim, domain dims, misc dims, the lists of dims of the vars of the stencil, `NUM_VAR_DIMS`, and
`all_var_ptrs`. -/
structure Soln where
  stepDim : String
  domain : List String
  misc : List String
  stencilDims : List (List String)
  maxDims : Nat
  vars : List SVar
deriving DecidableEq, Repr

/-- What a call returns. -/
inductive NewRes
  | ok (v : SVar)
  | throws
deriving DecidableEq, Repr

/-- `Tuple::add_dim_back` (`src/common/tuple.cpp:78-86`): a known name is not added again. -/
def addDimBack (l : List String) (d : String) : List String := if d ∈ l then l else l ++ [d]

/-- The dims of a new `GenericVarBase` (`src/kernel/lib/generic_var.cpp:32-39`). -/
def tupleDims (gdims : List String) : List String := gdims.foldl addDimBack []

/-- The checks of one dim at position `i` (`new_var.cpp:71-101`). `seen` is `seen_dims`, to which the code adds nothing. The
result is the list of misc dims and whether the step dim is used, or `none` for an exception. -/
def checkDim (s : Soln) (seen : List String) (i : Nat) (d : String) (misc : List String) (used : Bool) :
    Option (List String × Bool) :=
  if d ∈ seen then none
  else if d = s.stepDim then (if i = 0 then some (misc, true) else none)
  else if d ∈ s.domain then some (misc, used)
  else if d ∈ misc then some (misc, used)
  else some (misc ++ [d], used)

/-- The loop over the dims (`new_var.cpp:67-102`): the misc dims, also in case of an exception, and whether the step dim is
used. -/
def checkDims (s : Soln) : Nat → List String → List String → Bool → List String × Option Bool
  | _, [], misc, used => (misc, some used)
  | i, d :: ds, misc, used =>
    match checkDim s [] i d misc used with
    | none => (misc, none)
    | some (misc, used) => checkDims s (i + 1) ds misc used

/-- `add_var` (`setup.cpp:1560-1582`) and the setting of the sizes (`new_var.cpp:126-155`). -/
def addVar (s : Soln) (v : SVar) : Soln × NewRes :=
  if s.vars.any fun x => x.name == v.name then (s, .throws) else ({ s with vars := s.vars ++ [v] }, .ok v)

/-- The check of the number of sizes (`new_var.cpp:38-45`). -/
def badSizes (gdims : List String) : Option (List Int) → Bool
  | some z => decide (gdims.length ≠ z.length)
  | none => false

/-- `new_var` with and without sizes (`new_var.cpp:32-159`). The generated code has a case for each number of dims up to
`NUM_VAR_DIMS`, each with and without step dim (`utils/bin/gen_layouts.pl:181-193`). -/
def newVar (s : Soln) (name : String) (gdims : List String) (sizes : Option (List Int)) : Soln × NewRes :=
  if badSizes gdims sizes then (s, .throws)
  else
    let mk (wrap : Bool) : SVar :=
      { name := name, dims := tupleDims gdims, rank := gdims.length, wrap := wrap, sizes := sizes
        fixed := sizes.isSome, user := true }
    if gdims ∈ s.stencilDims then addVar s (mk (gdims.contains s.stepDim))
    else
      match checkDims s 0 gdims s.misc false with
      | (misc, none) => ({ s with misc := misc }, .throws)
      | (misc, some used) =>
        let s := { s with misc := misc }
        if gdims.length ≤ s.maxDims then addVar s (mk used) else (s, .throws)

/-- A sequence of calls, whatever their outcome. -/
def newVars (s : Soln) : List (String × List String × Option (List Int)) → Soln
  | [] => s
  | c :: cs => newVars (newVar s c.1 c.2.1 c.2.2).1 cs

/-- `get_var()` (`context.hpp:630-636`). -/
def getVar (s : Soln) (name : String) : Option SVar := s.vars.find? fun v => v.name == name

end Yask.Setup
