import Verif.Common.Outcome
import Verif.Common.CompactModel

/-!
# Model of the choice of dims, vector folding and layout order by the stencil compiler

`Dimensions::set_dims` (`src/compiler/lib/Settings.cpp:47-321`, `src/compiler/lib/Settings.hpp:97-112`).

Names of dims are elements of a type `D`. `int` is unbounded. Messages are left out. Where a number is given for the
inner-loop dim, the digits were parsed before.
-/

namespace Yask.Dims

variable {D : Type*} [DecidableEq D]

/-- Types of dims (`src/compiler/lib/Expr.hpp:235-239`). -/
inductive Kind where
  | step
  | domain
  | misc
deriving DecidableEq

/-- What is used of a var. -/
structure DVar (D : Type*) where
  scratch : Bool
  dims : List (D × Kind)

/-- The dims found so far: `_step_dim`, `_domain_dims`, `_misc_dims` (`Settings.hpp:79-82`). -/
structure Found (D : Type*) where
  step : Option D
  domain : List D
  misc : List D
deriving DecidableEq

/-- `add_dim_back` (`src/common/tuple.cpp:78-86`), names only. -/
def addBack (l : List D) (d : D) : List D := if d ∈ l then l else l ++ [d]

/-- `add_dim_at` (`src/common/tuple.cpp:88-98`), names only. -/
def addAt (l : List D) (i : Nat) (d : D) : List D := if d ∈ l then l else l.insertIdx i d

/-- `remove_dim` by name (`tuple.cpp:270-280`). -/
def removeDim (l : List D) (d : D) : List D := l.erase d

/-- Dims given by the settings (`Settings.cpp:62-70`). -/
def explicit (step : Option D) (domain : List D) : Found D := ⟨step, domain.foldl addBack [], []⟩

/-- One dim of a var (`Settings.cpp:83-113`). -/
def addDim (scratch : Bool) (f : Found D) : D × Kind → Outcome (Found D)
  | (d, .step) =>
    if f.step.any (· ≠ d) then .throws
    else if scratch then .throws
    else .ok { f with step := some d }
  | (d, .domain) => .ok { f with domain := addBack f.domain d }
  | (d, .misc) => .ok { f with misc := addBack f.misc d }

/-- The dims of one var after another. -/
def addDims (f : Found D) : List (Bool × D × Kind) → Outcome (Found D)
  | [] => .ok f
  | (s, d) :: l => do
    let f' ← addDim s f d
    addDims f' l

/-- All dims of all vars, in order (`Settings.cpp:74-114`). -/
def allDims (vars : List (DVar D)) : List (Bool × D × Kind) := vars.flatMap fun v => v.dims.map fun d => (v.scratch, d)

/-- Dims from the settings and the vars, with the checks that follow (`Settings.cpp:55-120`). -/
def findDims (step : Option D) (domain : List D) (vars : List (DVar D)) : Outcome (Found D) := do
  let f ← addDims (explicit step domain) (allDims vars)
  if f.step.isNone then .throws
  else if f.domain = [] then .throws
  else pure f

/-- The setting of the inner-loop dim (`Settings.cpp:128-139`). -/
inductive InnerOpt (D : Type*) where
  | unset
  | num (n : Int)
  | name (d : D)

/-- The inner-loop dim (`Settings.cpp:122-155`); `domain` is not empty. -/
def innerDim [Inhabited D] (domain : List D) : InnerOpt D → D
  | .unset => domain.getD (domain.length - 1) default
  | .num n => domain.getD ((min (max n 1) domain.length).toNat - 1) default
  | .name d => if d ∈ domain then d else domain.getD (domain.length - 1) default

/-- `_near_inner_dim` (`Settings.cpp:126-127`). -/
def nearInner [Inhabited D] (domain : List D) : D :=
  if domain.length ≥ 2 then domain.getD (domain.length - 2) default else domain.getD 0 default

/-- Requested fold length of a dim, if any (`Settings.cpp:160-170`); `req` is what the options contain for it. -/
def reqLen (req : D → Option Int) (d : D) : Option Int := (req d).filter fun sz => decide (¬ sz < 1)

/-- The fold lengths of the domain dims (`Settings.cpp:157-264`). `eff` is `is_folding_efficient`. -/
def setFold [Inhabited D] (domain : List D) (req : D → Option Int) (inner : D) (vlen : Int) (eff : Bool) : Outcome (List Int) :=
  let fold := domain.map fun d => (reqLen req d).getD 1
  let optsProd := prodVals (domain.filterMap (reqLen req))
  if vlen > 1 ∧ prodVals fold ≠ vlen then
    if domain.length = 1 then .ok [vlen]
    else
      let innerSz : Int :=
        if optsProd < vlen then
          match reqLen req inner with
          | some p => if vlen.tmod p = 0 then p else 1
          | none => 1
        else 1
      let upper := vlen.tdiv innerSz
      let folds : D → Option Int :=
        if eff then
          let names := (domain.filter fun d => decide (d ≠ inner)).reverse
          let sizes := compactFactors (names.map fun d => (reqLen req d).getD 0) upper
          fun d => (names.zip sizes).lookup d
        else fun d => if d = nearInner domain then some upper else none
      let fold' := domain.map fun d => if d = inner then innerSz else (folds d).getD 1
      if prodVals fold' ≠ vlen then .throws else .ok fold'
  else .ok fold

/-- All dims in layout order, outermost first (`Settings.cpp:278-303`). -/
def layoutDims [Inhabited D] (innerMisc outerDomain : Bool) (foldProd : Int) (step : D) (domain misc : List D) : List D :=
  let l := addAt domain 0 step
  let l := misc.zipIdx.foldl (fun l mi => if innerMisc then addBack l mi.1 else addAt l mi.2 mi.1) l
  let l := if outerDomain then addAt (removeDim l (domain.getD 0 default)) 0 (domain.getD 0 default) else l
  if foldProd ≤ 1 then
    addBack (removeDim l (domain.getD (domain.length - 1) default)) (domain.getD (domain.length - 1) default)
  else l

end Yask.Dims
