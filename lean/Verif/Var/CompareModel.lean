import Verif.Var.VarModel
import Mathlib.Algebra.Order.Group.Unbundled.Abs
import Mathlib.Algebra.Ring.Defs

/-! # Model of the comparison of two vars -/

namespace Yask.Var

variable {V : Type}

/-- One index in the conversion of an allocation index to an API index in `compare`
(`yk_var.cpp:432-438`). -/
def cmpIdx (d : DimG) (p : Int) : Int :=
  if d.kind = .step then p else p + (d.rankOfs + d.localOfs)

/-- The check of one index against the domain in `compare` (`yk_var.cpp:443-448`). -/
def cmpOk (d : DimG) (p : Int) : Bool :=
  if d.kind = .domain then
    !(decide (cmpIdx d p < d.rankOfs) || decide (cmpIdx d p > d.rankOfs + d.domain - 1))
  else true

/-- The visitor of `compare` (`yk_var.cpp:426-470`); the state is the number of mismatches.  Messages
are not modelled. -/
def cmpBody (g gr : Geom) (m mr : Int → V) (tol : V → V → Bool) (errs : Int) (x : List Int × Nat) :
    Outcome Int :=
  if (List.zipWith cmpOk g.dims x.1).all id then do
    let opt := List.zipWith cmpIdx g.dims x.1
    let asi ← g.allocStepIndex x.1
    let te ← readElem g m opt asi
    let re ← readElem gr mr opt asi
    pure (if tol te re then errs else errs + 1)
  else pure errs

/-- `compare` (`yk_var.cpp:401-479`).  `ref`: the reference var, if any.  `sameDims`: the names of the
dimensions are the same; `are_dims_and_sizes_same` (`yk_var.hpp:803-806`) also compares the number of
bytes.  `tol`: `within_tolerance` with the given epsilon.  `order`: any order of the concurrent visits.
`firstInner`: the layout flag of the tuple. -/
def compareVars (v : YVar V) (ref : Option (YVar V)) (sameDims : Bool) (tol : V → V → Bool)
    (env : ParForEnv) (nthr : Nat) (firstInner : Bool)
    (order : List (List Int × Nat) → List (List Int × Nat)) : Outcome Int :=
  let allocs := v.g.dims.map DimG.alloc
  match ref with
  | none => .ok (prodVals allocs)
  | some r =>
    if !sameDims || v.g.numReals != r.g.numReals then .ok (prodVals allocs)
    else
      match v.mem, r.mem with
      | some m, some mr =>
        (order (parallelVisitsTuple env nthr firstInner allocs)).foldlM (cmpBody v.g r.g m mr tol) 0
      | _, _ => .undefined

/-- `within_tolerance` (`src/kernel/lib/realv.hpp:979-994`), in exact arithmetic. -/
def withinTolerance {R : Type} [Ring R] [LinearOrder R] (val ref epsilon : R) : Bool :=
  if val = ref then true
  else
    let adiff := |val - ref|
    let eps := if |ref| > 1 then |ref * epsilon| else epsilon
    decide (adiff < eps)

end Yask.Var
