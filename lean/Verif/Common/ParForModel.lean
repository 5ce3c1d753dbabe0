import Verif.Common.IdivModel
import Verif.Spec.Cover

/-!
# `yask_parallel_for` (model)

Models `src/common/common_utils.hpp:199-343`.  The result is the list of sub-ranges on
which the visitor is called.  The order of the list is one possible execution order;
which thread executes which entry is irrelevant to the properties stated (they are
invariant under permutation of the list).
-/

namespace Yask
open Spec

/-- The canonical loop `for (i = begin; i < end; i += stride) visitor(i, min(i+stride, end))`
(`src/common/common_utils.hpp:225-228,234-237,249-253,319-331`).
For `stride < 1` the C++ code fails its assertion (line 210); the model returns `[]`. -/
def seqLoop (i e stride : Int) : List Ivl :=
  if h : 0 < stride ∧ i < e then
    (i, min (i + stride) e) :: seqLoop (i + stride) e stride
  else []
termination_by (e - i).toNat
decreasing_by omega

/-- The part of the OpenMP environment which `yask_parallel_for` consults
(`src/common/common_utils.hpp:171-172, 223-244`). -/
structure ParForEnv where
  /-- compiled with OpenMP (`_OPENMP`) -/
  openmp : Bool
  /-- `omp_get_num_threads() > 1`: already in a parallel region -/
  inParallel : Bool
  /-- `omp_get_max_active_levels()` -/
  maxActiveLevels : Int
  /-- `yask_num_threads[0]` -/
  nthr0 : Int
  /-- `yask_num_threads[1]` -/
  nthr1 : Int

/-- Number of iterations, line 211. -/
def parForNiter (b e stride : Int) : Int := ceilDiv (e - b) stride

/-- Whether the nested-parallel branch is taken (lines 233-257). -/
def parForNested (env : ParForEnv) (b e stride : Int) : Bool :=
  env.openmp && !env.inParallel &&
    !(decide (env.maxActiveLevels < 2) || decide (env.nthr0 ≤ 0) || decide (env.nthr1 ≤ 1) ||
      decide (parForNiter b e stride ≤ env.nthr0))

/-- Work of outer thread `n0` in the nested branch (lines 267-332). -/
def parForOuterThread (env : ParForEnv) (b e stride : Int) (n0 : Nat) : List Ivl :=
  let niter := parForNiter b e stride
  let tbegin := divEquallyCumuSizeN niter env.nthr0 ((n0 : Int) - 1) * stride
  let tend := min (divEquallyCumuSizeN niter env.nthr0 n0 * stride) e
  if tend ≤ tbegin then []
  else if tend - tbegin ≤ stride then [(tbegin, tend)]
  else seqLoop tbegin tend stride

/-- `yask_parallel_for` (`src/common/common_utils.hpp:199-343`). -/
def parallelFor (env : ParForEnv) (b e stride : Int) : List Ivl :=
  if e ≤ b then []
  else if parForNiter b e stride = 1 then [(b, e)]
  else if parForNested env b e stride then
    (List.range env.nthr0.toNat).flatMap fun n0 => parForOuterThread env b e stride n0
  else seqLoop b e stride

end Yask
