import Verif.Common.Outcome

/-!
# Model of the preparation of a solution and of what depends on it

Which API calls make a solution ready for `run_solution()`. The sizes themselves are in `Setup/RankModel`, `Setup/SettingsModel`
and the models of allocation; here only the state that decides whether a run may start, and on what.
-/

namespace Yask.Ready

/-- How a call of `prepare_solution()` ends (`src/kernel/lib/soln_apis.cpp:136-250`). -/
inductive PrepEnd where
  /-- An exception from `setup_rank()`, `adjust_settings()` or `update_var_info()` (`soln_apis.cpp:203-212`), e.g., about sizes. -/
  | setupFails
  /-- An exception from the allocation of vars, scratch vars or MPI buffers (`soln_apis.cpp:237-239`), e.g., no memory. -/
  | allocFails
  /-- The call returns. -/
  | done
deriving DecidableEq

/-- API calls on a solution. -/
inductive Op where
  /-- `set_num_ranks`, `set_rank_index`, `set_overall_domain_size`, `set_rank_domain_size`, `set_block_size`
  (`soln_apis.cpp:84-98`). -/
  | setSize
  /-- `set_min_pad_size` (`soln_apis.cpp:99-101`). -/
  | setMinPad
  /-- `apply_command_line_options` with some options (`soln_apis.cpp:286-313`). -/
  | options
  | prepare (e : PrepEnd)
  /-- `run_solution`. -/
  | run
  /-- `run_auto_tuner_now`. -/
  | tune
  /-- `end_solution` (`soln_apis.cpp:252-269`). -/
  | endSoln
deriving DecidableEq

/-- State of a solution. -/
structure Sol where
  /-- `rank_bb.bb_valid` (`src/kernel/lib/context.hpp:370-375`). -/
  flag : Bool
  /-- The settings are those that the latest complete `adjust_settings()` and `update_var_info()` left, apart from changes by
  the auto-tuner. This is not stored in the code. -/
  current : Bool
  /-- The vars of the solution have storage. -/
  vars : Bool
  /-- The scratch vars have storage. -/
  scratch : Bool
  /-- MPI buffers exist, i.e., halos are exchanged (`mpi_data`). -/
  mpi : Bool
deriving DecidableEq

/-- A new solution (`context.hpp:46`). -/
def Sol.init : Sol := ⟨false, false, false, false, false⟩

/-- The effect of a call. `set_prepared(false)` is called by some setters only (`soln_apis.cpp:84-101`: last argument).
In `prepare_solution()`, the flag is set by `find_bounding_boxes()` (`soln_apis.cpp:224`, `src/kernel/lib/setup.cpp:1092`, `1556`)
before scratch vars and MPI buffers are freed and allocated again (`soln_apis.cpp:235-239`). No other function sets or clears
it. Simplification: an allocation that fails leaves the vars as they were. -/
def Sol.step (s : Sol) : Op → Sol
  | .setSize => { s with flag := false, current := false }
  | .setMinPad => s
  | .options => { s with current := false }
  | .prepare .setupFails => { s with current := false }
  | .prepare .allocFails => { s with flag := true, current := true, scratch := false, mpi := false }
  | .prepare .done => ⟨true, true, true, true, true⟩
  | .run => s
  | .tune => s
  | .endSoln => { s with vars := false, mpi := false }

/-- The state after a sequence of calls. -/
def Sol.after (calls : List Op) : Sol := calls.foldl Sol.step Sol.init

/-- What a run that is not rejected works on. -/
structure Run where
  /-- The settings are those that were prepared. -/
  current : Bool
  /-- Halos are exchanged. -/
  exchange : Bool
deriving DecidableEq

/-- `run_solution()` (`src/kernel/lib/context.cpp:265-266`; the same test is in `run_auto_tuner_now()`,
`src/kernel/lib/auto_tuner.cpp:530-531`): without storage, elements are accessed through a null pointer
(`src/kernel/lib/generic_var.cpp:99-110`). `hasScratch`: the solution has scratch vars. -/
def Sol.run (hasScratch : Bool) (s : Sol) : Outcome Run :=
  if !s.flag then .throws
  else if !s.vars || (hasScratch && !s.scratch) then .undefined
  else .ok ⟨s.current, s.mpi⟩

end Yask.Ready
