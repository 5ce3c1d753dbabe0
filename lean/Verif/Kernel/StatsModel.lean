import Verif.Kernel.BBModel
import Verif.Sched.SchedModel

/-!
# Model of the statistics of a solution

Models `Stage::init_work_stats` (`src/kernel/lib/stencil_calc.cpp:458-598`), the counters that
`run_solution` advances, `get_stats` and `clear_timers` (`src/kernel/lib/soln_apis.cpp:349-583`) and the
clearing done by `prepare_solution` and `run_auto_tuner_now`.

Simplifications: times and rates, which are floating-point and depend on the clock, are left out, and so
are debug messages; sums over ranks (`sum_over_ranks`, an MPI all-reduce) are sums of a list; the names of
the parts of a stage differ, so the tables of `init_work_stats` keyed by the names are sums; boxes that
`bb_cache` copies from a part with the same condition (`src/kernel/lib/setup.cpp:1128-1146`) are found anew;
`idx_t` is unbounded.
-/

namespace Yask.Stats
open Spec BB

/-- One dimension of `BoundingBox::intersection_with` (`src/kernel/lib/context.hpp:128-130`). -/
def interIvl (a b : Ivl) : Ivl := (max a.1 b.1, max (max a.1 b.1) (min a.2 b.2))

/-- `BoundingBox::intersection_with` (`src/kernel/lib/context.hpp:124-134`). -/
def interBox (a b : Box) : Box := List.zipWith interIvl a b

/-- What `init_work_stats` uses of a part: its full bounding boxes (`get_bbs`) and the amount of work for
one point: `get_scalar_points_written` or `get_scalar_fp_ops` (`src/kernel/lib/stencil_calc.cpp:492-508`). -/
structure PartWork where
  bbs : List Box
  writes : Int
  fpOps : Int

/-- A non-scratch part with the scratch parts it needs; `get_reqd_parts` is all of them
(`src/kernel/lib/stencil_calc.cpp:473-478`). -/
structure NonScratch where
  own : PartWork
  scratch : List PartWork

/-- Work per step of a non-scratch part and its scratch parts on one rank, where `w` selects the amount per
point (`src/kernel/lib/stencil_calc.cpp:484-520`). -/
def partPerStep (w : PartWork → Int) (sg : NonScratch) : Int :=
  (sg.own.bbs.map fun fbb =>
    ((sg.scratch ++ [sg.own]).map fun rsg =>
      (rsg.bbs.map fun fnbb => w rsg * boxSize (interBox fbb fnbb)).sum).sum).sum

/-- Work per step of a stage on one rank: `num_writes_per_step`, `num_fpops_per_step`
(`src/kernel/lib/stencil_calc.cpp:464-517`). -/
def stagePerStep (w : PartWork → Int) (stage : List NonScratch) : Int := (stage.map (partPerStep w)).sum

/-- Work per step of stage `s` on all ranks: `tot_writes_per_step`, `tot_fpops_per_step`
(`src/kernel/lib/stencil_calc.cpp:593-596`). -/
def totPerStep (w : PartWork → Int) (ranks : List (List (List NonScratch))) (s : Nat) : Int :=
  (ranks.map fun r => stagePerStep w (r.getD s [])).sum

/-- The counters of one rank: `steps_done` of the solution and of each stage
(`src/kernel/lib/context.hpp:329`, `src/kernel/lib/stencil_calc.hpp:899`). -/
structure Counters where
  steps : Int
  stageSteps : List Int
deriving DecidableEq, Repr

/-- `clear_timers` (`src/kernel/lib/soln_apis.cpp:565-583`). -/
def Counters.clear (s : Counters) : Counters := ⟨0, s.stageSteps.map fun _ => 0⟩

/-- After one batch of steps (`src/kernel/lib/context.cpp:583-592`, `Stage::add_steps`,
`src/kernel/lib/stencil_calc.cpp:437-439`). -/
def Counters.add (s : Counters) (n : Int) : Counters := ⟨s.steps + n, s.stageSteps.map (· + n)⟩

/-- The counters after `run_solution(first, last)`: batches of `wf_steps` steps
(`src/kernel/lib/context.cpp:242-245,349-358,583-592`).  `empty`: the rank has no points (`ext_bb.bb_size`
less than one), then nothing is done (`src/kernel/lib/context.cpp:267-269`). -/
def Counters.run (wfSteps : Int) (empty : Bool) (first last : Int) (s : Counters) : Counters :=
  if empty then s
  else
    let stride := (max wfSteps 1).toNat
    let n := (last - first).natAbs + 1
    (List.range ((n + stride - 1) / stride)).foldl
      (fun s k => s.add ((min stride (n - k * stride) : Nat) : Int)) s

/-- Calls that advance or clear the counters: `run_solution`, `get_stats`, `clear_stats`,
`prepare_solution` (`src/kernel/lib/soln_apis.cpp:148`), and `run_auto_tuner_now`, which runs the solution
some times and clears the counters at the end (`src/kernel/lib/auto_tuner.cpp:549-585`). -/
inductive Call
  | run (first last : Int)
  | getStats
  | clearStats
  | prepare
  | tuneNow (runs : List (Int × Int))

/-- Effect of a call on the counters. -/
def Counters.call (wfSteps : Int) (empty : Bool) (s : Counters) : Call → Counters
  | .run first last => s.run wfSteps empty first last
  | .getStats => s.clear
  | .clearStats => s.clear
  | .prepare => s.clear
  | .tuneNow runs => (runs.foldl (fun s r => s.run wfSteps empty r.1 r.2) s.clear).clear

/-- The counters of a new solution with `nst` stages (`src/kernel/lib/context.hpp:329`,
`src/kernel/lib/stencil_calc.hpp:899`). -/
def Counters.init (nst : Nat) : Counters := ⟨0, List.replicate nst 0⟩

/-- The counters after a history of calls. -/
def Counters.after (wfSteps : Int) (empty : Bool) (nst : Nat) (calls : List Call) : Counters :=
  calls.foldl (fun s x => s.call wfSteps empty x) (Counters.init nst)

/-- What `get_stats` returns, without the times (`src/kernel/lib/context.hpp:145-240`). -/
structure Report where
  numElements : Int
  numSteps : Int
  numWrites : Int
  fpOps : Int
deriving DecidableEq, Repr

/-- `get_stats` (`src/kernel/lib/soln_apis.cpp:396-431`); `rankBoxes` are the domains of the ranks: their
numbers of points are added up to `tot_domain_pts` (`src/kernel/lib/setup.cpp:611-612`). -/
def report (rankBoxes : List Box) (ranks : List (List (List NonScratch))) (s : Counters) : Report where
  numElements := (rankBoxes.map boxSize).sum
  numSteps := s.steps
  numWrites := (s.stageSteps.mapIdx fun i ns => totPerStep (·.writes) ranks i * ns).sum
  fpOps := (s.stageSteps.mapIdx fun i ns => totPerStep (·.fpOps) ranks i * ns).sum

/-- `ext_bb` of a rank (`src/kernel/lib/setup.cpp:1095-1097`). -/
def extBox (c : RunCfg) : Box := (List.range c.nd).map fun j => (c.extBeg j, c.extEnd j)

/-- `rank_bb` of a rank (`src/kernel/lib/setup.cpp:1090-1092`). -/
def rankBox (c : RunCfg) : Box := (List.range c.nd).map fun j => ((c.dim j).rankBeg, c.rankEnd j)

end Yask.Stats
