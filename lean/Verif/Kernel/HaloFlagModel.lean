import Verif.Spec.HaloFlagSpec

/-!
# Model of switching the exchange of halos

`actl_opts->do_halo_exchange` is set by the option `-exchange_halos` (`src/kernel/lib/settings.cpp:384-388`,
`src/kernel/lib/soln_apis.cpp:297-313`) and by `run_auto_tuner_now()` (`src/kernel/lib/auto_tuner.cpp:527-585`); it is tested by
`exchange_halos()` (`src/kernel/lib/halo.cpp:80-85`).

Simplifications. All else that the calls do is left out, but each call of `run_solution()` or `run_auto_tuner_now()` may throw. The functions
that a user has registered to be called at the beginning and end of a run make any calls, catch any exceptions and may throw. Executions
that do not end have no outcome.
-/

namespace Yask.HaloFlag
open Spec

/-- API calls. -/
inductive Cmd
  /-- `apply_command_line_options("-exchange_halos")` or `"-no-exchange_halos"` -/
  | option (b : Bool)
  /-- `run_solution` -/
  | run
  /-- `run_auto_tuner_now` -/
  | tune
  deriving DecidableEq, Repr

/-- What is executed: an API call, a sequence of calls of the user, the loop of `run_auto_tuner_now`. -/
inductive Task
  | cmd (c : Cmd)
  | cmds (cs : List Cmd)
  | tuneLoop

/-- How it ends. -/
inductive Res
  | ok | throws
  deriving DecidableEq, Repr

/-- Executions: inside of the tuner or not, what is executed, `do_halo_exchange` before, events, `do_halo_exchange` afterwards. -/
inductive Exec : Bool → Task → Bool → List (Bool × ExchEv) → Bool → Res → Prop
  /-- The option is set in `actl_opts` (`src/kernel/lib/soln_apis.cpp:302-310`). -/
  | option {k b f} : Exec k (.cmd (.option b)) f [(k, .option b)] b .ok
  /-- `run_solution` (`src/kernel/lib/context.cpp:219-624`): an exception in functions called at the beginning, or in the checks. -/
  | runThrows {k cs f tr f1 r} : Exec k (.cmds cs) f tr f1 r → Exec k (.cmd .run) f tr f1 .throws
  /-- The steps, and the functions called at the end, which may throw. -/
  | run {k cs cs' f tr f1 tr2 f2 r r'} : Exec k (.cmds cs) f tr f1 .ok → Exec k (.cmds cs') f1 tr2 f2 r → (r = .throws → r' = .throws) →
      Exec k (.cmd .run) f (tr ++ (k, .steps f1) :: tr2) f2 r'
  /-- `run_auto_tuner_now` (`src/kernel/lib/auto_tuner.cpp:529-530`): the solution is not prepared. -/
  | tuneRefused {k f} : Exec k (.cmd .tune) f [] f .throws
  /-- The value is saved (`543-544`) and restored at the end (`575`). -/
  | tune {k f tr f1} : Exec true .tuneLoop false tr f1 .ok → Exec k (.cmd .tune) f tr f .ok
  /-- An exception in a run. -/
  | tuneThrows {k f tr f1} : Exec true .tuneLoop false tr f1 .throws → Exec k (.cmd .tune) f (tr ++ [(k, .tunerThrew)]) f1 .throws
  /-- The loop (`558-566`). -/
  | loopLast {f tr f1 r} : Exec true (.cmd .run) f tr f1 r → Exec true .tuneLoop f tr f1 r
  | loopNext {f tr f1 tr2 f2 r} : Exec true (.cmd .run) f tr f1 .ok → Exec true .tuneLoop f1 tr2 f2 r →
      Exec true .tuneLoop f (tr ++ tr2) f2 r
  /-- The calls of a user. -/
  | nil {k f} : Exec k (.cmds []) f [] f .ok
  | stop {k c cs f tr f1} : Exec k (.cmd c) f tr f1 .throws → Exec k (.cmds (c :: cs)) f tr f1 .throws
  /-- Exceptions may also be caught. -/
  | cons {k c cs f tr f1 tr2 f2 r r'} : Exec k (.cmd c) f tr f1 r → Exec k (.cmds cs) f1 tr2 f2 r' →
      Exec k (.cmds (c :: cs)) f (tr ++ tr2) f2 r'

end Yask.HaloFlag
