import Verif.Spec.HookSpec

/-!
# Model of hooks: functions that a user registers to be called by `prepare_solution()` and `run_solution()`

`StencilContext::call_hooks`, `call_2idx_hooks` (`src/kernel/lib/soln_apis.cpp:115-134`) and their callers.

Simplifications. Timers, messages and the data of vars are left out (see the models of runs). What a registered function does is
arbitrary: any sequence of API calls, after which it may throw; calls that concern neither hooks nor the preparation are left out.
Executions that do not end (e.g., a function that calls `run_solution()` each time before a run) have no outcome.
-/

namespace Yask.Hook
open Spec

/-- API calls. -/
inductive Cmd
  /-- `call_before_prepare_solution`, etc. (`src/kernel/lib/context.hpp:761-776`) -/
  | register (w : HookAt) (h : Nat)
  | prepare
  | run (first last : Int)
  /-- `run_auto_tuner_now` -/
  | tune
  /-- calls after which the solution must be prepared again (`soln_apis.cpp:84-98`) -/
  | setSize
  deriving DecidableEq, Repr

/-- `_before_prepare_solution_hooks`, etc. (`context.hpp:249-254`), and `is_prepared()` (`context.hpp:370-375`). -/
structure St where
  hooks : HookAt → List Nat
  prepared : Bool

/-- A new solution. -/
def St.init : St := ⟨fun _ => [], false⟩

/-- `push_back` (`context.hpp:761-776`). -/
def St.register (s : St) (w : HookAt) (h : Nat) : St :=
  { s with hooks := fun w' => if w' = w then s.hooks w' ++ [h] else s.hooks w' }

/-- How a call ends. -/
inductive Res
  | ok | throws | undefined
  deriving DecidableEq, Repr

/-- What the user has written: the sequences of API calls that a registered function may make when it is called (with the steps), and
whether it throws after them. -/
abbrev User := Nat → Option (Int × Int) → List Cmd → Bool → Prop

/-- What is executed: API calls, the loop over the hooks of a list that are left, and the loop of `run_auto_tuner_now` from step `t`. -/
inductive Task
  | cmd (c : Cmd)
  | cmds (cs : List Cmd)
  | hooks (w : HookAt) (steps : Option (Int × Int)) (hs : List Nat)
  | tuneFrom (t : Int)

variable (user : User) (strideT dirT : Int)

/-- Executions at a nesting depth, with events; `strideT`, `dirT`: `stride_t` and `step_dir` of `run_auto_tuner_now`
(`src/kernel/lib/auto_tuner.cpp:552-555`). -/
inductive Exec : Nat → Task → St → List (Nat × HookEv) → St → Res → Prop
  | register {n w h} {s : St} : Exec n (.cmd (.register w h)) s [] (s.register w h) .ok
  | setSize {n} {s : St} : Exec n (.cmd .setSize) s [] { s with prepared := false } .ok
  /-- `prepare_solution` (`soln_apis.cpp:136-249`): an exception or worse in a function called at the beginning. -/
  | prepHook {n s tr s1 r} : Exec n (.hooks .beforePrepare none (s.hooks .beforePrepare)) s tr s1 r → r ≠ .ok →
      Exec n (.cmd .prepare) s tr s1 r
  /-- An exception in the setup, e.g., about sizes. The solution may count as prepared afterwards (see `ReadyModel`). -/
  | prepThrows {n s tr s1} {b : Bool} : Exec n (.hooks .beforePrepare none (s.hooks .beforePrepare)) s tr s1 .ok →
      Exec n (.cmd .prepare) s tr { s1 with prepared := b } .throws
  | prep {n s tr s1 tr2 s2 r} : Exec n (.hooks .beforePrepare none (s.hooks .beforePrepare)) s tr s1 .ok →
      Exec n (.hooks .afterPrepare none (s1.hooks .afterPrepare)) { s1 with prepared := true } tr2 s2 r →
      Exec n (.cmd .prepare) s (tr ++ (n, .setup) :: tr2) s2 r
  /-- `run_solution` (`src/kernel/lib/context.cpp:219-624`): functions are called first (`227-228`), the check is later (`265-266`). -/
  | runHook {n s tr s1 r a b} : Exec n (.hooks .beforeRun (some (a, b)) (s.hooks .beforeRun)) s tr s1 r → r ≠ .ok →
      Exec n (.cmd (.run a b)) s tr s1 r
  | runThrows {n s tr s1 a b} : Exec n (.hooks .beforeRun (some (a, b)) (s.hooks .beforeRun)) s tr s1 .ok → s1.prepared = false →
      Exec n (.cmd (.run a b)) s tr s1 .throws
  | run {n s tr s1 tr2 s2 r a b} : Exec n (.hooks .beforeRun (some (a, b)) (s.hooks .beforeRun)) s tr s1 .ok → s1.prepared = true →
      Exec n (.hooks .afterRun (some (a, b)) (s1.hooks .afterRun)) s1 tr2 s2 r →
      Exec n (.cmd (.run a b)) s (tr ++ (n, .steps a b) :: tr2) s2 r
  /-- `run_auto_tuner_now` (`auto_tuner.cpp:527-585`) -/
  | tuneThrows {n s} : s.prepared = false → Exec n (.cmd .tune) s [] s .throws
  | tune {n s tr s1 r} : s.prepared = true → Exec n (.tuneFrom 0) s tr s1 r → Exec n (.cmd .tune) s tr s1 r
  /-- The tuner is done after some runs (`auto_tuner.cpp:558-566`). -/
  | tuneLast {n s t tr s1 r} : Exec n (.cmd (.run t (t + strideT - dirT))) s tr s1 r → Exec n (.tuneFrom t) s tr s1 r
  | tuneNext {n s t tr s1 tr2 s2 r} : Exec n (.cmd (.run t (t + strideT - dirT))) s tr s1 .ok →
      Exec n (.tuneFrom (t + strideT)) s1 tr2 s2 r → Exec n (.tuneFrom t) s (tr ++ tr2) s2 r
  /-- The calls in the body of a function: the calls after an exception are not made. -/
  | nil {n s} : Exec n (.cmds []) s [] s .ok
  | stop {n c cs s tr s1 r} : Exec n (.cmd c) s tr s1 r → r ≠ .ok → Exec n (.cmds (c :: cs)) s tr s1 r
  | cons {n c cs s tr s1 tr2 s2 r} : Exec n (.cmd c) s tr s1 .ok → Exec n (.cmds cs) s1 tr2 s2 r →
      Exec n (.cmds (c :: cs)) s (tr ++ tr2) s2 r
  /-- The loop over a vector of functions (`soln_apis.cpp:119-122`, `129-132`). -/
  | hooksDone {n w a s} : Exec n (.hooks w a []) s [] s .ok
  /-- A call in the function does not return normally. -/
  | hookStop {n w a h hs s cs thr tr s1 r} : user h a cs thr → Exec (n + 1) (.cmds cs) s tr s1 r → r ≠ .ok →
      Exec n (.hooks w a (h :: hs)) s ((n, .called w h a) :: tr) s1 r
  /-- The function throws. -/
  | hookThrows {n w a h hs s cs tr s1} : user h a cs true → Exec (n + 1) (.cmds cs) s tr s1 .ok →
      Exec n (.hooks w a (h :: hs)) s ((n, .called w h a) :: tr) s1 .throws
  /-- The vector has grown, so the iterators of the loop are invalid. -/
  | hookGrown {n w a h hs s cs tr s1} : user h a cs false → Exec (n + 1) (.cmds cs) s tr s1 .ok →
      (s1.hooks w).length ≠ (s.hooks w).length → Exec n (.hooks w a (h :: hs)) s ((n, .called w h a) :: tr) s1 .undefined
  | hookNext {n w a h hs s cs tr s1 tr2 s2 r} : user h a cs false → Exec (n + 1) (.cmds cs) s tr s1 .ok →
      (s1.hooks w).length = (s.hooks w).length → Exec n (.hooks w a hs) s1 tr2 s2 r →
      Exec n (.hooks w a (h :: hs)) s ((n, .called w h a) :: (tr ++ tr2)) s2 r

end Yask.Hook
