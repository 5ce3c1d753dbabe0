import Mathlib.Data.List.Basic

/-!
# Specification of hooks

What a user sees: calls of registered functions and the work of a solution, in the order in which they happen, each with the nesting depth
of the API call during which it happens: a function that is called at depth `n` may itself call the API at depth `n + 1`.
-/

namespace Yask.Spec

/-- The four places at which registered functions are called. -/
inductive HookAt
  | beforePrepare | afterPrepare | beforeRun | afterRun
  deriving DecidableEq, Repr

/-- Observable events. -/
inductive HookEv
  /-- A registered function is called, with the steps for the functions of runs. -/
  | called (w : HookAt) (h : Nat) (steps : Option (Int × Int))
  /-- A solution is set up, i.e., sizes are fixed and storage is made. -/
  | setup
  /-- Steps are computed. -/
  | steps (first last : Int)
  deriving DecidableEq, Repr

/-- The events of a call at depth `n` itself, without those of API calls that are made by registered functions. -/
def ownEvents (n : Nat) (tr : List (Nat × HookEv)) : List HookEv := (tr.filter fun e => decide (e.1 = n)).map Prod.snd

end Yask.Spec
