/-!
# Specification of when runs exchange halos

What a user sees, in the order in which it happens; each event is tagged with whether it happens during a call of `run_auto_tuner_now()`.
-/

namespace Yask.Spec

/-- Events. -/
inductive ExchEv
  /-- The option `-exchange_halos` (`true`) or `-no-exchange_halos` (`false`) is given. -/
  | option (b : Bool)
  /-- Steps are computed, with or without exchange of halos. -/
  | steps (exchange : Bool)
  /-- A call of `run_auto_tuner_now()` that had begun its work throws. -/
  | tunerThrew
  deriving DecidableEq, Repr

/-- Steps outside of `run_auto_tuner_now()` are computed as the last option given outside of it says; `cur` if there is none. -/
def asRequested : Bool → List (Bool × ExchEv) → Prop
  | _, [] => True
  | _, (false, .option b) :: es => asRequested b es
  | cur, (false, .steps x) :: es => x = cur ∧ asRequested cur es
  | cur, _ :: es => asRequested cur es

end Yask.Spec
