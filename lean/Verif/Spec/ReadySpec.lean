import Verif.Kernel.ReadyModel

/-!
# Specification: a solution is ready for a run

The last call that prepared, changed or ended the solution was a `prepare_solution()` that returned.
-/

namespace Yask.Ready

/-- Calls that leave a prepared solution prepared. Changes of the minimum pad have no effect until the next
preparation. -/
def keeps : Op → Bool
  | .setMinPad | .run | .tune => true
  | _ => false

/-- The solution is ready after these calls. -/
def Ready (calls : List Op) : Prop :=
  ∃ before later, calls = before ++ .prepare .done :: later ∧ ∀ c ∈ later, keeps c = true

/-- Calls for which the code keeps track of readiness: the application does not end the solution, does not use
`apply_command_line_options()`, and no call of `prepare_solution()` throws. -/
def tracked : Op → Bool
  | .options | .endSoln | .prepare .setupFails | .prepare .allocFails => false
  | _ => true

end Yask.Ready
