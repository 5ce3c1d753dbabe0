import Verif.Var.ResizeModel

/-!
# Model: sequences of setting calls, some of which may throw

`SET_VAR_API` functions (`src/kernel/lib/yk_var_apis.cpp:79-101`, `189-291`) called one after the other by a program that catches
exceptions.
-/

namespace Yask.Var
variable {V : Type}

/-- All calls are made, also after one that has thrown (`yk_var_apis.cpp:79-101`): what has been changed before the exception stays. -/
def callAll (v : YVar V) (cs : List (Nat × Setting × Int)) : YVar V :=
  cs.foldl (fun v c => (callSetting v c.1 c.2.1 c.2.2).1) v

end Yask.Var
