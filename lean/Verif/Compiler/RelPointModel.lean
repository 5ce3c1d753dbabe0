import Verif.Compiler.EqFormModel

/-!
# Model of the functions that make var points

`new_relative_var_point()` (`src/compiler/lib/Var.cpp:60-97`). `new_var_point()` (`src/compiler/lib/Var.cpp:37-58`) checks the number
of args, as does the constructor of `VarPoint` that it calls, `newPoint`. Cloning of the index nodes is left out.
-/

namespace Yask.Comp

variable {π : Type} [DecidableEq π]

/-- `new_var_point()`. -/
def newVarPoint (v : EqVar) (args : List (NExpr π)) : Outcome (CPt π) :=
  if v.dims.length ≠ args.length then .throws else newPoint v args

/-- The offsets are set one after the other (`src/compiler/lib/Var.cpp:91-95`). -/
def setOffsets : List ((String × IndexType) × ℤ) → CPt π → CPt π
  | [], p => p
  | x :: xs, p => setOffsets xs (p.setOffset x.1.1 x.2)

/-- `new_relative_var_point()`. A negative offset is negated (`src/compiler/lib/VarPoint.cpp:257`), which is undefined for the least `int`. -/
def newRelPoint (v : EqVar) (ofs : List ℤ) : Outcome (CPt π) :=
  if v.dims.length ≠ ofs.length then .throws
  else if v.dims.any fun g => decide (g.2 = .misc) then .throws
  else do
    let p ← newPoint v (v.dims.map fun g => .index g.1 g.2)
    if ofs.any fun k => decide (k = -2147483648) then .undefined
    else .ok (setOffsets (v.dims.zip ofs) p)

end Yask.Comp
