import Verif.Var.ResizeModel
import Verif.Spec.VarSpec

/-!
# Model of histories of calls on one var
-/

namespace Yask.Var
open Spec (ElemOp)

variable {V : Type}

/-- The effect on one output var of evaluating a stencil part at one step (`run_solution`): the
generated code writes elements of step `t`, each in the slot given by `_wrap_step(t)`
(`src/kernel/lib/yk_var.hpp:126-145`, `src/kernel/lib/stencil_calc.cpp:40-285`); then
`StencilPartBase::update_var_info` moves the valid steps (`stencil_calc.cpp:291-330`).  `ws` are the
remaining indices and the values written, in some order. -/
def kernelStep (v : YVar V) (t : Int) (ws : List (List Int × V)) : Outcome (YVar V) :=
  match v.mem with
  | none => .undefined
  | some m => do
    let m' ← ws.foldlM (fun m w => do
      let asi ← v.g.allocStepIndex (t :: w.1)
      writeElem v.g m w.2 (t :: w.1) asi) m
    pure ⟨v.g.updateValidStep t, some m'⟩

/-- One call; a thrown exception leaves the var as it was. -/
def applyOp [Add V] (v : YVar V) : ElemOp V → Outcome (YVar V)
  | .set val idx strict =>
    match setElement v val idx strict with
    | .ok r => .ok r.1
    | .throws => .ok v
    | .undefined => .undefined
  | .add val idx strict =>
    match addToElement v val idx strict with
    | .ok r => .ok r.1
    | .throws => .ok v
    | .undefined => .undefined
  | .setAll val => .ok (setAllSame v val)

/-- A sequence of calls. -/
def runOps [Add V] (v : YVar V) (ops : List (ElemOp V)) : Outcome (YVar V) := ops.foldlM applyOp v

/-- A sequence of setting calls that all return normally. -/
def runSettings (v : YVar V) : List (Nat × Setting × Int) → Option (YVar V)
  | [] => some v
  | c :: cs =>
    if (callSetting v c.1 c.2.1 c.2.2).2 then none else runSettings (callSetting v c.1 c.2.1 c.2.2).1 cs

end Yask.Var
