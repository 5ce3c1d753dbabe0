import Verif.Spec.OptSpec
import Verif.Compiler.FoldOptModel

/-!
# Specification for requests of fold lengths (C93)
-/

namespace Yask.FoldOpt
open Args (Str)
open Options (Numeral IdxRange)

/-- The string `s` is written as `dim=number`. -/
def Assign (s : Str) (e : Str × Int) : Prop :=
  ∃ t, s = e.1 ++ '=' :: t ∧ e.1 ≠ [] ∧ '=' ∉ e.1 ∧ Numeral t e.2 ∧ IdxRange e.2

/-- The argument is a list of assignments separated by commas. -/
def Assigns (arg : Str) (es : List (Str × Int)) : Prop :=
  ∃ ss, arg = List.intercalate [','] ss ∧ (∀ s ∈ ss, ',' ∉ s) ∧ List.Forall₂ Assign ss es

/-- What the requests write, since the last `clear_folding()`, in order. -/
inductive Written : List Op → List (Str × Int) → Prop
  | nil : Written [] []
  | option (os es arg ps) : Written os es → Assigns arg ps → Written (os ++ [.option arg]) (es ++ ps)
  | set (os es d n) : Written os es → Written (os ++ [.set d n]) (es ++ [(d, n)])
  | clear (os es) : Written os es → Written (os ++ [.clear]) []

/-- The last value written for a dim. -/
def lastOf (es : List (Str × Int)) (d : Str) : Option Int :=
  (es.reverse.find? fun e => decide (e.1 = d)).map Prod.snd

end Yask.FoldOpt
