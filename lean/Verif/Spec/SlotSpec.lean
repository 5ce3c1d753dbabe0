import Verif.Compiler.SlotModel

/-!
# Specification: each scratch var has its own memory
-/

namespace Yask.Spec
open Comp

/-- The values read if every scratch var has its own memory: each read gives the value most recently computed for the
var. -/
def runVars {V : Type} (comp : Nat → List V → Nat → V) (val : Nat → V) : List SPart → List (List V)
  | [] => []
  | p :: ps => p.ins.map val :: runVars comp (fun v => if v ∈ p.outs then comp p.id (p.ins.map val) v else val v) ps

/-- Var `v` is accessed in stage number `s`. -/
def UsedIn (stages : List LStage) (v s : Nat) : Prop := ∃ st, stages[s]? = some st ∧ v ∈ st.outs ++ st.ins

/-- The parts are in the order of their stages, access only the vars that are listed for their stages, and read only vars
that have been written by one of the parts before. -/
def Sequence (stages : List LStage) (ps : List SPart) : Prop :=
  ps.Pairwise (fun p q => p.stage ≤ q.stage) ∧ (∀ p ∈ ps, ∀ v ∈ p.ins ++ p.outs, UsedIn stages v p.stage) ∧
  ∀ l p r, ps = l ++ p :: r → ∀ v ∈ p.ins, ∃ q ∈ l, v ∈ q.outs

end Yask.Spec
