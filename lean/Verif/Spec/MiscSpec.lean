import Verif.Spec.EqFormSpec
import Verif.Compiler.MiscModel

/-!
# What may happen to a var of a solution, and the uses of a misc dim
-/

namespace Yask
open Comp Var

variable {π V : Type}

/-- Arg `a` is given for dim `i` of var `v` in an equation. -/
def UsedAs (es : List (SrcEq π)) (v : EqVar) (i : Nat) (a : NExpr π) : Prop :=
  ∃ e ∈ es, ∃ q, (q = e.lhs ∨ q ∈ e.rhs) ∧ q.1 = v ∧ q.2[i]? = some a

/-- What the generated constructor of the solution makes of a new var. -/
def Generated (c : GenSizes) (r : ConstRange) (v : EqVar) (yv : YVar V) : Prop :=
  ∃ (g g' : Geom) (calls : List (Nat × Setting × Int)), g.Constructed ∧ g.dims.map DimG.kind = v.dims.map (fun d => kindOf d.2) ∧
    g.resize false = some g' ∧ genCalls c r 0 v.dims = .ok calls ∧ runCalls ⟨g', none⟩ calls = (yv, false)

/-- What happens to a var of a solution afterwards. In misc dims, only the size can be set, and only if `inner`, an option of the
compiler, is not set; `need`: sizes that are not gone below. -/
inductive SolnStep (inner : Bool) (need : Nat → Int) : YVar V → YVar V → Prop
  | setting (v v' : YVar V) (posn : Nat) (s : Setting) (n : Int) : callSetting v posn s n = (v', false) →
      (∀ d, v.g.dims[posn]? = some d → d.kind = .misc → inner = false ∧ s = .size ∧ need posn ≤ n) → SolnStep inner need v v'
  | storage (v : YVar V) (m : Option (Int → V)) : SolnStep inner need v { v with mem := m }
  | validStep (v : YVar V) (t : Int) : SolnStep inner need v { v with g := v.g.updateValidStep t }

/-- Sizes are not made smaller than those that the solution was constructed with. -/
def KeepsSizes (inner : Bool) (yv yv' : YVar V) : Prop :=
  Relation.ReflTransGen (SolnStep inner fun i => (yv.g.dims.map DimG.alloc).getD i 0) yv yv'

/-- The equations: their dims have different names and the kinds they have in the solution. -/
def Proper (D : CDims) (es : List (SrcEq π)) : Prop :=
  ∀ e ∈ es, ∀ q, (q = e.lhs ∨ q ∈ e.rhs) → DimNames q.1 ∧ Kinds D q.1

end Yask
