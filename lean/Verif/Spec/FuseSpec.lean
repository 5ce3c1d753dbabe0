import Verif.Var.FuseModel

/-!
# Specification: layouts and handles of vars
-/

namespace Yask.Var

variable {V : Type}

/-- What the solution defines for all its vars: kinds of dims, and the layout of vars with given dims (the compiler's choice, also for
vars made by `new_var`). -/
structure Classes where
  kind : String → DimKind
  isVec : List String → Bool
  layout : List String → List Nat
  foldPosns : List String → List Nat
  foldLens : List String → List Int
  firstInner : Bool

/-- The var is one of a solution. -/
structure VBase.In (C : Classes) (x : VBase V) : Prop where
  reach : Reachable x.v
  kinds : x.v.g.dims.map DimG.kind = x.names.map C.kind
  isVec : x.v.g.isVec = C.isVec x.names
  layout : x.v.g.layout = C.layout x.names
  foldPosns : x.v.g.foldPosns = C.foldPosns x.names
  foldLens : x.v.g.foldLens = C.foldLens x.names
  firstInner : x.v.g.foldFirstInner = C.firstInner

/-- The documented conditions (`yk_var_api.hpp:1350-1361`) as the API shows them: names, fold lengths, allocation sizes, domain sizes and
pads of all dims. -/
def SameListed (x y : VBase V) : Prop :=
  x.names = y.names ∧ x.v.g.dims.map (fun d => (d.varVL, d.alloc, d.domain, d.lPad, d.rPad)) =
    y.v.g.dims.map (fun d => (d.varVL, d.alloc, d.domain, d.lPad, d.rPad))

/-- Same names of dims and same fold lengths. -/
def SameDimsFolds (x y : VBase V) : Prop :=
  x.names = y.names ∧ x.v.g.dims.map DimG.varVL = y.v.g.dims.map DimG.varVL

/-- The indices are equally far from the first index of each dim, and equal in the step dim. -/
def SameFromFirst : List Spec.ApiDim → List Spec.ApiDim → List Int → List Int → Prop
  | d :: ds, e :: es, i :: is, j :: js => (if d.isStep then i = j else i - d.first = j - e.first) ∧ SameFromFirst ds es is js
  | [], [], [], [] => True
  | _, _, _, _ => False

/-- API calls on handles, made one after the other, each with its result. -/
def runCalls {R : Type} (p : Proc V) : List (Nat × (VBase V → VBase V × R)) → Proc V × List R
  | [] => (p, [])
  | c :: cs => let q := p.call c.1 c.2; let r := runCalls q.1 cs; (r.1, q.2 :: r.2)

end Yask.Var
