import Verif.Compiler.EqFormModel
import Verif.Spec.SrcSpec
import Verif.Spec.SolnSpec

/-!
# Model: the solution that is analyzed, made of the equations of the source

`Eqs::analyze_eqs` and `Stages::calc_halos` work with the points of the equations (`src/compiler/lib/Eqs.cpp:383-600,1614-1700`): var, step
offset, offsets in domain dims, constant indices in misc dims (`VarPoint.hpp:42-60`). A var with misc dims counts as several vars here,
one for each combination of misc indices in the equations: two points are dependent only if these are the same
(`make_logical_var_str`, `is_same_logical_var`, `VarPoint.cpp:121-148`). Scratch vars are left out.
-/

namespace Yask.Comp
open Spec

section
variable {π V : Type}

/-- What makes up the var of a point: the var, and the constants in misc dims by position (`VarPoint.cpp:121-144`). -/
def CPt.key (p : CPt π) : EqVar × List ℤ :=
  (p.var, p.var.dims.map fun g => if g.2 = .misc then (p.consts.lookup g.1).getD 0 else 0)

/-- All points in the order of the equations. -/
def eqPts (cs : List (CEq π)) : List (CPt π) := cs.flatMap fun c => c.lhs :: c.rhs

/-- The vars of the analyzed solution. -/
def srcVars (cs : List (CEq π)) : List (EqVar × List ℤ) := ((eqPts cs).map CPt.key).dedup

/-- A point in the analyzed solution: `get_arg_offsets()` (`VarPoint.hpp:104`), split into the step dim and the domain dims. -/
def CPt.pt (D : CDims) (cs : List (CEq π)) (p : CPt π) : Pt :=
  ⟨(srcVars cs).idxOf p.key, p.offsets.lookup D.step, p.offsets.filter fun e => decide (e.1 ≠ D.step)⟩

/-- Names of dims of a var. -/
def srcHas (cs : List (CEq π)) (v : Nat) (ty : IndexType) : List String :=
  match (srcVars cs)[v]? with
  | some k => (k.1.dims.filter fun g => decide (g.2 = ty)).map Prod.fst
  | none => []

/-- The analyzed solution. Points have as many indices as there are domain dims. (There are no vars beyond `srcVars`.) -/
def srcSoln (D : CDims) (dir : ℤ) (es : List (SEq π V)) (cs : List (CEq π)) : USoln V where
  dims := D.domain
  dir := dir
  hasStep v := decide ((srcVars cs).length ≤ v) || decide (D.step ∈ srcHas cs v .step)
  eqs := List.zipWith (fun e c => ⟨c.lhs.pt D cs, c.rhs.map (CPt.pt D cs), fun x => decide (x.length = D.domain.length) && e.domIf x, e.stepIf, e.f⟩) es cs

/-- Indices of the element of var `k` at step `s` and point `x`. -/
def srcElem (D : CDims) (k : EqVar × List ℤ) (s : ℤ) (x : List ℤ) : List ℤ :=
  (List.range k.1.dims.length).map fun (i : Nat) => match k.1.dims[i]? with
    | some (_, .step) => s
    | some (d, .domain) => x.getD (D.domain.idxOf d) 0
    | _ => k.2.getD i 0

open Classical in
/-- The values of the vars of the analyzed solution. -/
noncomputable def srcFlat [Inhabited V] (D : CDims) (cs : List (CEq π)) (W : SrcHistory V) : History V := fun v s x =>
  match (srcVars cs)[v]? with
  | some k => if x.length = D.domain.length then W k.1 (srcElem D k s x) else default
  | none => default

end
end Yask.Comp
