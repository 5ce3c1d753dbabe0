import Verif.Compiler.EqFormModel
import Verif.Var.ResizeModel

/-!
# Model of the sizes of vars that the compiler puts into the generated code

`Eqs::update_var_stats` (`src/compiler/lib/Eqs.cpp:755-779`), `Var::update_const_indices` (`Var.cpp:337-357`) and the code generated
for the constructor of the solution that sets the sizes of a var (`YaskKernel.cpp:789-866`). Halos and step allocations, which are
the subject of other models, are parameters. Of the names of dims in the generated calls, the position is kept.
-/

namespace Yask.Comp
open Var

section
variable {π : Type} [DecidableEq π]

/-- `_min_indices`, `_max_indices` (`Var.hpp`). -/
structure ConstRange where
  mins : List (String × ℤ) := []
  maxs : List (String × ℤ) := []
deriving DecidableEq

/-- The update of the minimum (`Var.cpp:343-347`). -/
def updMin (l : List (String × ℤ)) (e : String × ℤ) : List (String × ℤ) :=
  match l.lookup e.1 with
  | none => setKey l e.1 e.2
  | some m => if e.2 < m then setKey l e.1 e.2 else l

/-- The update of the maximum (`Var.cpp:349-354`). -/
def updMax (l : List (String × ℤ)) (e : String × ℤ) : List (String × ℤ) :=
  match l.lookup e.1 with
  | none => setKey l e.1 e.2
  | some m => if e.2 > m then setKey l e.1 e.2 else l

/-- `update_const_indices` (`Var.cpp:337-357`). -/
def ConstRange.upd (r : ConstRange) (indices : List (String × ℤ)) : ConstRange :=
  indices.foldl (fun r e => ⟨updMin r.mins e, updMax r.maxs e⟩) r

/-- `update_var_stats` (`Eqs.cpp:758-779`) for one var; `pts` is the union of the sets `get_all_pts()` of all equations, in the order in
which it is iterated over. -/
def varStats (v : EqVar) (pts : List (CPt π)) : ConstRange :=
  (pts.filter fun p => decide (p.var = v)).foldl (fun r p => r.upd p.consts) {}

/-- The points that `PointVisitor` collects for the equations (`Eqs.cpp:86-163`); `kp`: the points in conditions. -/
def allPts (cs : List (CEq π)) (kp : List (CPt π)) : List (CPt π) := cs.flatMap (fun c => c.lhs :: c.rhs) ++ kp

/-- The size and the first index of a misc dim (`YaskKernel.cpp:815-816,841-847`). -/
def genMisc (r : ConstRange) (d : String) : Outcome (ℤ × ℤ) :=
  match r.mins.lookup d, r.maxs.lookup d with
  | some lo, some hi => do
    let s ← toInt (hi - lo)
    let n ← toInt (s + 1)
    .ok (n, lo)
  | _, _ => .ok (1, 0)

/-- The halos (`YaskKernel.cpp:798-806`) and the step allocation (`YaskKernel.cpp:818-820`) of a var. -/
structure GenSizes where
  left : String → ℤ
  right : String → ℤ
  steps : ℤ

/-- The calls for one dim, at position `i` (`YaskKernel.cpp:789-865`). -/
def genDim (c : GenSizes) (r : ConstRange) (i : Nat) (d : String) (ty : IndexType) : Outcome (List (Nat × Setting × Int)) :=
  match ty with
  | .domain => .ok [(i, .leftHalo, c.left d), (i, .rightHalo, c.right d)]
  | .step => .ok [(i, .size, c.steps)]
  | _ => do
    let x ← genMisc r d
    .ok ((i, .size, x.1) :: if x.2 ≠ 0 then [(i, .localOfs, x.2)] else [])

/-- The calls for all dims (`YaskKernel.cpp:791-866`), the first one being at position `i`. -/
def genCalls (c : GenSizes) (r : ConstRange) : Nat → List (String × IndexType) → Outcome (List (Nat × Setting × Int))
  | _, [] => .ok []
  | i, (d, ty) :: ds => do
    let a ← genDim c r i d ty
    let l ← genCalls c r (i + 1) ds
    .ok (a ++ l)

end

/-- The calls are made in the constructor of the solution, or of the list of scratch vars; true: one of them throws. -/
def runCalls {V : Type} (v : YVar V) : List (Nat × Setting × Int) → YVar V × Bool
  | [] => (v, false)
  | x :: l =>
    match callSetting v x.1 x.2.1 x.2.2 with
    | (v', true) => (v', true)
    | (v', false) => runCalls v' l

/-- The kind of a dim in the kernel. -/
def kindOf : IndexType → DimKind
  | .step => .step
  | .domain => .domain
  | _ => .misc

end Yask.Comp
