import Verif.Compiler.MergeModel
import Verif.Mpi.SrcNetModel
import Verif.Spec.MiscSpec
import Verif.Spec.ExprEqSpec

/-!
# Model: the generated code and the vars of the kernel for equations of the source

What the compiler puts into the generated code for the equations in the stages: the vars (`print_context`,
`src/compiler/lib/YaskKernel.cpp:747-866`), and for each part the equations with the points that they access
(`YaskKernel.cpp:590-722`; the code of the inner loop is that of `Compiler/InnerLoopModel.lean`).
-/

namespace Yask
open Spec Mpi Var Comp Spec.Cpp

section
variable {π : Type}

mutual
/-- An expression with other points. -/
def Spec.Cpp.Ex.map {α β : Type} (f : α → β) : Ex α → Ex β
  | .const i q => .const i q
  | .read i p => .read i (f p)
  | .neg i a => .neg i (a.map f)
  | .bin i op l r => .bin i op (l.map f) (r.map f)
  | .comm i op as => .comm i op (Ex.mapAll f as)
  | .func i g p as => .func i g p (Ex.mapAll f as)
/-- Several expressions with other points. -/
def Spec.Cpp.Ex.mapAll {α β : Type} (f : α → β) : List (Ex α) → List (Ex β)
  | [] => []
  | a :: as => a.map f :: Ex.mapAll f as
end

/-- What the code generator uses of a point: the var, offsets in step and domain dims, constants in misc dims, in the order of the dims
(`VarPoint.cpp:36-90`). -/
def Comp.CPt.lpt (kv : EqVar → Nat) (p : CPt π) : LPt :=
  (kv p.var, p.var.dims.map fun g => if g.2 = .misc then (p.consts.lookup g.1).getD 0 else (p.offsets.lookup g.1).getD 0)

/-- The point of an access in the source. -/
def lptOf [DecidableEq π] (kv : EqVar → Nat) (q : EqVar × List (NExpr π)) : LPt :=
  match newPoint q.1 q.2 with
  | .ok p => p.lpt kv
  | _ => (0, [])

end

/-- Two expressions read the same points and have the same value. -/
def SameValue {α V : Type} (A : Arith V) (a b : Ex α) : Prop := (∀ q, q ∈ a.points ↔ q ∈ b.points) ∧ ∀ rd, a.value A rd = b.value A rd

/-- Where the vars of the analyzed solution are stored: each var of the source in one var of the kernel, numbered by `kv`. -/
def srcSlices {π : Type} (X : CodeNet) (kv : EqVar → Nat) (cs : List (CEq π)) : Slices where
  nv := (srcVars cs).length
  var v := match (srcVars cs)[v]? with
    | some k => kv k.1
    | none => 0
  misc v := match (srcVars cs)[v]? with
    | some k => k.2
    | none => []
  geo := X.geo 0
  names := X.names

/-- Step slots of the vars of the analyzed solution: those of the var of the source. -/
def srcSz {π : Type} (cs : List (CEq π)) (sz : EqVar → Nat) (v : Nat) : Nat := match (srcVars cs)[v]? with
  | some k => sz k.1
  | none => 1

/-- Stages with the numbers of the equations. -/
def natStages {n : Nat} (L : List (List (List (Fin n)))) : List (List (List Nat)) := L.map fun s => s.map fun p => p.map Fin.val

/-- The ranks run the code that is generated for the equations `es`, in the stages `L`, with vars that are made as the generated
code says and have been changed by the user only in ways that are allowed (`KeepsSizes`; `c` and `inner` as there). -/
structure Made {π V : Type} [DecidableEq π] (X : CodeNet) (D : CDims) (dir : ℤ) (es : List (XEq π)) (cs : List (CEq π)) (kv : EqVar → Nat)
    (L : List (List (List Nat))) (H : HSys) (sz : EqVar → Nat) (shape : Nat → VarShape) (A : Arith V) (c : EqVar → GenSizes) (inner : Bool) :
    Prop where
  /-- one var of the kernel for each var (`YaskKernel.cpp:747-770`) -/
  inj : ∀ v v', UsedVar es v → UsedVar es v' → kv v = kv v' → v = v'
  num : ∀ v, UsedVar es v → kv v < X.P.nvars
  onto : ∀ k < X.P.nvars, ∃ v, UsedVar es v ∧ kv v = k
  names : ∀ v, UsedVar es v → X.names (kv v) = v.dims.map Prod.fst
  /-- its sizes (`YaskKernel.cpp:789-866`), and the storage that is made for it -/
  made : ∀ r < X.P.n, ∀ v, UsedVar es v → ∃ yv yv' : YVar V, Generated (c v) (varStats v (allPts cs [])) v yv ∧ KeepsSizes inner yv yv' ∧
    yv'.g = X.geo r (kv v)
  alloc : ∀ r < X.P.n, ∀ v, UsedVar es v → ∀ d ∈ (X.geo r (kv v)).api, d.isStep = true → d.alloc = sz v
  slots : ∀ v, UsedVar es v → (X.P.var (kv v)).slots = sz v
  oneSlot : ∀ v, UsedVar es v → (D.step, .step) ∉ v.dims → sz v = 1
  misc : ∀ r < X.P.n, ∀ k < X.P.nvars, ∀ (i : Nat) (d d' : DimG), (X.geo r k).dims[i]? = some d → (X.geo 0 k).dims[i]? = some d' → d.kind = .misc →
    d.firstLocal = d'.firstLocal ∧ d.lastLocal = d'.lastLocal
  dom : ∀ r < X.P.n, ∀ v, UsedVar es v → ∀ (i : Nat) (d : String) (e : DimG), v.dims[i]? = some (d, .domain) → (X.geo r (kv v)).dims[i]? = some e →
    e = ((X.P.var (kv v)).rank r).dim (D.domain.idxOf d)
  used : ∀ v, UsedVar es v → ∀ j < D.domain.length, (shape (kv v)).used j = decide ((D.domain.getD j "", .domain) ∈ v.dims)
  /-- halos are at least as large as in the generated code (`YaskKernel.cpp:798-806`, `882-886`) -/
  lh : ∀ v, UsedVar es v → ∀ j < D.domain.length, (H.calcHalos (kv v)).size (D.domain.getD j "") true ≤ (shape (kv v)).lh j
  rh : ∀ v, UsedVar es v → ∀ j < D.domain.length, (H.calcHalos (kv v)).size (D.domain.getD j "") false ≤ (shape (kv v)).rh j
  dist : ∀ v, UsedVar es v → (H.calcHalos (kv v)).l1 ≤ (X.P.var (kv v)).maxDist
  /-- the code of each rank -/
  cfg : ∀ r < X.P.n, (X.code r).cfg = X.P.full r
  dims : ∀ r < X.P.n, (X.code r).dims = D.domain
  step : ∀ r < X.P.n, (X.code r).step = D.step
  nst : ∀ r < X.P.n, (X.code r).cfg.nst = L.length
  nparts : ∀ r < X.P.n, ∀ st, (X.code r).cfg.nparts st = (L.getD st []).length
  vars : ∀ r < X.P.n, ∀ st p, p < (X.code r).cfg.nparts st → ∀ v, UsedVar es v →
    (((X.code r).code st p).vars (kv v)).g = X.geo r (kv v) ∧ (((X.code r).code st p).vars (kv v)).names = X.names (kv v)
  eqs : ∀ r < X.P.n, ∀ st p, p < (X.code r).cfg.nparts st → ∃ ex : Nat → LPt × Ex LPt,
    ((X.code r).code st p).eqs = ((L.getD st []).getD p []).map ex ∧ ∀ m ∈ (L.getD st []).getD p [], ∀ e, es[m]? = some e →
      (ex m).1 = lptOf kv e.lhs ∧ SameValue A (ex m).2 (e.rhs.map (lptOf kv))
  /-- what each part announces to set (`YaskKernel.cpp:543-560`, `get_output_step_index`) -/
  outs : ∀ st p, ∀ m ∈ (L.getD st []).getD p [], ∀ e, es[m]? = some e → ∀ t : ℤ,
    X.outs st p t (kv e.lhs.1, ((t + dir) % (sz e.lhs.1 : ℤ)).toNat) = true

end Yask
