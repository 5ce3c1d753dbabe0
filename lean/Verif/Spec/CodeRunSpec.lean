import Verif.Kernel.SolnRunModel
import Verif.Kernel.NanoRunMem

/-!
# Specification: a run evaluates the equations, one point and one step after the other

The reference is written with `read_elem` and `write_elem` (`Var/VarModel.lean`), as `run_ref` does it
(`src/kernel/lib/context.cpp:52-218`).
-/

namespace Yask.Spec
open Comp Cpp Var

section
variable {V : Type}

/-- Read of an element. -/
def readAt (g : Geom) (m : Int → V) (idx : List Int) : Outcome V := do
  let ti ← g.allocStepIndex idx
  Var.readElem g m idx ti

/-- Write of an element. -/
def writeAt (g : Geom) (m : Int → V) (val : V) (idx : List Int) : Outcome (Int → V) := do
  let ti ← g.allocStepIndex idx
  Var.writeElem g m val idx ti

/-- Evaluation of one equation, where its points mean the elements `elem` of the vars with storage `mem`: the elements on the right-hand
side are read, and the value of the expression is written to the one on the left-hand side. -/
def refEq (vars : Nat → Geom) (elem : LPt → List Int) (u : V) (A : Arith V) (mem : Nat → Int → V) (e : LPt × Ex LPt) :
    Outcome (Nat → Int → V) :=
  if e.2.points.all fun q => (readAt (vars q.1) (mem q.1) (elem q)).isOk then do
    let m ← writeAt (vars e.1.1) (mem e.1.1) (e.2.value A fun q => match readAt (vars q.1) (mem q.1) (elem q) with
      | .ok w => w
      | _ => u) (elem e.1)
    .ok fun i => if i = e.1.1 then m else mem i
  else .undefined

end
end Yask.Spec

namespace Yask.Nano
open Spec Comp Spec.Cpp Var

section
variable {V : Type}

/-- Evaluation of the equations of a part of a stage, in order, at a point of the domain in a step. -/
def SolnCode.refTask (R : SolnCode) (u : V) (A : Arith V) (mem : Nat → Int → V) (a : Task) : Outcome (Nat → Int → V) :=
  let c := R.code a.stage a.part
  c.eqs.foldlM (refEq (fun i => (c.vars i).g)
    (fun q => gridElem (gridIndex R.step a.step R.dims a.pt) (c.vars q.1).names ((c.vars q.1).g.dims.map accessDim) q.2) u A) mem

/-- Evaluations, one after the other. -/
def SolnCode.refTasks (R : SolnCode) (u : V) (A : Arith V) (l : List Task) (mem : Nat → Int → V) : Outcome (Nat → Int → V) :=
  l.foldlM (R.refTask u A) mem

/-- The reference: each step, each part of each stage, if its step condition holds, each point where its domain condition holds. -/
def SolnCode.refRun (R : SolnCode) (u : V) (A : Arith V) (first last : Int) (mem : Nat → Int → V) : Outcome (Nat → Int → V) :=
  R.refTasks u A (R.cfg.runRef first last) mem

/-- How the code fits the settings. Parts are as in C81, for each step, with the same vars; the settings of the loops are legal; and the
full bounding boxes of a part contain each point that satisfies its domain condition exactly once (C10). -/
structure SolnCode.Fits (V : Type) (R : SolnCode) (inner : String) (folds rofs : List Int) : Prop where
  foldsLen : folds.length = R.cfg.nd
  foldsPos : ∀ f ∈ folds, 0 < f
  lanes : numPoints folds ≤ 63
  microFeat : ∃ f', adjFeatures R.microFeat R.cfg.nd = some f'
  nanoFeat : ∃ f', adjFeatures R.nanoFeat R.cfg.nd = some f'
  part : ∀ st p t, p < R.cfg.nparts st → (R.partAt st p t).Fits inner R.firstInner folds rofs
  code : ∀ st p t, p < R.cfg.nparts st → (R.partAt st p t).c.Ok V inner fun _ => t
  lhsNodup : ∀ st p, p < R.cfg.nparts st → ((R.code st p).eqs.map (·.1)).Nodup
  micro : ∀ t st p bx, p < R.cfg.nparts st → bx.length = R.cfg.nd → (R.micro t st p bx).map MicroDim.fold = folds ∧
    (R.micro t st p bx).map MicroDim.rofs = rofs ∧
    ∀ m ∈ R.micro t st p bx, 0 < m.nano ∧ 0 < m.align ∧ 0 < m.tile ∧ 0 < m.pico ∧ m.fold ≤ m.nanoTile
  bind : ∀ t st p bx b, p < R.cfg.nparts st → R.bind t st p bx = some b → 0 < b.nbt
  bbsLen : ∀ st p, p < R.cfg.nparts st → ∀ bb ∈ R.bbs st p, bb.length = R.cfg.nd
  bbs : ∀ st p, p < R.cfg.nparts st → ExactCoverOf (R.bbs st p) fun x => x.length = R.cfg.nd ∧ R.cfg.dom st p x = true
  vars : ∀ st p st' p', p < R.cfg.nparts st → p' < R.cfg.nparts st' → ∀ i,
    ((R.code st p).vars i).g = ((R.code st' p').vars i).g ∧ ((R.code st p).vars i).names = ((R.code st' p').vars i).names

/-- The nodes of the expressions of each part have identities, and rounding is not modelled (as in C80). -/
def SolnCode.Exprs (A : Arith V) (R : SolnCode) : Prop :=
  ∀ st p, p < R.cfg.nparts st →
    (∃ node : Nat → Ex LPt, ∀ m, ∀ e ∈ (R.code st p).eqs, e.2.All (Ex.NodeOk A m node ((R.code st p).eqs.map (·.1)))) ∧
    ∀ e ∈ (R.code st p).eqs, e.2.Plain A

end

/-- Part `p` of stage `st` is evaluated at point `x` in step `t`. -/
def SolnCode.At (R : SolnCode) (st p : Nat) (t : Int) (x : List Int) : Prop :=
  p < R.cfg.nparts st ∧ R.cfg.stepOk st p t = true ∧ x.length = R.cfg.nd ∧ R.cfg.dom st p x = true

/-- Dim number `k` of var `i`, which is a domain dim, is called `d`. -/
def _root_.Yask.Comp.LoopVar.DomainDim (v : LoopVar) (k : Nat) (d : String) : Prop :=
  v.names[k]? = some d ∧ ∃ g, v.g.dims[k]? = some g ∧ g.kind = .domain

/-- What the equations access. All accesses are to elements of the vars. Equations set vars with all domain dims, without offsets in
them; where such vars are read, the offsets are at most the halo. And in one stage and step, different equations do not set the same
element, and what is set at a point is read nowhere else, and there by no later equation. -/
structure SolnCode.Indep (R : SolnCode) : Prop where
  range : ∀ st p t x, R.At st p t x → ∀ q, q ∈ (R.code st p).eqs.map (·.1) ∨ (R.code st p).IsRead q →
    InRangeButStep ((R.code st p).vars q.1).g.api ((R.partAt st p t).elemAt q x)
  lhsDims : ∀ st p, p < R.cfg.nparts st → ∀ q ∈ (R.code st p).eqs.map (·.1), ∀ d ∈ R.dims, ∃ k, ((R.code st p).vars q.1).DomainDim k d
  lhsZero : ∀ st p, p < R.cfg.nparts st → ∀ q ∈ (R.code st p).eqs.map (·.1), ∀ k d, ((R.code st p).vars q.1).DomainDim k d →
    q.2[k]? = some 0
  halo : ∀ st p, p < R.cfg.nparts st → ∀ q, (R.code st p).IsRead q →
    (∃ st' p', p' < R.cfg.nparts st' ∧ q.1 ∈ (R.code st' p').eqs.map (·.1.1)) →
    ∀ j k d, R.dims[j]? = some d → ((R.code st p).vars q.1).DomainDim k d →
      ∃ o, q.2[k]? = some o ∧ |o| ≤ (R.cfg.dim j).maxHalo
  writes : ∀ st p p' t x, R.At st p t x → R.At st p' t x →
    ∀ q ∈ (R.code st p).eqs.map (·.1), ∀ q' ∈ (R.code st p').eqs.map (·.1), q.1 = q'.1 →
    SameElem ((R.code st p).vars q.1).g.api ((R.partAt st p t).elemAt q x) ((R.partAt st p' t).elemAt q' x) → p = p' ∧ q = q'
  reads : ∀ st p p' t x y, R.At st p t x → R.At st p' t y →
    ∀ (r : Nat) (hr : r < (R.code st p).eqs.length) (r' : Nat) (hr' : r' < (R.code st p').eqs.length),
    ∀ q ∈ ((R.code st p).eqs[r]).2.points, q.1 = ((R.code st p').eqs[r']).1.1 →
    SameElem ((R.code st p).vars q.1).g.api ((R.partAt st p t).elemAt q x)
      ((R.partAt st p' t).elemAt ((R.code st p').eqs[r']).1 y) → p = p' ∧ x = y ∧ r ≤ r'

end Yask.Nano
