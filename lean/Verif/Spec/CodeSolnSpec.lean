import Verif.Spec.CodeRunSpec
import Verif.Spec.SolnRunSpec

/-!
# Specification: generated code of a solution, and storage that holds values of the equations

The equations are those of `Spec/SolnSpec.lean`. There, vars have domain dims and possibly the step dim only; so a var with misc dims
counts as several vars, one for each combination of misc indices.
-/

namespace Yask.Spec
open Comp Cpp Var

/-- Where the vars of the equations are stored: number of vars; for each, the var of the kernel and the misc indices (by position of the
dims; values in other dims are not used); and the vars of the kernel with the names of their dims. -/
structure Slices where
  nv : Nat
  var : Nat → Nat
  misc : Nat → List Int
  geo : Nat → Geom
  names : Nat → List String

/-- Kind of dim number `k` of the kernel var. -/
def Slices.kind (S : Slices) (v k : Nat) : Option DimKind := ((S.geo (S.var v)).dims[k]?).map (·.kind)

/-- Name of dim number `k`. -/
def Slices.name (S : Slices) (v k : Nat) : String := (S.names (S.var v)).getD k ""

/-- Indices of the element that holds var `v` at step index `t` and point `x` of the domain, whose dims are `dims`. -/
def Slices.elem (S : Slices) (dims : List String) (v : Nat) (t : Int) (x : List Int) : List Int :=
  (List.range (S.geo (S.var v)).dims.length).map fun k => match S.kind v k with
    | some .step => t
    | some .domain => x.getD (dims.idxOf (S.name v k)) 0
    | _ => (S.misc v).getD k 0

/-- The point of the kernel var that a point of an equation means: offsets in the step and the domain dims, and the misc indices. -/
def Slices.point (S : Slices) (p : Pt) : LPt :=
  (S.var p.var, (List.range (S.geo (S.var p.var)).dims.length).map fun k => match S.kind p.var k with
    | some .step => p.step.getD 0
    | some .domain => p.at (S.name p.var k)
    | _ => (S.misc p.var).getD k 0)

/-- Step index `s` of var `v` is stored when step `t` has been reached. -/
def StoredAt {Val : Type} (U : USoln Val) (sz : Nat → Nat) (v : Nat) (t s : Int) : Prop :=
  if U.hasStep v = true then ∃ j : Nat, j < sz v ∧ s = t - U.dir * j else s = 0

/-- The storage of the vars holds the values of `W` of the steps that are stored at step `t`, at all points for which there are
elements: reading the element gives the value. -/
def StoresIn {Val : Type} (U : USoln Val) (S : Slices) (sz : Nat → Nat) (W : History Val) (t : Int) (mem : Nat → Int → Val) : Prop :=
  ∀ v < S.nv, ∀ s, StoredAt U sz v t s → ∀ x, x.length = U.dims.length →
    InRangeButStep (S.geo (S.var v)).api (S.elem U.dims v s x) →
    readAt (S.geo (S.var v)) (mem (S.var v)) (S.elem U.dims v s x) = .ok (W v s x)

end Yask.Spec

namespace Yask.Nano
open Spec Comp Spec.Cpp Var

/-- The code `R` is code of the stages `L` of the solution `U`, with vars stored as `S` says, with `sz v` steps. Each equation of a part
is in the code of the part: it sets the point of the left-hand side; its expression reads the points of the right-hand side, and has the
value that the equation says. -/
structure CodeOf {V : Type} (R : SolnCode) (U : USoln V) (L : List (List (List (Fin U.eqs.length)))) (S : Slices) (sz : Nat → Nat)
    (A : Arith V) : Prop where
  dims : R.dims = U.dims
  parts : ∀ st p, p < R.cfg.nparts st → st < R.cfg.nst
  vars : ∀ st p, p < R.cfg.nparts st → ∀ v < S.nv, ((R.code st p).vars (S.var v)).g = S.geo (S.var v) ∧
    ((R.code st p).vars (S.var v)).names = S.names (S.var v)
  used : ∀ e ∈ U.eqs, ∀ p ∈ e.lhs :: e.rhs, p.var < S.nv
  distinct : ∀ v < S.nv, ∀ v' < S.nv, S.var v = S.var v' → (∀ k, S.kind v k = some .misc → (S.misc v).getD k 0 = (S.misc v').getD k 0) →
    v = v'
  reach : ∀ v < S.nv, ∃ yv : YVar V, Reachable yv ∧ yv.g = S.geo (S.var v)
  nameLen : ∀ v < S.nv, (S.names (S.var v)).length = (S.geo (S.var v)).dims.length
  stepName : ∀ v < S.nv, ∀ k, S.kind v k = some .step → S.name v k = R.step
  domName : ∀ v < S.nv, ∀ k, S.kind v k = some .domain → S.name v k ∈ U.dims
  hasStep : ∀ v < S.nv, U.hasStep v = true ↔ ∃ k, S.kind v k = some .step
  alloc : ∀ v < S.nv, ∀ d ∈ (S.geo (S.var v)).api, d.isStep = true → d.alloc = sz v
  /-- vars that are set have all domain dims -/
  full : ∀ e ∈ U.eqs, ∀ d ∈ U.dims, ∃ k, S.kind e.lhs.var k = some .domain ∧ S.name e.lhs.var k = d
  eqs : ∀ st p, p < R.cfg.nparts st → ∃ ce : Fin U.eqs.length → LPt × Ex LPt,
    (R.code st p).eqs = ((L.getD st []).getD p []).map ce ∧ ∀ e ∈ (L.getD st []).getD p [],
      (ce e).1 = S.point U.eqs[e].lhs ∧ (∀ q, q ∈ (ce e).2.points ↔ ∃ b ∈ U.eqs[e].rhs, q = S.point b) ∧
      ∀ t x rd, (ce e).2.value A rd = U.eqs[e].f t x (U.eqs[e].rhs.map fun b => rd (S.point b))

/-- All elements that the equations access exist. -/
def SolnCode.InRange (R : SolnCode) : Prop :=
  ∀ st p t x, R.At st p t x → ∀ q, q ∈ (R.code st p).eqs.map (·.1) ∨ (R.code st p).IsRead q →
    InRangeButStep ((R.code st p).vars q.1).g.api ((R.partAt st p t).elemAt q x)

end Yask.Nano
