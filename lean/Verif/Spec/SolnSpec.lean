import Verif.Compiler.HaloModel

/-!
# Specification: the values that stencil equations define

A solution is a list of equations `v(t+dir, x) = f(...) if (condition on x and t)`, without scratch vars.  Only the data type of points
(`Pt`: var, step offset, offsets in domain dims) is taken from the model.
-/

namespace Yask.Spec
open Comp

/-- An equation: the point written, the points read on the right-hand side, the conditions, and the function that computes the value
from the step index, the domain indices and the values read (in the order of `rhs`). -/
structure UEq (Val : Type) where
  lhs : Pt
  rhs : List Pt
  domIf : List Int → Bool
  stepIf : Int → Bool
  f : Int → List Int → List Val → Val

/-- A solution: the domain dims, the direction of the steps (1 or -1), which vars have the step dim, and the equations. -/
structure USoln (Val : Type) where
  dims : List String
  dir : Int
  hasStep : Nat → Bool
  eqs : List (UEq Val)

variable {Val : Type}

/-- The values of all vars at all step indices and points; vars without the step dim are taken at index 0. -/
abbrev History (Val : Type) := Nat → Int → List Int → Val

/-- The point `x` displaced by the offsets of `p`. -/
def shiftPt (dims : List String) (x : List Int) (p : Pt) : List Int :=
  (List.range dims.length).map fun j => x.getD j 0 + p.at (dims.getD j "")

/-- The step index at which `p` is accessed in step `t`. -/
def stepAt (p : Pt) (t : Int) : Int := match p.step with
  | some k => t + k
  | none => 0

/-- Equation `e` applies at step `t` and point `x` of the domain. -/
def UEq.Applies (e : UEq Val) (inDom : List Int → Prop) (t : Int) (x : List Int) : Prop :=
  inDom x ∧ e.domIf x = true ∧ e.stepIf t = true

/-- The value that equation `e` defines. -/
def UEq.rhsVal (e : UEq Val) (dims : List String) (W : History Val) (t : Int) (x : List Int) : Val :=
  e.f t x (e.rhs.map fun p => W p.var (stepAt p t) (shiftPt dims x p))

/-- History `W` satisfies the equations in `n` steps from step index `first` on: where an equation applies, its left-hand side has
the value of its right-hand side.  Elsewhere the new value of a var is that of the step whose storage is reused (`sz v` steps are
stored): so are boundary values. -/
structure Evolves (U : USoln Val) (inDom : List Int → Prop) (sz : Nat → Nat) (first : Int) (n : Nat) (W : History Val) : Prop where
  eq : ∀ i < n, ∀ e ∈ U.eqs, ∀ x, e.Applies inDom (first + U.dir * i) x →
    W e.lhs.var (first + U.dir * i + U.dir) x = e.rhsVal U.dims W (first + U.dir * i) x
  keep : ∀ i < n, ∀ v x, U.hasStep v = true → (¬ ∃ e ∈ U.eqs, e.lhs.var = v ∧ e.Applies inDom (first + U.dir * i) x) →
    W v (first + U.dir * i + U.dir) x = W v (first + U.dir * i + U.dir - U.dir * sz v) x

/-- The slot of var `v` for step index `t`. -/
def stepSlot (U : USoln Val) (sz : Nat → Nat) (v : Nat) (t : Int) : Nat × Nat :=
  (v, if U.hasStep v then (t % (sz v : Int)).toNat else 0)

/-- The memory `m` holds the values of `W` of the last `sz v` steps of each var `v` up to step index `t`. -/
def Stores (U : USoln Val) (sz : Nat → Nat) (W : History Val) (t : Int) (m : (Nat × Nat) × List Int → Val) : Prop :=
  (∀ v x, U.hasStep v = false → m ((v, 0), x) = W v 0 x) ∧
  ∀ v x, U.hasStep v = true → ∀ j : Nat, j < sz v → m (stepSlot U sz v (t - U.dir * j), x) = W v (t - U.dir * j) x

/-- The equations are legal: every LHS is at the next step and the evaluated point; every access has the dims of its var; no RHS is
at a later step than the LHS; and at most one equation of a var applies at any step and point. -/
structure Legal (U : USoln Val) (vdims : Nat → List String) : Prop where
  dir : U.dir = 1 ∨ U.dir = -1
  dims : U.dims.Nodup
  lhs : ∀ e ∈ U.eqs, e.lhs.step = some U.dir ∧ (∀ n, e.lhs.at n = 0)
  step : ∀ e ∈ U.eqs, ∀ p ∈ e.lhs :: e.rhs, p.step.isSome = U.hasStep p.var
  rhs : ∀ e ∈ U.eqs, ∀ p ∈ e.rhs, ∀ k, p.step = some k → k * U.dir ≤ 1
  args : ∀ e ∈ U.eqs, ∀ p ∈ e.lhs :: e.rhs, ∀ n, n ∈ p.dom.map Prod.fst ↔ n ∈ vdims p.var
  inDims : ∀ v, ∀ n ∈ vdims v, n ∈ U.dims
  one : ∀ (i j : Nat) e e', U.eqs[i]? = some e → U.eqs[j]? = some e' → e.lhs.var = e'.lhs.var →
    ∀ t x, e.domIf x = true → e.stepIf t = true → e'.domIf x = true → e'.stepIf t = true → i = j

/-- The stages `L` (each a list of parts, each a list of equations, identified by their positions) keep the dependences: each
equation is in exactly one part, comes in a later stage than the equations whose results of the same step it reads, and the equations
of a part have the same conditions. -/
structure Arranged (U : USoln Val) (L : List (List (List (Fin U.eqs.length)))) : Prop where
  mem : ∀ e, ∃ i p, e ∈ (L.getD i []).getD p []
  uniq : ∀ e i p i' p', e ∈ (L.getD i []).getD p [] → e ∈ (L.getD i' []).getD p' [] → i = i' ∧ p = p'
  order : ∀ e e' i p i' p', e ∈ (L.getD i []).getD p [] → e' ∈ (L.getD i' []).getD p' [] → ∀ q ∈ U.eqs[e].rhs,
    q.var = U.eqs[e'].lhs.var → q.step = U.eqs[e'].lhs.step → i' < i
  same : ∀ e e' i p, e ∈ (L.getD i []).getD p [] → e' ∈ (L.getD i []).getD p [] →
    U.eqs[e].domIf = U.eqs[e'].domIf ∧ U.eqs[e].stepIf = U.eqs[e'].stepIf

/-- `sz v` slots are enough for var `v`: only the last `sz v` steps are read; and if the oldest of them is read although the new
step, which replaces it, is computed in the same or an earlier stage, then it is read at the evaluated point only, by an equation of
the same var. -/
structure Enough (U : USoln Val) (L : List (List (List (Fin U.eqs.length)))) (sz : Nat → Nat) : Prop where
  pos : ∀ v, 0 < sz v
  range : ∀ e ∈ U.eqs, ∀ p ∈ e.rhs, ∀ k, p.step = some k → -(sz p.var : Int) < k * U.dir
  oldest : ∀ e e' i p i' p', e ∈ (L.getD i []).getD p [] → e' ∈ (L.getD i' []).getD p' [] → i' ≤ i → ∀ q ∈ U.eqs[e].rhs,
    q.var = U.eqs[e'].lhs.var → ∀ k, q.step = some k → k * U.dir = 1 - sz q.var → (∀ n, q.at n = 0) ∧ U.eqs[e].lhs.var = q.var

end Yask.Spec
