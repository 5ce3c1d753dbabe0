import Verif.Spec.SolnSpec
import Verif.Spec.HaloSpec

/-!
# Specification: the values that stencil equations with scratch vars define

A scratch var has no step dim: its equations `a(x) = f(...) if (condition on x and t)` define its value at every point, in each step anew.
-/

namespace Yask.Spec
open Comp

/-- A solution with scratch vars: which vars are scratch vars, and their equations. `eqs` are the equations of the other vars. -/
structure XSoln (Val : Type) extends USoln Val where
  isScr : Nat → Bool
  scr : List (UEq Val)

variable {Val : Type}

/-- The values of scratch vars: var, step in which they are used, and point. -/
abbrev ScrValues (Val : Type) := Nat → Int → List Int → Val

namespace XSoln
variable (X : XSoln Val)

/-- The value that is read at point `p` when an equation is evaluated at step `t` and point `x`. -/
def readVal (W : History Val) (A : ScrValues Val) (t : Int) (x : List Int) (p : Pt) : Val :=
  if X.isScr p.var then A p.var t (shiftPt X.dims x p) else W p.var (stepAt p t) (shiftPt X.dims x p)

/-- The value that equation `e` defines. -/
def rhsVal (e : UEq Val) (W : History Val) (A : ScrValues Val) (t : Int) (x : List Int) : Val :=
  e.f t x (e.rhs.map (X.readVal W A t x))

/-- History `W` and scratch values `A` satisfy the equations in `n` steps from step index `first` on. As `Evolves`; where an equation of a
scratch var applies, in the domain or outside of it, the scratch var has the value of its right-hand side. -/
structure Evolves (inDom : List Int → Prop) (sz : Nat → Nat) (first : Int) (n : Nat) (W : History Val) (A : ScrValues Val) : Prop where
  eq : ∀ i < n, ∀ e ∈ X.eqs, ∀ x, e.Applies inDom (first + X.dir * i) x →
    W e.lhs.var (first + X.dir * i + X.dir) x = X.rhsVal e W A (first + X.dir * i) x
  scr : ∀ i < n, ∀ e ∈ X.scr, ∀ x, x.length = X.dims.length → e.domIf x = true → e.stepIf (first + X.dir * i) = true →
    A e.lhs.var (first + X.dir * i) x = X.rhsVal e W A (first + X.dir * i) x
  keep : ∀ i < n, ∀ v x, X.hasStep v = true → (¬ ∃ e ∈ X.eqs, e.lhs.var = v ∧ e.Applies inDom (first + X.dir * i) x) →
    W v (first + X.dir * i + X.dir) x = W v (first + X.dir * i + X.dir - X.dir * sz v) x

end XSoln

/-- Point `q` relative to point `p`. -/
def Pt.from (q p : Pt) : Pt := { q with dom := q.dom.map fun d => (d.1, d.2 + p.at d.1) }

namespace XSoln
variable (X : XSoln Val)

/-- To evaluate equation `e` (at any step and point), `p` is read, directly or through scratch vars. -/
inductive Leads (e : UEq Val) : Pt → Prop
  | direct {p} : p ∈ e.rhs → Leads e p
  | through {p k q} : Leads e p → X.isScr p.var = true → k ∈ X.scr → k.lhs.var = p.var → q ∈ k.rhs → Leads e (Pt.from q p)

/-- To evaluate equation `e` at step `t` and point `x`, `p` is read, directly or through scratch vars. -/
inductive LeadsAt (t : Int) (x : List Int) (e : UEq Val) : Pt → Prop
  | direct {p} : p ∈ e.rhs → LeadsAt t x e p
  | through {p k q} : LeadsAt t x e p → X.isScr p.var = true → k ∈ X.scr → k.lhs.var = p.var → k.domIf (shiftPt X.dims x p) = true →
      k.stepIf t = true → q ∈ k.rhs → LeadsAt t x e (Pt.from q p)

/-- The equations define all scratch values that are used. -/
def Covered (inDom : List Int → Prop) : Prop :=
  ∀ e ∈ X.eqs, ∀ t x, x.length = X.dims.length → e.Applies inDom t x → ∀ p, X.LeadsAt t x e p → X.isScr p.var = true →
    ∃ k ∈ X.scr, k.lhs.var = p.var ∧ k.domIf (shiftPt X.dims x p) = true ∧ k.stepIf t = true

/-- The equations are legal. As `Legal`; scratch vars have no step dim, and their equations set the evaluated point; scratch vars, and vars
read by their equations, have all domain dims; and no scratch var depends on itself. -/
structure Legal (vdims : Nat → List String) : Prop where
  dir : X.dir = 1 ∨ X.dir = -1
  dims : X.dims.Nodup
  lhs : ∀ e ∈ X.eqs, X.isScr e.lhs.var = false ∧ e.lhs.step = some X.dir ∧ (∀ n, e.lhs.at n = 0)
  slhs : ∀ e ∈ X.scr, X.isScr e.lhs.var = true ∧ e.lhs.step = none ∧ (∀ n, e.lhs.at n = 0)
  step : ∀ e ∈ X.eqs ++ X.scr, ∀ p ∈ e.lhs :: e.rhs, p.step.isSome = X.hasStep p.var
  rhs : ∀ e ∈ X.eqs ++ X.scr, ∀ p ∈ e.rhs, ∀ k, p.step = some k → k * X.dir ≤ 1
  args : ∀ e ∈ X.eqs ++ X.scr, ∀ p ∈ e.lhs :: e.rhs, ∀ n, n ∈ p.dom.map Prod.fst ↔ n ∈ vdims p.var
  inDims : ∀ v, ∀ n ∈ vdims v, n ∈ X.dims
  sdims : ∀ v, X.isScr v = true → ∀ n ∈ X.dims, n ∈ vdims v
  full : ∀ e ∈ X.scr, ∀ p ∈ e.rhs, ∀ n ∈ X.dims, n ∈ vdims p.var
  one : ∀ (i j : Nat) e e', X.eqs[i]? = some e → X.eqs[j]? = some e' → e.lhs.var = e'.lhs.var →
    ∀ t x, e.domIf x = true → e.stepIf t = true → e'.domIf x = true → e'.stepIf t = true → i = j
  sone : ∀ (i j : Nat) e e', X.scr[i]? = some e → X.scr[j]? = some e' → e.lhs.var = e'.lhs.var →
    ∀ t x, e.domIf x = true → e.stepIf t = true → e'.domIf x = true → e'.stepIf t = true → i = j
  acyclic : ∃ d : Nat → Nat, ∀ e ∈ X.scr, ∀ p ∈ e.rhs, X.isScr p.var = true → d p.var < d e.lhs.var

/-- The stages `L` and the scratch parts `K` keep the dependences. As `Arranged`, for all that is read directly or through scratch vars.
`ch i p` are the scratch parts that are evaluated for part `p` of stage `i`, in order: all that are needed, each after those that it
reads. -/
structure Arranged (L : List (List (List (Fin X.eqs.length)))) (K : List (List (Fin X.scr.length))) (ch : Nat → Nat → List Nat) : Prop where
  mem : ∀ e, ∃ i p, e ∈ (L.getD i []).getD p []
  uniq : ∀ e i p i' p', e ∈ (L.getD i []).getD p [] → e ∈ (L.getD i' []).getD p' [] → i = i' ∧ p = p'
  order : ∀ e e' i p i' p', e ∈ (L.getD i []).getD p [] → e' ∈ (L.getD i' []).getD p' [] → ∀ q, X.Leads X.eqs[e] q →
    q.var = X.eqs[e'].lhs.var → q.step = X.eqs[e'].lhs.step → i' < i
  same : ∀ e e' i p, e ∈ (L.getD i []).getD p [] → e' ∈ (L.getD i []).getD p [] →
    X.eqs[e].domIf = X.eqs[e'].domIf ∧ X.eqs[e].stepIf = X.eqs[e'].stepIf
  smem : ∀ e, ∃ k, e ∈ K.getD k []
  suniq : ∀ e k k', e ∈ K.getD k [] → e ∈ K.getD k' [] → k = k'
  ssame : ∀ e e' k, e ∈ K.getD k [] → e' ∈ K.getD k [] → X.scr[e].domIf = X.scr[e'].domIf ∧ X.scr[e].stepIf = X.scr[e'].stepIf
  reqd : ∀ i p e, e ∈ (L.getD i []).getD p [] → ∀ q, X.Leads X.eqs[e] q → ∀ k e', e' ∈ K.getD k [] → X.scr[e'].lhs.var = q.var → k ∈ ch i p
  sorder : ∀ i p l1 k l2, ch i p = l1 ++ k :: l2 → ∀ e ∈ K.getD k [], ∀ q ∈ X.scr[e].rhs, ∀ k' e', e' ∈ K.getD k' [] →
    X.scr[e'].lhs.var = q.var → k' ∈ l1

/-- Enough slots. As `Enough`, for all that is read directly or through scratch vars. -/
structure Enough (L : List (List (List (Fin X.eqs.length)))) (sz : Nat → Nat) : Prop where
  pos : ∀ v, 0 < sz v
  range : ∀ e ∈ X.eqs, ∀ p, X.Leads e p → ∀ k, p.step = some k → -(sz p.var : Int) < k * X.dir
  oldest : ∀ e e' i p i' p', e ∈ (L.getD i []).getD p [] → e' ∈ (L.getD i' []).getD p' [] → i' ≤ i → ∀ q, X.Leads X.eqs[e] q →
    q.var = X.eqs[e'].lhs.var → ∀ k, q.step = some k → k * X.dir = 1 - sz q.var → (∀ n, q.at n = 0) ∧ X.eqs[e].lhs.var = q.var

end XSoln
end Yask.Spec
