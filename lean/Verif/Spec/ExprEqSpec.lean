import Verif.Spec.SrcSpec
import Verif.Spec.LoopSpec

/-!
# Specification: equations of the source with the expressions of their right-hand sides

As `Spec/SrcSpec.lean`, but with the expression that is on the right-hand side, instead of a function of the values read.
-/

namespace Yask.Spec
open Comp Cpp

/-- An equation: var and index expressions on the left-hand side, the expression on the right-hand side, which reads vars with index
expressions, and the conditions. -/
structure XEq (π : Type) where
  lhs : EqVar × List (NExpr π)
  rhs : Ex (EqVar × List (NExpr π))
  domIf : List ℤ → Bool
  stepIf : ℤ → Bool

variable {π V : Type}

/-- The var is in the equations. -/
def UsedVar (es : List (XEq π)) (v : EqVar) : Prop := ∃ e ∈ es, ∃ q ∈ e.lhs :: e.rhs.points, q.1 = v

/-- The equation applies in step `t` at point `x`. -/
def XEq.Applies (e : XEq π) (inDom : List ℤ → Prop) (t : ℤ) (x : List ℤ) : Prop := inDom x ∧ e.domIf x = true ∧ e.stepIf t = true

/-- As `SrcEvolves`: where an equation applies, the element on the left has the value of the expression on the right, where `A` says how
numbers are computed. `ix` gives the values of the index expressions. -/
structure XEvolves (D : CDims) (dir : ℤ) (es : List (XEq π)) (A : Arith V) (inDom : List ℤ → Prop) (sz : EqVar → Nat) (first : ℤ) (n : Nat)
    (W : SrcHistory V) : Prop where
  eq : ∀ i < n, ∀ e ∈ es, ∀ x, e.Applies inDom (first + dir * i) x → ∀ (a : List ℤ) (ix : EqVar × List (NExpr π) → List ℤ),
    IndexVals D (first + dir * i) x e.lhs.2 a → (∀ q ∈ e.rhs.points, IndexVals D (first + dir * i) x q.2 (ix q)) →
    W e.lhs.1 a = e.rhs.value A fun q => W q.1 (ix q)
  keep : ∀ i < n, ∀ (v : EqVar) (k : Nat) (a : List ℤ), DimNames v → v.dims[k]? = some (D.step, .step) → a.length = v.dims.length →
    a[k]? = some (first + dir * i + dir) →
    (¬ ∃ e ∈ es, e.lhs.1 = v ∧ ∃ x, e.Applies inDom (first + dir * i) x ∧ IndexVals D (first + dir * i) x e.lhs.2 a) →
    W v a = W v (a.set k (first + dir * i + dir - dir * sz v))

open Classical in
/-- The equation with the function of the values read (in the order of the expression). -/
noncomputable def XEq.seq [Inhabited V] (A : Arith V) (e : XEq π) : SEq π V :=
  ⟨⟨e.lhs, e.rhs.points⟩, e.domIf, e.stepIf, fun _ _ vals => e.rhs.value A fun q => vals.getD (e.rhs.points.idxOf q) default⟩

end Yask.Spec
