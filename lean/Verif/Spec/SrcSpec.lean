import Verif.Spec.EqFormSpec

/-!
# Specification: the values that the equations of the source define

Vars are indexed as in the source: one index for each dim of the var, in the order in which the var has been declared with them. An index
expression is evaluated as it stands. Nothing of the compiler is used but the data types of vars, index expressions and equations.
-/

namespace Yask.Spec
open Comp

/-- An equation of the source: the var and index expressions on the left-hand side, those read on the right-hand side, the conditions,
and the function that computes the value from the step index, the domain indices and the values read (in the order of the source). -/
structure SEq (π V : Type) where
  src : SrcEq π
  domIf : List ℤ → Bool
  stepIf : ℤ → Bool
  f : ℤ → List ℤ → List V → V

/-- Values of all vars at all indices. -/
abbrev SrcHistory (V : Type) := EqVar → List ℤ → V

variable {π V : Type}

/-- The value of the index named `d` in step `t` at the point `x` of the domain. -/
def indexAt (D : CDims) (t : ℤ) (x : List ℤ) (d : String) : ℚ := if d = D.step then t else (x.getD (D.domain.idxOf d) 0 : ℤ)

/-- In step `t` at point `x`, the index expressions `args` have the values `a`, whatever the vars in them are. -/
def IndexVals (D : CDims) (t : ℤ) (x : List ℤ) (args : List (NExpr π)) (a : List ℤ) : Prop :=
  List.Forall₂ (fun (e : NExpr π) (k : ℤ) => ∀ I : Interp π ℚ, I.Usual →
    (∀ d, I.index d .step = indexAt D t x d ∧ I.index d .domain = indexAt D t x d) → e.val I = k) args a

/-- The equation applies in step `t` at point `x`. -/
def SEq.Applies (e : SEq π V) (inDom : List ℤ → Prop) (t : ℤ) (x : List ℤ) : Prop := inDom x ∧ e.domIf x = true ∧ e.stepIf t = true

/-- In `n` steps from step `first` on in direction `dir`, the values `W` satisfy the equations: where an equation applies, the element on
the left has the value of the right-hand side. An element of the next step that no equation sets has the value of the step whose storage
is reused (`sz v` steps are stored). -/
structure SrcEvolves (D : CDims) (dir : ℤ) (es : List (SEq π V)) (inDom : List ℤ → Prop) (sz : EqVar → Nat) (first : ℤ) (n : Nat)
    (W : SrcHistory V) : Prop where
  eq : ∀ i < n, ∀ e ∈ es, ∀ x, e.Applies inDom (first + dir * i) x → ∀ a as, IndexVals D (first + dir * i) x e.src.lhs.2 a →
    List.Forall₂ (fun q b => IndexVals D (first + dir * i) x q.2 b) e.src.rhs as →
    W e.src.lhs.1 a = e.f (first + dir * i) x (List.zipWith (fun q b => W q.1 b) e.src.rhs as)
  keep : ∀ i < n, ∀ (v : EqVar) (k : Nat) (a : List ℤ), DimNames v → v.dims[k]? = some (D.step, .step) → a.length = v.dims.length →
    a[k]? = some (first + dir * i + dir) →
    (¬ ∃ e ∈ es, e.src.lhs.1 = v ∧ ∃ x, e.Applies inDom (first + dir * i) x ∧ IndexVals D (first + dir * i) x e.src.lhs.2 a) →
    W v a = W v (a.set k (first + dir * i + dir - dir * sz v))

/-- No element is set by two equations. -/
def SetOnce (D : CDims) (es : List (SEq π V)) : Prop :=
  ∀ (i j : Nat) (e e' : SEq π V), es[i]? = some e → es[j]? = some e' → e.src.lhs.1 = e'.src.lhs.1 → ∀ t x a, x.length = D.domain.length →
    IndexVals D t x e.src.lhs.2 a → IndexVals D t x e'.src.lhs.2 a →
    e.domIf x = true → e.stepIf t = true → e'.domIf x = true → e'.stepIf t = true → i = j

/-- No equation reads a var at a step beyond the one that it sets. -/
def ReadsNoLater (D : CDims) (dir : ℤ) (es : List (SEq π V)) : Prop :=
  ∀ e ∈ es, ∀ q ∈ e.src.rhs, ∀ x ∈ q.1.dims.zip q.2, x.1.1 = D.step → ∀ k : ℤ, Denotes x.2 (fun idx => idx x.1.1 + k) → k * dir ≤ 1

end Yask.Spec
