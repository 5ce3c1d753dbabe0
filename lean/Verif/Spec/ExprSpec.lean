import Mathlib.Algebra.Field.Basic
import Mathlib.Algebra.Field.Rat
import Mathlib.Algebra.BigOperators.Group.List.Basic
import Verif.Compiler.CseModel

/-!
# The value of an expression

Exact arithmetic in any commutative ring with any interpretation of constants, var points, indices, functions,
division and modulus.
-/

namespace Yask
open Comp

/-- What the leaves and the operators other than `+ - *` mean. -/
structure Interp (π K : Type) where
  const : ℚ → K
  code : String → K
  index : String → IndexType → K
  point : π → K
  div : K → K → K
  mod : K → K → K
  func : String → List K → K

/-- Constants and operators have their usual meaning. -/
structure Interp.Usual {π : Type} (I : Interp π ℚ) : Prop where
  const : ∀ q, I.const q = q
  div : ∀ a b, I.div a b = a / b
  mod : ∀ a b, I.mod a b = modVal a b

section
variable {π K : Type} [CommRing K]

mutual
/-- The value of an expression. -/
def Comp.NExpr.val (I : Interp π K) : NExpr π → K
  | .const q => I.const q
  | .code s => I.code s
  | .index d t => I.index d t
  | .point p => I.point p
  | .neg a => - a.val I
  | .bin .sub l r => l.val I - r.val I
  | .bin .div l r => I.div (l.val I) (r.val I)
  | .bin .mod l r => I.mod (l.val I) (r.val I)
  | .comm .add ops => (NExpr.vals I ops).sum
  | .comm .mult ops => (NExpr.vals I ops).prod
  | .func f ops => I.func f (NExpr.vals I ops)
/-- The values of several expressions. -/
def Comp.NExpr.vals (I : Interp π K) : List (NExpr π) → List K
  | [] => []
  | a :: as => a.val I :: NExpr.vals I as
end

/-- The number of children fits the head. -/
def Comp.Head.arity : Head π → Nat → Prop
  | .const _, n => n = 0
  | .code _, n => n = 0
  | .index _ _, n => n = 0
  | .point _, n => n = 0
  | .neg, n => n = 1
  | .bin _, n => n = 2
  | .comm _, _ => True
  | .func _, _ => True
  | .eqn, n => n = 1

instance (hd : Head π) (n : Nat) : Decidable (hd.arity n) := by
  cases hd <;> unfold Head.arity <;> infer_instance

/-- Expressions as the user builds them: a node is made after its operands, with as many operands as its operator
has; and an equation is not an operand. -/
structure Comp.Heap.WellFormed (N : Nat) (h : Heap π) : Prop where
  arity : ∀ id < N, (h id).1.arity (h id).2.length
  order : ∀ id < N, ∀ c ∈ (h id).2, c < id
  noEqn : ∀ id < N, ∀ c ∈ (h id).2, (h c).1 ≠ .eqn

/-- The value of a node of a heap of `N` nodes; `none` if the expression is infinite or ill-formed. -/
def Comp.Heap.valueAt (I : Interp π K) (N : Nat) (h : Heap π) (id : Nat) : Option K := (h.tree N id).map (·.val I)

/-- The value of the RHS of an equation. -/
def Comp.Heap.rhsValue (I : Interp π K) (N : Nat) (h : Heap π) (id : Nat) : Option K :=
  (h id).2.head?.bind (h.valueAt I N)

end

end Yask
