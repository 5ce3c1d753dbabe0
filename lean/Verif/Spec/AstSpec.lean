import Verif.Spec.ExprSpec
import Verif.Compiler.AstModel

/-!
# What the calls that build expressions mean

In terms of values only: each variable has a value, which is that of the operator applied to the values of its operands. A null pointer
is no operand at all for `+` and `*`; `null - x` is `-x`, and `null / x` is `1 / x` (`include/aux/yc_node_api.hpp:734-783`).
-/

namespace Yask.Spec
open Comp

/-- What comparisons mean. -/
abbrev CmpInterp (K : Type) := CmpOp → K → K → Bool

section
variable {π K : Type} [CommRing K] (I : Interp π K)

/-! ### Programs that only build -/

/-- What a variable can be used for, apart from its value. -/
inductive Kind (π : Type)
  | const | index (d : String) (ty : IndexType) | point (p : π) | comm (op : CommOp) | other
deriving DecidableEq

/-- An expression: what it is, and its value. -/
abbrev Item (π K : Type) := Kind π × K

/-- A condition that is met or not. An equation: LHS, value of the RHS, conditions. -/
structure Plain (π K : Type) where
  vars : List (Option (Item π K)) := []
  conds : List Bool := []
  eqs : List (π × K × Option Bool × Option Bool) := []

/-- The variable, if it exists. -/
def Plain.var (s : Plain π K) (r : Nat) : Outcome (Option (Item π K)) :=
  match s.vars[r]? with
  | some x => .ok x
  | none => .undefined

/-- The expression in a variable that must not be null. -/
def Plain.item (s : Plain π K) (r : Nat) : Outcome (Item π K) :=
  match s.vars[r]? with
  | some (some x) => .ok x
  | _ => .undefined

/-- Several of them. -/
def Plain.items (s : Plain π K) : List Nat → Outcome (List (Item π K))
  | [] => .ok []
  | r :: rs => do
    let x ← s.item r
    let xs ← s.items rs
    .ok (x :: xs)

/-- A condition that may be null. -/
def Plain.cond (s : Plain π K) : Option Nat → Outcome (Option Bool)
  | none => .ok none
  | some b => match s.conds[b]? with
    | some x => .ok (some x)
    | none => .undefined

/-- A new variable. -/
def Plain.new (s : Plain π K) (x : Option (Item π K)) : Outcome (Plain π K) := .ok { s with vars := s.vars ++ [x] }

/-- A new condition. -/
def Plain.newCond (s : Plain π K) (b : Bool) : Outcome (Plain π K) := .ok { s with conds := s.conds ++ [b] }

/-- The first or last index of a domain index. -/
def endKind (ty : IndexType) : Option (Kind π) → Outcome (String × IndexType)
  | none => .throws
  | some (.index d .domain) => .ok (d, ty)
  | some (.index _ _) => .throws
  | some _ => .undefined

/-- One call; the calls that change nodes are not described. -/
def Plain.step (cmp : CmpInterp K) (s : Plain π K) : Call π → Outcome (Plain π K)
  | .null => s.new none
  | .const q => s.new (some (.const, I.const q))
  | .constIdx i => do
    let q ← constIdx i
    s.new (some (.const, I.const q))
  | .operand i => s.new (some (.const, I.const (toDouble i)))
  | .index d ty => s.new (some (.index d ty, I.index d ty))
  | .firstOf r => do
    let x ← endKind .first ((← s.var r).map (·.1))
    s.new (some (.index x.1 x.2, I.index x.1 x.2))
  | .lastOf r => do
    let x ← endKind .last ((← s.var r).map (·.1))
    s.new (some (.index x.1 x.2, I.index x.1 x.2))
  | .point p => s.new (some (.point p, I.point p))
  | .neg r => do s.new (some (.other, - (← s.item r).2))
  | .add l r => do
    match ← s.var l, ← s.var r with
    | none, y => s.new y
    | x, none => s.new x
    | some x, some y => s.new (some (.comm .add, x.2 + y.2))
  | .mul l r => do
    match ← s.var l, ← s.var r with
    | none, y => s.new y
    | x, none => s.new x
    | some x, some y => s.new (some (.comm .mult, x.2 * y.2))
  | .sub l r => do
    match ← s.var l, ← s.var r with
    | none, none => .undefined
    | none, some y => s.new (some (.other, - y.2))
    | some x, none => s.new (some x)
    | some x, some y => s.new (some (.other, x.2 - y.2))
  | .div l r => do
    match ← s.var l, ← s.var r with
    | none, none => s.new (some (.const, I.const 1))
    | none, some y => s.new (some (.other, I.div (I.const 1) y.2))
    | some x, none => s.new (some x)
    | some x, some y => s.new (some (.other, I.div x.2 y.2))
  | .mod l r => do s.new (some (.other, I.mod (← s.item l).2 (← s.item r).2))
  | .func f rs => do s.new (some (.other, I.func f ((← s.items rs).map (·.2))))
  | .clone r => do s.new (some (← s.item r))
  | .cmp op l r => do s.newCond (cmp op (← s.item l).2 (← s.item r).2)
  | .not a => match s.conds[a]? with
    | some x => s.newCond (!x)
    | none => .undefined
  | .and a b => match s.conds[a]?, s.conds[b]? with
    | some x, some y => s.newCond (x && y)
    | _, _ => .undefined
  | .or a b => match s.conds[a]?, s.conds[b]? with
    | some x, some y => s.newCond (x || y)
    | _, _ => .undefined
  | .eqn l r c => do
    match ← s.var l with
    | none => .throws
    | some (.point p, _) => do
      match ← s.var r with
      | none => .throws
      | some y => do .ok { s with eqs := s.eqs ++ [(p, y.2, ← s.cond c, none)] }
    | some _ => .undefined
  | .setCond e c => if e < s.eqs.length then do
      let c ← s.cond c
      .ok { s with eqs := s.eqs.modify e fun x => (x.1, x.2.1, c, x.2.2.2) }
    else .undefined
  | .setStepCond e c => if e < s.eqs.length then do
      let c ← s.cond c
      .ok { s with eqs := s.eqs.modify e fun x => (x.1, x.2.1, x.2.2.1, c) }
    else .undefined
  | .setValue _ _ => .undefined
  | .addOperand _ _ => .undefined

/-- All calls in order. -/
def Plain.run (cmp : CmpInterp K) (s : Plain π K) : List (Call π) → Outcome (Plain π K)
  | [] => .ok s
  | c :: cs => do
    let s ← s.step I cmp c
    s.run cmp cs

/-! ### The values in a state of the compiler -/

/-- The value of a node. -/
def nodeValue (ns : List (Head π × List Nat)) (id : Nat) : K := ((heapOf ns).valueAt I ns.length id).getD 0

/-- What a node can be used for. -/
def headKind : Head π → Kind π
  | .const _ => .const
  | .index d ty => .index d ty
  | .point p => .point p
  | .comm op => .comm op
  | _ => .other

/-- A node as an expression with a value. -/
def nodeItem (ns : List (Head π × List Nat)) (id : Nat) : Item π K := (headKind (heapOf ns id).1, nodeValue I ns id)

/-- Is a condition met, given the values of nodes and of the conditions before it? -/
def condVal (cmp : CmpInterp K) (v : Nat → K) (bs : List Bool) : BNode → Bool
  | .not a => !bs.getD a false
  | .and a b => bs.getD a false && bs.getD b false
  | .or a b => bs.getD a false || bs.getD b false
  | .cmp op l r => cmp op (v l) (v r)

/-- Which conditions are met? -/
def condVals (cmp : CmpInterp K) (v : Nat → K) (bs : List BNode) : List Bool :=
  bs.foldl (fun l b => l ++ [condVal cmp v l b]) []

/-- The values in a state. -/
def plainOf (cmp : CmpInterp K) (s : Ast π) : Plain π K :=
  let conds := condVals cmp (nodeValue I s.nodes) s.bools
  { vars := s.ptrs.map (Option.map (nodeItem I s.nodes))
    conds := conds
    eqs := s.eqs.map fun e => (e.lhs, nodeValue I s.nodes e.rhs, e.cond.map (conds.getD · false), e.step.map (conds.getD · false)) }

/-- The value of the expression that a variable of the program points to, if there is one. -/
def varVal (s : Ast π) (r : Nat) : Option K :=
  match s.ptrs[r]? with
  | some (some a) => (heapOf s.nodes).valueAt I s.nodes.length a
  | _ => none

/-- The value of the RHS of an equation. -/
def eqnVal (s : Ast π) (i : Nat) : Option K :=
  match s.eqs[i]? with
  | some e => (heapOf s.nodes).valueAt I s.nodes.length e.rhs
  | none => none

end

/-- Does the call change an expression that exists already? -/
def _root_.Yask.Comp.Call.changes {π : Type} : Call π → Bool
  | .setValue _ _ => true
  | .addOperand _ _ => true
  | _ => false

/-- No call changes the expression that variable `r` points to. -/
def Untouched {π : Type} (s : Ast π) (r : Nat) (cs : List (Call π)) : Prop :=
  (∀ r' q, .setValue r' q ∈ cs → s.ptrs[r']? ≠ s.ptrs[r]?) ∧ ∀ r' x, .addOperand r' x ∈ cs → s.ptrs[r']? ≠ s.ptrs[r]?

end Yask.Spec
