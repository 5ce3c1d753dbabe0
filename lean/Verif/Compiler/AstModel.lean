import Verif.Compiler.CseModel
import Verif.Compiler.PrintModel

/-!
# Model of the calls that build expressions and equations

`yc_node_factory`, the overloaded operators and functions (`src/compiler/lib/Expr.cpp:43-480`, `include/aux/yc_node_api.hpp:497-604`,
`1043-1082`), the constructors and copy constructors of the nodes (`src/compiler/lib/Expr.hpp:245-775`), `EqualsExpr`
(`src/compiler/lib/VarPoint.hpp:219-299`), and the calls that change nodes: `set_value`, `add_operand`, `set_cond`, `set_step_cond`.

Nodes are shared: the constructors of negations, binary operators and equations keep the pointers they are given, but those of sums,
products and functions copy their operands. So the nodes are in a heap, as in `CseModel.lean`. Nodes are never removed.

Simplifications: a `double` is a rational number (no infinities and NaN); a var point is a leaf; its index expressions are copied when it
is made (`src/compiler/lib/Var.cpp:53`) and are not modelled here. All vars are in one solution. The calls that return parts of
nodes (`get_lhs`, `get_rhs`, `get_operands`) are left out, and so is `clone_ast` of conditions and equations. A failed `assert` is
`undefined`. A call with a node of another type than that of its argument is rejected by the C++ compiler and is `undefined` here.
-/

namespace Yask.Comp

/-- Comparison nodes (`src/compiler/lib/Expr.hpp:575-580`). -/
inductive CmpOp
  | eq | ne | lt | ge | gt | le
deriving DecidableEq, Repr

/-- Boolean nodes with the numbers of their operands: `NotExpr`, `AndExpr`, `OrExpr` and comparisons
(`src/compiler/lib/Expr.hpp:444-463`, `545-609`). The operands are shared. -/
inductive BNode
  | not (a : Nat) | and (a b : Nat) | or (a b : Nat) | cmp (op : CmpOp) (l r : Nat)
deriving DecidableEq, Repr

/-- An equation: LHS, node of the RHS, and conditions (`src/compiler/lib/VarPoint.hpp:219-243`). -/
structure EqNode (π : Type) where
  lhs : π
  rhs : Nat
  cond : Option Nat := none
  step : Option Nat := none
deriving DecidableEq

/-- The nodes that exist, the equations of the solution, and the values of the numerical pointers of the program: `none` is a null
pointer. -/
structure Ast (π : Type) where
  nodes : List (Head π × List Nat) := []
  bools : List BNode := []
  eqs : List (EqNode π) := []
  ptrs : List (Option Nat) := []

/-- The heap of `CseModel.lean`. -/
def heapOf {π : Type} (ns : List (Head π × List Nat)) : Heap π := fun id => ns.getD id (.code "", [])

mutual
/-- The nodes of a copy of an expression; the last one is the top (copy constructors: `src/compiler/lib/Expr.hpp:327`, `393-395`,
`479-481`, `629-633`, `744-750`, and the default one of `IndexExpr`). `n` nodes exist already. -/
def copyNodes {π : Type} (n : Nat) : NExpr π → List (Head π × List Nat)
  | .const q => [(.const q, [])]
  | .code s => [(.code s, [])]
  | .index d t => [(.index d t, [])]
  | .point p => [(.point p, [])]
  | .neg a =>
    let l := copyNodes n a
    l ++ [(.neg, [n + l.length - 1])]
  | .bin op a b =>
    let l := copyNodes n a
    let r := copyNodes (n + l.length) b
    l ++ r ++ [(.bin op, [n + l.length - 1, n + l.length + r.length - 1])]
  | .comm op as =>
    let x := copyList n as
    x.1 ++ [(.comm op, x.2)]
  | .func f as =>
    let x := copyList n as
    x.1 ++ [(.func f, x.2)]
/-- Copies of several expressions, and the tops of the copies. -/
def copyList {π : Type} (n : Nat) : List (NExpr π) → List (Head π × List Nat) × List Nat
  | [] => ([], [])
  | a :: as =>
    let l := copyNodes n a
    let x := copyList (n + l.length) as
    (l ++ x.1, (n + l.length - 1) :: x.2)
end

section
variable {π : Type}

/-- `clone` of a numerical node: the nodes and the top of the copy. A copy of a cyclic expression does not end. -/
def cloneNode (ns : List (Head π × List Nat)) (id : Nat) : Outcome (List (Head π × List Nat) × Nat) :=
  match (heapOf ns).tree ns.length id with
  | some t => .ok (ns ++ copyNodes ns.length t, ns.length + (copyNodes ns.length t).length - 1)
  | none => .undefined

/-- `append_op` for several operands (`src/compiler/lib/Expr.hpp:642-644`), or the loop in the constructor of `FuncExpr` (`738-743`). -/
def cloneNodes : List (Head π × List Nat) → List Nat → Outcome (List (Head π × List Nat) × List Nat)
  | ns, [] => .ok (ns, [])
  | ns, id :: ids => do
    let x ← cloneNode ns id
    let y ← cloneNodes x.1 ids
    .ok (y.1, x.2 :: y.2)

/-- The operands that `merge_expr` copies (`src/compiler/lib/Expr.hpp:652-660`). -/
def mergeIds (ns : List (Head π × List Nat)) (op : CommOp) (id : Nat) : List Nat :=
  match heapOf ns id with
  | (.comm op', cs) => if op' = op then cs else [id]
  | _ => [id]

/-- A new node; its number is that of the nodes before. -/
def newNode (ns : List (Head π × List Nat)) (hd : Head π) (cs : List Nat) :
    Outcome (List (Head π × List Nat) × Option Nat) :=
  .ok (ns ++ [(hd, cs)], some ns.length)

/-- `new_add_node`, `new_multiply_node` (`src/compiler/lib/Expr.cpp:102-137`). -/
def newComm (ns : List (Head π × List Nat)) (op : CommOp) : Option Nat → Option Nat → Outcome (List (Head π × List Nat) × Option Nat)
  | none, r => .ok (ns, r)
  | some l, none => .ok (ns, some l)
  | some l, some r => do
    let x ← cloneNodes ns (mergeIds ns op l)
    let y ← cloneNodes x.1 (mergeIds x.1 op r)
    newNode y.1 (.comm op) (x.2 ++ y.2)

/-- `new_negate_node` (`src/compiler/lib/Expr.cpp:96-101`). -/
def newNeg (ns : List (Head π × List Nat)) : Option Nat → Outcome (List (Head π × List Nat) × Option Nat)
  | none => .undefined
  | some a => newNode ns .neg [a]

/-- `new_subtract_node` (`src/compiler/lib/Expr.cpp:138-151`). -/
def newSub (ns : List (Head π × List Nat)) : Option Nat → Option Nat → Outcome (List (Head π × List Nat) × Option Nat)
  | none, r => newNeg ns r
  | some l, none => .ok (ns, some l)
  | some l, some r => newNode ns (.bin .sub) [l, r]

/-- `new_divide_node` (`src/compiler/lib/Expr.cpp:152-165`). -/
def newDiv (ns : List (Head π × List Nat)) : Option Nat → Option Nat → Outcome (List (Head π × List Nat) × Option Nat)
  | none, none => newNode ns (.const 1) []
  | none, some r => do
    let x ← newNode ns (.const 1) []
    newNode x.1 (.bin .div) [ns.length, r]
  | some l, none => .ok (ns, some l)
  | some l, some r => newNode ns (.bin .div) [l, r]

/-- `new_mod_node` (`src/compiler/lib/Expr.cpp:166-174`). -/
def newMod (ns : List (Head π × List Nat)) : Option Nat → Option Nat → Outcome (List (Head π × List Nat) × Option Nat)
  | some l, some r => newNode ns (.bin .mod) [l, r]
  | _, _ => .undefined

/-- A function call (`src/compiler/lib/Expr.cpp:406-442`, constructor at `src/compiler/lib/Expr.hpp:738-743`). -/
def newFunc (ns : List (Head π × List Nat)) (f : String) (as : List (Option Nat)) : Outcome (List (Head π × List Nat) × Option Nat) :=
  match allSome as with
  | none => .undefined
  | some ids => do
    let x ← cloneNodes ns ids
    newNode x.1 (.func f) x.2

/-- Conversion of an integer to `double`: the nearest number with 53 bits, to even if there are two. -/
def toDouble (i : Int) : Int :=
  let e := Nat.log2 i.natAbs - 52
  nearestEven ((i : ℚ) / 2 ^ e) * 2 ^ e

/-- The constructor of `ConstExpr` from `idx_t` (`src/compiler/lib/Expr.hpp:321-325`); the conversion of 2^63 back to `idx_t` is not
defined. -/
def constIdx (i : Int) : Outcome ℚ :=
  if toDouble i = 2 ^ 63 then .undefined
  else if toDouble i ≠ i then .throws
  else .ok (toDouble i : ℚ)

/-- `new_first_domain_index`, `new_last_domain_index` (`src/compiler/lib/Expr.cpp:253-270`). -/
def newEnd (ns : List (Head π × List Nat)) (ty : IndexType) : Option Nat → Outcome (List (Head π × List Nat) × Option Nat)
  | none => .throws
  | some a => match (heapOf ns a).1 with
    | .index d .domain => newNode ns (.index d ty) []
    | .index _ _ => .throws
    | _ => .undefined

/-- The calls of a program that defines a stencil. Numerical pointers are given by the number of the call result they were assigned
from, conditions and equations by their number. -/
inductive Call (π : Type)
  /-- a null pointer -/
  | null
  /-- `new_const_number_node(double)`, or a `double` operand -/
  | const (q : ℚ)
  /-- `new_const_number_node(idx_t)` -/
  | constIdx (i : Int)
  /-- an integer operand of an operator (`yc_number_const_arg`, `yc_number_any_arg`) -/
  | operand (i : Int)
  /-- `new_step_index`, `new_domain_index`, `new_misc_index` -/
  | index (d : String) (ty : IndexType)
  | firstOf (r : Nat) | lastOf (r : Nat)
  /-- a var point -/
  | point (p : π)
  | neg (r : Nat) | add (l r : Nat) | mul (l r : Nat) | sub (l r : Nat) | div (l r : Nat) | mod (l r : Nat)
  | func (f : String) (rs : List Nat)
  /-- `clone_ast` -/
  | clone (r : Nat)
  | cmp (op : CmpOp) (l r : Nat) | not (a : Nat) | and (a b : Nat) | or (a b : Nat)
  /-- `EQUALS`, `new_equation_node` -/
  | eqn (l r : Nat) (cond : Option Nat)
  | setCond (e : Nat) (cond : Option Nat) | setStepCond (e : Nat) (cond : Option Nat)
  | setValue (r : Nat) (q : ℚ) | addOperand (r x : Nat)

/-- The pointer in a variable of the program. -/
def Ast.ptr (s : Ast π) (r : Nat) : Outcome (Option Nat) :=
  match s.ptrs[r]? with
  | some p => .ok p
  | none => .undefined

/-- The pointers in several variables. -/
def Ast.ptrList (s : Ast π) : List Nat → Outcome (List (Option Nat))
  | [] => .ok []
  | r :: rs => do
    let p ← s.ptr r
    let ps ← s.ptrList rs
    .ok (p :: ps)

/-- A pointer that is not null (`dynamic_pointer_cast` and `assert`). -/
def nonNull : Option Nat → Outcome Nat
  | some a => .ok a
  | none => .undefined

/-- The new nodes, and a new variable with the pointer that is returned. -/
def Ast.push (s : Ast π) (x : List (Head π × List Nat) × Option Nat) : Ast π := { s with nodes := x.1, ptrs := s.ptrs ++ [x.2] }

/-- Is the condition null or an existing one? -/
def Ast.hasCond (s : Ast π) : Option Nat → Bool
  | none => true
  | some b => b < s.bools.length

/-- One call. -/
def Ast.step (s : Ast π) : Call π → Outcome (Ast π)
  | .null => .ok (s.push (s.nodes, none))
  | .const q => do .ok (s.push (← newNode s.nodes (.const q) []))
  | .constIdx i => do
    let q ← constIdx i
    .ok (s.push (← newNode s.nodes (.const q) []))
  | .operand i => do .ok (s.push (← newNode s.nodes (.const (toDouble i)) []))
  | .index d ty => do .ok (s.push (← newNode s.nodes (.index d ty) []))
  | .firstOf r => do .ok (s.push (← newEnd s.nodes .first (← s.ptr r)))
  | .lastOf r => do .ok (s.push (← newEnd s.nodes .last (← s.ptr r)))
  | .point p => do .ok (s.push (← newNode s.nodes (.point p) []))
  | .neg r => do .ok (s.push (← newNeg s.nodes (← s.ptr r)))
  | .add l r => do .ok (s.push (← newComm s.nodes .add (← s.ptr l) (← s.ptr r)))
  | .mul l r => do .ok (s.push (← newComm s.nodes .mult (← s.ptr l) (← s.ptr r)))
  | .sub l r => do .ok (s.push (← newSub s.nodes (← s.ptr l) (← s.ptr r)))
  | .div l r => do .ok (s.push (← newDiv s.nodes (← s.ptr l) (← s.ptr r)))
  | .mod l r => do .ok (s.push (← newMod s.nodes (← s.ptr l) (← s.ptr r)))
  | .func f rs => do .ok (s.push (← newFunc s.nodes f (← s.ptrList rs)))
  | .clone r => do
    let a ← nonNull (← s.ptr r)
    let x ← cloneNode s.nodes a
    .ok (s.push (x.1, some x.2))
  | .cmp op l r => do
    let a ← nonNull (← s.ptr l)
    let b ← nonNull (← s.ptr r)
    .ok { s with bools := s.bools ++ [.cmp op a b] }
  | .not a => if a < s.bools.length then .ok { s with bools := s.bools ++ [.not a] } else .undefined
  | .and a b => if a < s.bools.length ∧ b < s.bools.length then .ok { s with bools := s.bools ++ [.and a b] } else .undefined
  | .or a b => if a < s.bools.length ∧ b < s.bools.length then .ok { s with bools := s.bools ++ [.or a b] } else .undefined
  | .eqn l r cond => do
    -- `src/compiler/lib/Expr.cpp:57-86`
    match ← s.ptr l with
    | none => .throws
    | some a => match (heapOf s.nodes a).1 with
      | .point p => do
        match ← s.ptr r with
        | none => .throws
        | some b => if s.hasCond cond then .ok { s with eqs := s.eqs ++ [⟨p, b, cond, none⟩] } else .undefined
      | _ => .undefined
  | .setCond e cond =>
    -- `src/compiler/lib/VarPoint.hpp:281-288`
    if e < s.eqs.length ∧ s.hasCond cond then .ok { s with eqs := s.eqs.modify e fun x => { x with cond := cond } } else .undefined
  | .setStepCond e cond =>
    -- `src/compiler/lib/VarPoint.hpp:289-296`
    if e < s.eqs.length ∧ s.hasCond cond then .ok { s with eqs := s.eqs.modify e fun x => { x with step := cond } } else .undefined
  | .setValue r q => do
    -- `src/compiler/lib/Expr.hpp:345`
    let a ← nonNull (← s.ptr r)
    match heapOf s.nodes a with
    | (.const _, cs) => .ok { s with nodes := s.nodes.set a (.const q, cs) }
    | _ => .undefined
  | .addOperand r x => do
    -- `src/compiler/lib/Expr.hpp:691-695`
    let a ← nonNull (← s.ptr r)
    match (heapOf s.nodes a).1 with
    | .comm op => do
      let b ← nonNull (← s.ptr x)
      let y ← cloneNode s.nodes b
      .ok { s with nodes := y.1.set a (.comm op, (heapOf y.1 a).2 ++ [y.2]) }
    | _ => .undefined

/-- A program: its calls in order. -/
def Ast.run (s : Ast π) : List (Call π) → Outcome (Ast π)
  | [] => .ok s
  | c :: cs => do
    let s ← s.step c
    s.run cs

/-- The heap with the equations after the other nodes, as `CseModel.lean` has it. -/
def Ast.full (s : Ast π) : Heap π := heapOf (s.nodes ++ s.eqs.map fun e => (.eqn, [e.rhs]))

/-- The numbers of the equations in that heap. -/
def Ast.eqnIds (s : Ast π) : List Nat := (List.range s.eqs.length).map (s.nodes.length + ·)

end
end Yask.Comp
