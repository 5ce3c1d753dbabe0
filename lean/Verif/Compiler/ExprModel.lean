import Mathlib.Data.Rat.Floor
import Verif.Common.Outcome

/-!
# Model of the expression nodes of the compiler

`NumExpr` and its subclasses (`src/compiler/lib/Expr.hpp:187-786`, `Expr.cpp:394-405`, `Expr.cpp:523-662`),
`set_arg_offset` (`VarPoint.cpp:233-275`), and the transformations of expressions: `CombineVisitor`,
`CseVisitor` (`ExprUtils.cpp:33-115`, `ExprUtils.hpp:60-134`), `ExprReorderVisitor` (`Vec.cpp:134-204`).

Simplifications: constants are rational numbers (a `double` in the code; no rounding, infinities and NaN, and no overflow in the conversion to `idx_t` by `%`).
Var points are compared by the string that describes them; here they are elements of a type with decidable
equality. The pairing of `sin` and `cos` does not change expressions and is left out.
-/

namespace Yask.Comp

/-- `IndexType` (`Expr.hpp:232-238`). -/
inductive IndexType
  | step | domain | misc | first | last
deriving DecidableEq

/-- Binary numerical operators (`Expr.hpp:539-548`). -/
inductive BinOp
  | sub | div | mod
deriving DecidableEq

/-- `op_str` of the binary operators. -/
def BinOp.str : BinOp → String
  | .sub => "-" | .div => "/" | .mod => "%"

/-- Commutative operators (`Expr.hpp:725-726`). -/
inductive CommOp
  | add | mult
deriving DecidableEq

/-- Numerical expression nodes. -/
inductive NExpr (π : Type)
  /-- `ConstExpr` -/
  | const (q : ℚ)
  /-- `CodeExpr` -/
  | code (s : String)
  /-- `IndexExpr` -/
  | index (dim : String) (ty : IndexType)
  /-- `VarPoint` -/
  | point (p : π)
  /-- `NegExpr` -/
  | neg (e : NExpr π)
  /-- `SubExpr`, `DivExpr`, `ModExpr` -/
  | bin (op : BinOp) (l r : NExpr π)
  /-- `AddExpr`, `MultExpr` -/
  | comm (op : CommOp) (ops : List (NExpr π))
  /-- `FuncExpr` -/
  | func (name : String) (ops : List (NExpr π))

section
variable {π : Type} [DecidableEq π]

/-- `op_str` of `NegExpr` (`Expr.hpp:425`). -/
def negStr : String := "-"

mutual
/-- `is_same` of the various classes (`Expr.hpp:277-280`, `336-339`, `370-373`, `404-408`, `488-493`,
`Expr.cpp:524-571`, `VarPoint.hpp:151-156`). `UnaryExpr::is_same` casts the other expression to `UnaryExpr`,
from which `BinaryExpr` is derived, so the cast succeeds for binary operators too. -/
def NExpr.same : NExpr π → NExpr π → Bool
  | .const a, e => match e with | .const b => decide (a = b) | _ => false
  | .code a, e => match e with | .code b => decide (a = b) | _ => false
  | .index d t, e => match e with | .index d' t' => decide (d = d') && decide (t = t') | _ => false
  | .point p, e => match e with | .point q => decide (p = q) | _ => false
  | .neg a, e => match e with
    | .neg b => a.same b
    | .bin op _ r => decide (negStr = op.str) && a.same r
    | _ => false
  | .bin op l r, e => match e with
    | .bin op' l' r' => decide (op.str = op'.str) && (l.same l' && r.same r')
    | _ => false
  | .comm op as, e => match e with
    | .comm op' bs => decide (op = op') && (decide (as.length = bs.length) && NExpr.matchOps as bs)
    | _ => false
  | .func f as, e => match e with
    | .func g bs => decide (f = g) && (decide (as.length = bs.length) && NExpr.sameOps as bs)
    | _ => false
/-- The nested loops of `CommutativeExpr::is_same` (`Expr.cpp:531-557`). Instead of keeping the indices of the
operands that are already matched, these operands are removed. -/
def NExpr.matchOps : List (NExpr π) → List (NExpr π) → Bool
  | [], _ => true
  | a :: as, bs => match bs.findIdx? (fun b => a.same b) with
    | some i => NExpr.matchOps as (bs.eraseIdx i)
    | none => false
/-- The loop of `FuncExpr::is_same` (`Expr.cpp:566-569`). -/
def NExpr.sameOps : List (NExpr π) → List (NExpr π) → Bool
  | a :: as, bs => match bs with
    | b :: bs => a.same b && NExpr.sameOps as bs
    | [] => false
  | [], _ => true
end

mutual
/-- `is_const_val` (`Expr.hpp:195-197`, `330`, `426-428`, `524-527`, `673-679`, `765-771`). -/
def NExpr.isConst : NExpr π → Bool
  | .const _ => true
  | .neg a => a.isConst
  | .bin _ l r => l.isConst && r.isConst
  | .comm _ ops => NExpr.allConst ops
  | .func _ ops => NExpr.allConst ops
  | _ => false
/-- The loops of `is_const_val`. -/
def NExpr.allConst : List (NExpr π) → Bool
  | [] => true
  | a :: as => a.isConst && NExpr.allConst as
end

/-- Conversion of a floating-point number to an integer: rounds towards zero. -/
def trunc (q : ℚ) : ℤ := if 0 ≤ q then ⌊q⌋ else ⌈q⌉

/-- `ModExpr` of two numbers (`Expr.hpp:548`): `imod_flr` of the truncated numbers. -/
def modVal (a b : ℚ) : ℚ := ((trunc a).fmod (trunc b) : ℤ)

mutual
/-- `get_num_val` (`Expr.hpp:201-204`, `331`, `429-432`, `528-532`, `712-720`; not defined for functions).
Division by zero is counted as undefined: infinity or NaN, which cannot be converted to an integer. -/
def NExpr.numVal : NExpr π → Outcome ℚ
  | .const q => .ok q
  | .neg a => do
    let x ← a.numVal
    .ok (-x)
  | .bin op l r => do
    let x ← l.numVal
    let y ← r.numVal
    match op with
    | .sub => .ok (x - y)
    | .div => if y = 0 then .undefined else .ok (x / y)
    | .mod => if trunc y = 0 then .undefined else .ok (modVal x y)
  | .comm op ops => NExpr.foldVal op ops (match op with | .add => 0 | .mult => 1)
  | _ => .throws
/-- The loop of `get_num_val` of commutative operators. -/
def NExpr.foldVal (op : CommOp) : List (NExpr π) → ℚ → Outcome ℚ
  | [], v => .ok v
  | a :: as, v => do
    let x ← a.numVal
    NExpr.foldVal op as (match op with | .add => v + x | .mult => v * x)
end

/-- The range of `int`. -/
def isInt (i : ℤ) : Bool := decide (-2147483648 ≤ i) && decide (i ≤ 2147483647)

/-- A result of the type `int`; overflow is undefined. -/
def toInt (i : ℤ) : Outcome ℤ := if isInt i then .ok i else .undefined

/-- `get_int_val` (`Expr.hpp:208-216`). Converting a number out of range to `int` is undefined. -/
def NExpr.intVal (e : NExpr π) : Outcome ℤ := do
  let v ← e.numVal
  let i ← toInt (trunc v)
  if v ≠ (i : ℚ) then .throws else .ok i

mutual
/-- `is_offset_from` (`Expr.hpp:221-223`, `Expr.cpp:597-662`). The result is the offset if it returns `true`. -/
def NExpr.offsetFrom (dim : String) : NExpr π → Outcome (Option ℤ)
  | .index d ty =>
    .ok (if (decide (ty = .domain) || decide (ty = .step)) && decide (d = dim) then some 0 else none)
  | .bin .sub l r => do
    let o ← l.offsetFrom dim
    match o with
    | some tmp =>
      if r.isConst then do
        let i ← r.intVal
        let o ← toInt (tmp - i)
        .ok (some o)
      else .ok none
    | none => .ok none
  | .comm .add ops => NExpr.addOffset dim ops 0 0 0
  | _ => .ok none
/-- The loop of `AddExpr::is_offset_from` (`Expr.cpp:638-661`). -/
def NExpr.addOffset (dim : String) : List (NExpr π) → (sum : ℤ) → (num : Nat) → (tmp : ℤ) → Outcome (Option ℤ)
  | [], sum, num, tmp =>
    if num = 1 then do
      let o ← toInt (tmp + sum)
      .ok (some o)
    else .ok none
  | a :: as, sum, num, tmp => do
    let o ← a.offsetFrom dim
    match o with
    | some t => NExpr.addOffset dim as sum (num + 1) t
    | none =>
      if a.isConst then do
        let i ← a.intVal
        let s ← toInt (sum + i)
        NExpr.addOffset dim as s num tmp
      else .ok none
end

/-- The arg that `set_arg_offset` makes (`VarPoint.cpp:247-261`). -/
def normOffset (dim : String) (ty : IndexType) (ofs : ℤ) : NExpr π :=
  if ofs > 0 then .comm .add [.index dim ty, .const ofs]
  else if ofs < 0 then .bin .sub (.index dim ty) (.const (-ofs))
  else .index dim ty

/-- What the constructor of `VarPoint` finds out about an arg (`VarPoint.cpp:65-80`). -/
inductive ArgKind
  | const (i : ℤ) | offset (i : ℤ) | other
deriving DecidableEq

/-- The analysis of an arg in the constructor of `VarPoint` (`VarPoint.cpp:52-82`). -/
def argKind (dim : String) (e : NExpr π) : Outcome ArgKind :=
  if e.isConst then do
    let i ← e.intVal
    .ok (.const i)
  else do
    let o ← e.offsetFrom dim
    match o with
    | some i => .ok (.offset i)
    | none => .ok .other

/-- Is the expression a commutative one with this operator? Its operands. -/
def commOps (op : CommOp) : NExpr π → Option (List (NExpr π))
  | .comm op' ops => if op = op' then some ops else none
  | _ => none

/-- One round of the loop of `CombineVisitor` (`ExprUtils.cpp:44-65`): the first operand with the same operator
is erased and its operands are appended. -/
def combineOnce (op : CommOp) : List (NExpr π) → Option (List (NExpr π))
  | [] => none
  | a :: as => match commOps op a with
    | some bs => some (as ++ bs)
    | none => (combineOnce op as).map (a :: ·)

/-- The loop of `CombineVisitor`; the number of rounds is limited here, running out of them is `undefined`. -/
def combineLoop (op : CommOp) : Nat → List (NExpr π) → Outcome (List (NExpr π))
  | 0, _ => .undefined
  | n + 1, ops => match combineOnce op ops with
    | some ops' => combineLoop op n ops'
    | none => .ok ops

mutual
/-- Number of nodes. -/
def NExpr.size : NExpr π → Nat
  | .neg a => a.size + 1
  | .bin _ l r => l.size + r.size + 1
  | .comm _ ops => NExpr.sizes ops + 1
  | .func _ ops => NExpr.sizes ops + 1
  | _ => 1
/-- Number of nodes of several expressions. -/
def NExpr.sizes : List (NExpr π) → Nat
  | [] => 0
  | a :: as => a.size + NExpr.sizes as
end

mutual
/-- `CombineVisitor` (`ExprUtils.cpp:33-67`): operands first. -/
def NExpr.combine : NExpr π → Outcome (NExpr π)
  | .neg a => do
    let a' ← a.combine
    .ok (.neg a')
  | .bin op l r => do
    let l' ← l.combine
    let r' ← r.combine
    .ok (.bin op l' r')
  | .comm op ops => do
    let ops' ← NExpr.combines ops
    let ops'' ← combineLoop op (NExpr.sizes ops' + 1) ops'
    .ok (.comm op ops'')
  | .func f ops => do
    let ops' ← NExpr.combines ops
    .ok (.func f ops')
  | .const q => .ok (.const q)
  | .code s => .ok (.code s)
  | .index d t => .ok (.index d t)
  | .point p => .ok (.point p)
/-- `CombineVisitor` on a list of operands. -/
def NExpr.combines : List (NExpr π) → Outcome (List (NExpr π))
  | [] => .ok []
  | a :: as => do
    let a' ← a.combine
    let as' ← NExpr.combines as
    .ok (a' :: as')
end

/-- `new_add_node`, `new_multiply_node` of two non-null nodes (`Expr.cpp:107-141`), with `merge_expr`
(`Expr.hpp:646-655`). -/
def mergeNode (op : CommOp) (l r : NExpr π) : NExpr π :=
  .comm op (((commOps op l).getD [l]) ++ ((commOps op r).getD [r]))

/-- Number of elements of `need` that are not in `have_` (`Vec.cpp:166-180`). -/
def newVecs {ρ : Type} [DecidableEq ρ] (need have_ : List ρ) : Nat := (need.filter fun v => v ∉ have_).length

/-- The index of the cheapest unused operand (`Vec.cpp:154-195`): the first one with the least cost. -/
def cheapest {ρ : Type} [DecidableEq ρ] (need : NExpr π → List ρ) (ops : List (NExpr π)) (used : List Nat)
    (have_ : List ρ) : Option (Nat × Nat) :=
  (List.range ops.length).foldl (fun best j =>
    if j ∈ used then best
    else match ops[j]? with
      | none => best
      | some e =>
        let cost := newVecs (need e) have_
        match best with
        | none => some (j, cost)
        | some (_, c) => if cost < c then some (j, cost) else best) none

/-- One round of the loop of `ExprReorderVisitor::visit` (`Vec.cpp:148-200`): new operands, used operands,
vectors read so far. -/
def reorderStep {ρ : Type} [DecidableEq ρ] (need : NExpr π → List ρ) (ops : List (NExpr π))
    (s : List (NExpr π) × List Nat × List ρ) : Outcome (List (NExpr π) × List Nat × List ρ) :=
  match cheapest need ops s.2.1 s.2.2 with
  | none => .undefined
  | some (j, _) => match ops[j]? with
    | none => .undefined
    | some e => .ok (s.1 ++ [e], j :: s.2.1, need e ++ s.2.2)

/-- `ExprReorderVisitor::visit` (`Vec.cpp:134-204`). `need`: the aligned vectors an expression needs. -/
def reorder {ρ : Type} [DecidableEq ρ] (need : NExpr π → List ρ) (ops : List (NExpr π)) :
    Outcome (List (NExpr π)) := do
  let r ← (List.range ops.length).foldlM (fun s _ => reorderStep need ops s) ([], [], [])
  .ok r.1

end

end Yask.Comp
