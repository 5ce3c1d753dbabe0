import Verif.Compiler.PrintModel
import Verif.Spec.CondSpec

/-!
# Model of the code generated for the conditions of equations

The functions `is_in_valid_domain`, `is_in_valid_step` and `get_output_step_index` of a part (`src/compiler/lib/YaskKernel.cpp:471-484`,
`500-525`, `543-560`), whose expressions are printed by `PrintVisitorTopDown` (`Print.cpp:61-137`): with the default `PrintHelper`
(`Expr::make_str`, `Expr.cpp:664-680`) for sub-domains and output steps, with `CppPrintHelper` for step conditions.

Simplifications.
* The generated function is the text of its `return` statement and the values of the local variables that are declared before it.
* The call that reads a point of a var in a step condition (`make_point_call`, `Cpp.cpp:57-79`) is one piece of text with the value of the
  point.
* Constants are rational numbers. There are no functions of numbers and no code nodes.
-/

namespace Yask.Comp
open Spec.Cpp (Op)
open Spec.Cond

section
variable {π : Type}

/-- Value of the text of a positive number with one digit before and `n` digits after the point. -/
def decN (n : Nat) (q : ℚ) : ℚ := nearestEven (q / (10 : ℚ) ^ (Int.log 10 q - n)) * (10 : ℚ) ^ (Int.log 10 q - n)

/-- Value of `to_string` of a `double`: 6 digits after the point. -/
def fixed6 (q : ℚ) : ℚ := nearestEven (q * 10 ^ 6) / 10 ^ 6

/-- Text of a number given the value of the text of its absolute value. -/
def signed (q d : ℚ) : List (Piece π) := if q < 0 then [.op (.ar .sub), .realLit d] else [.realLit d]

/-- `PrintHelper::add_const_expr` (`Print.hpp:132-147`) and `CppPrintHelper::format_real` (`Cpp.cpp:39-53`). The conversion `int(v)` is
undefined if the truncated value is not in the range of `int`. -/
def condConst (dom : Bool) (q : ℚ) : Outcome (List (Piece π)) :=
  if -(2 ^ 31) ≤ trunc q ∧ trunc q < 2 ^ 31 then
    .ok (if (trunc q : ℚ) = q then
        (if q < 0 then [.op (.ar .sub), .intLit (trunc q).natAbs] else [.intLit (trunc q).natAbs])
      else if dom then
        (if q < 1 / 10 ^ 4 ∨ 10 ^ 5 ≤ q then signed q (decN 6 |q|) else [.realLit (fixed6 q)])
      else signed q (decN 15 |q|))
  else .undefined

/-- An operator between blanks. -/
def condOp (o : BOp) : List (Piece π) := [.blank, .op o, .blank]

/-- Operands with an operator between them. -/
def condJoin (o : BOp) : List (List (Piece π)) → List (Piece π)
  | [] => []
  | [t] => t
  | t :: ts => t ++ condOp o ++ condJoin o ts

mutual
/-- `PrintVisitorTopDown` on numbers (`Print.cpp:61-89`, `100-105`, `120-134`). The macros `FIRST_INDEX` and `LAST_INDEX`
(`Expr.hpp:257-268`) are replaced by their definitions (`yask_stencil.hpp:64-65`). A point of a var in a condition of a sub-domain is printed by its
name, which is not declared in the generated code. -/
def numText (dom : Bool) : Num π → Outcome (List (Piece π))
  | .const q => condConst dom q
  | .idx d => .ok [.word d]
  | .first _ => .ok [.lpar, .intLit 0, .rpar]
  | .last d => .ok ([.lpar, .size d] ++ condOp (.ar .sub) ++ [.intLit 1, .rpar])
  | .read p => .ok [if dom then .unknown else .read p]
  | .neg a => do
    let t ← numText dom a
    .ok (.op (.ar .sub) :: t)
  | .bin op l r => do
    let x ← numText dom l
    let y ← numText dom r
    .ok (.lpar :: (x ++ condOp (.ar op) ++ y ++ [.rpar]))
  | .comm op as => do
    let ts ← numTexts dom as
    .ok (.lpar :: (condJoin (.ar op) ts ++ [.rpar]))
/-- The loop over operands (`Print.cpp:126-131`). -/
def numTexts (dom : Bool) : List (Num π) → Outcome (List (List (Piece π)))
  | [] => .ok []
  | a :: as => do
    let x ← numText dom a
    let y ← numTexts dom as
    .ok (x :: y)
end

/-- `PrintVisitorTopDown` on conditions (`Print.cpp:90-97`, `106-117`), operators of `Expr.hpp:571-609`. -/
def condText (dom : Bool) : Cd π → Outcome (List (Piece π))
  | .cmp o l r => do
    let x ← numText dom l
    let y ← numText dom r
    .ok (.lpar :: (x ++ condOp (.cmp o) ++ y ++ [.rpar]))
  | .not a => do
    let t ← condText dom a
    .ok (.bang :: t)
  | .and a b => do
    let x ← condText dom a
    let y ← condText dom b
    .ok (.lpar :: (x ++ condOp .and ++ y ++ [.rpar]))
  | .or a b => do
    let x ← condText dom a
    let y ← condText dom b
    .ok (.lpar :: (x ++ condOp .or ++ y ++ [.rpar]))

/-- The generated function `is_in_valid_domain` (`YaskKernel.cpp:471-484`): all indices of the stencil dimensions are local variables
(`print_indices`, `33-61`); `nd` is their number. -/
def inValidDomain (rnd : ℚ → ℚ) (nd : Nat) (size : Nat → Int) (data : π → ℚ) (c : Option (Cd π)) (idxs : Nat → Int) : Outcome Bool :=
  match c with
  | none => .ok true
  | some c => do
    let t ← condText true c
    let v ← textVal rnd ⟨fun d => if d < nd then some (idxs d) else none, size, data⟩ t
    .ok v.truth

/-- The generated function `is_in_valid_step` (`YaskKernel.cpp:500-525`): only the step index is a local variable. -/
def inValidStep (rnd : ℚ → ℚ) (sd : Nat) (size : Nat → Int) (data : π → ℚ) (c : Option (Cd π)) (t : Int) : Outcome Bool :=
  match c with
  | none => .ok true
  | some c => do
    let x ← condText false c
    let v ← textVal rnd ⟨fun d => if d = sd then some t else none, size, data⟩ x
    .ok v.truth

/-- The sizes of the overall problem are not declared in `get_output_step_index`, which has no parameter `core_data`
(`YaskKernel.cpp:548-549`). -/
def noSizes : Piece π → Piece π
  | .size _ => .unknown
  | p => p

/-- The generated function `get_output_step_index` (`YaskKernel.cpp:543-560`): the result is converted to `long`; none if the function
returns `false`. -/
def outputStep (rnd : ℚ → ℚ) (sd : Nat) (e : Option (Num π)) (t : Int) : Outcome (Option Int) :=
  match e with
  | none => .ok none
  | some e => do
    let x ← numText true e
    let v ← textVal rnd ⟨fun d => if d = sd then some t else none, fun _ => 0, fun _ => 0⟩ (x.map noSizes)
    match v with
    | .int _ n => .ok (some n)
    | .real q => if Spec.Cpp.InRange true (trunc q) then .ok (some (trunc q)) else .undefined
    | .bool b => .ok (some (if b then 1 else 0))

end
end Yask.Comp
