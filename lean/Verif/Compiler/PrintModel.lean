import Mathlib.Data.Int.Log
import Verif.Compiler.ExprModel
import Verif.Spec.CppSpec

/-!
# Model of the printing of equations

`PrintVisitorTopDown` and `PrintVisitorBottomUp` (`src/compiler/lib/Print.cpp:35-470`) with the naming of temporaries
(`Print.hpp:80-97`), and `CppPrintHelper::format_real` (`Cpp.cpp:39-53`).

Simplifications.
* Reading a point (`CppVecPrintHelper::read_from_point`, `Cpp.cpp:821-892`) is one statement that declares a variable, which is used
  again when the point is read again (`_vec_vars`); the several ways to load it are not modelled here.
* Writing a point (`write_to_point`, `Cpp.cpp:897-909`) is one statement.
* How often a node is shared (`CounterVisitor`, `ExprUtils.hpp:200-335`) and the number of nodes of an expression
  (`_get_num_nodes`, `Expr.cpp:683-690`) are arbitrary functions of the node.
* Constants are rational numbers. There are no index, boolean and code nodes, and no comments.
-/

namespace Yask.Comp
open Spec.Cpp

/-- Settings and counts: `get_count`, `_get_num_nodes`, `_max_expr_size`, `_min_expr_size`. -/
structure PrintOpts where
  count : Nat → Nat
  size : Nat → Nat
  maxSize : Nat
  minSize : Nat

/-- `get_num_common` (`Print.hpp:87-92`). -/
def PrintOpts.common (o : PrintOpts) (i : Nat) : Nat := if o.count i ≤ 1 then 0 else o.count i - 1

/-- State of printing: the next number of a name (`_var_num`), variables of nodes (`_temp_vars`), variables of points
(`_vec_vars`), and the statements written so far (`_os`). -/
structure PState (π : Type) where
  num : Nat
  temps : List (Nat × Name)
  pts : List (π × Name)
  out : List (Stmt π)

/-- The nearest integer, to even if there are two. -/
def nearestEven (q : ℚ) : ℤ :=
  let d := q - ⌊q⌋
  if d < 1 / 2 then ⌊q⌋ else if 1 / 2 < d then ⌊q⌋ + 1 else if ⌊q⌋ % 2 = 0 then ⌊q⌋ else ⌊q⌋ + 1

/-- Value of the text that a stream writes for a positive number with `setprecision(15) << scientific`: one digit before and 15
digits after the point. -/
def dec16 (q : ℚ) : ℚ := nearestEven (q / (10 : ℚ) ^ (Int.log 10 q - 15)) * (10 : ℚ) ^ (Int.log 10 q - 15)

/-- `to_string` of an `int`. -/
def intText (n : ℤ) : List Piece := if n < 0 then [.sym .minus, .intLit n.natAbs] else [.intLit n.natAbs]

/-- Text written by the stream. -/
def realText (q : ℚ) : List Piece := if q < 0 then [.sym .minus, .realLit (dec16 (-q))] else [.realLit (dec16 q)]

/-- `format_real` (`Cpp.cpp:39-53`). The conversion `int(v)` is undefined if the truncated value is not in the range of `int`. -/
def constText (q : ℚ) : Outcome (List Piece) :=
  if -(2 ^ 31) ≤ trunc q ∧ trunc q < 2 ^ 31 then
    .ok (if (trunc q : ℚ) = q then intText (trunc q) else realText q)
  else .undefined

/-- Texts with a separator. -/
def joinText (sep : List Piece) : List (List Piece) → List Piece
  | [] => []
  | [t] => t
  | t :: ts => t ++ sep ++ joinText sep ts

/-- `get_op_str` (`Expr.hpp:539-548`, `725-726`). -/
def opSym : Op → Sym
  | .add => .plus | .sub => .minus | .mul => .star | .div => .slash | .mod => .percent

/-- Operator between blanks. -/
def opText (op : Op) : List Piece := [.blank, .sym (opSym op), .blank]

section
variable {π : Type} [DecidableEq π]

/-- `read_from_point` (`Cpp.cpp:821-892`), `make_var_name` (`Print.hpp:95-97`). -/
def PState.readPt (s : PState π) (p : π) : Name × PState π :=
  match s.pts.lookup p with
  | some x => (x, s)
  | none =>
    let x : Name := ⟨"vec", s.num⟩
    (x, { s with num := s.num + 1, pts := (p, x) :: s.pts, out := s.out ++ [.load x p] })

/-- `make_next_temp_var` (`Print.cpp:41-55`) with the rest of the statement. -/
def PState.newTemp (s : PState π) (pre : String) (key : Option Nat) (t : List Piece) : Name × PState π :=
  let x : Name := ⟨pre, s.num⟩
  (x, { s with
    num := s.num + 1
    temps := match key with
      | some i => (i, x) :: s.temps
      | none => s.temps
    out := s.out ++ [.decl x t] })

mutual
/-- `PrintVisitorTopDown` (`Print.cpp:59-154`): text, number of shared nodes, state. -/
def topDown (o : PrintOpts) : Ex π → PState π → Outcome (List Piece × Nat × PState π)
  | .const i q, s => do
    let t ← constText q
    .ok (t, o.common i, s)
  | .read i p, s => .ok ([.word (s.readPt p).1], o.common i, (s.readPt p).2)
  | .neg i a, s => do
    let r ← topDown o a s
    .ok (.sym .minus :: r.1, o.common i + r.2.1, r.2.2)
  | .bin i op l r, s => do
    let x ← topDown o l s
    let y ← topDown o r x.2.2
    .ok (.sym .lpar :: (x.1 ++ opText op ++ y.1 ++ [.sym .rpar]), o.common i + x.2.1 + y.2.1, y.2.2)
  | .comm i op as, s => do
    let r ← topDowns o as s
    .ok (.sym .lpar :: (joinText (opText op) r.1 ++ [.sym .rpar]), o.common i + r.2.1, r.2.2)
  | .func i f pr as, s => do
    let r ← topDowns o as s
    .ok (.fn f :: .sym .lpar :: (joinText [.sym .comma, .blank] r.1 ++ [.sym .rpar]),
      o.common i + (if pr.isSome then 1 else 0) + r.2.1, r.2.2)
/-- The loops over operands (`Print.cpp:126-131`, `147-152`). -/
def topDowns (o : PrintOpts) : List (Ex π) → PState π → Outcome (List (List Piece) × Nat × PState π)
  | [], s => .ok ([], 0, s)
  | a :: as, s => do
    let x ← topDown o a s
    let y ← topDowns o as x.2.2
    .ok (x.1 :: y.1, x.2.1 + y.2.1, y.2.2)
end

/-- `try_simple_print` (`Print.cpp:193-243`). -/
def trySimple (o : PrintOpts) (force : Bool) (e : Ex π) (s : PState π) : Outcome (Option (List Piece) × PState π) :=
  match s.temps.lookup e.id with
  | some x => .ok (some [.word x], s)
  | none =>
    if force || decide (o.size e.id ≤ o.maxSize) then do
      let r ← topDown o e s
      if r.2.1 = 0 then .ok (some r.1, r.2.2)
      else if force then
        if o.size e.id < o.minSize then .ok (some r.1, r.2.2)
        else
          let y := r.2.2.newTemp "expr" (some e.id) r.1
          .ok (some [.word y.1], y.2)
      else .ok (none, r.2.2)
    else .ok (none, s)

mutual
/-- `PrintVisitorBottomUp` (`Print.cpp:245-432`): text and state. -/
def bottomUp (o : PrintOpts) : Ex π → PState π → Outcome (List Piece × PState π)
  | .const i q, s => do
    let r ← trySimple o true (.const i q) s
    .ok (r.1.getD [], r.2)
  | .read i p, s => do
    let r ← trySimple o true (.read i p) s
    .ok (r.1.getD [], r.2)
  | .neg i a, s => do
    let r ← trySimple o false (.neg i a) s
    match r.1 with
    | some t => .ok (t, r.2)
    | none => do
      let x ← bottomUp o a r.2
      let y := x.2.newTemp "expr" (some i) (.sym .minus :: x.1)
      .ok ([.word y.1], y.2)
  | .bin i op l r, s => do
    let q ← trySimple o false (.bin i op l r) s
    match q.1 with
    | some t => .ok (t, q.2)
    | none => do
      let x ← bottomUp o l q.2
      let y ← bottomUp o r x.2
      let z := y.2.newTemp "expr" (some i) (x.1 ++ opText op ++ y.1)
      .ok ([.word z.1], z.2)
  | .comm i op as, s => do
    let q ← trySimple o false (.comm i op as) s
    match q.1 with
    | some t => .ok (t, q.2)
    | none => match as with
      | [] => .ok ([], q.2)
      | a :: as => do
        let x ← bottomUp o a q.2
        bottomComm o op i x.1 as x.2
  | .func i f (some (j, g)) as, s =>
    match s.temps.lookup i with
    | some x => .ok ([.word x], s)
    | none => do
      let r ← bottomUps o as s
      let x := r.2.newTemp "arg0" (some i) [.intLit 0]
      let y := x.2.newTemp "arg1" (some j) [.intLit 0]
      .ok ([.word x.1], { y.2 with out := y.2.out ++ [.pair f g x.1 y.1 r.1] })
  | .func i f none as, s => do
    let q ← trySimple o false (.func i f none as) s
    match q.1 with
    | some t => .ok (t, q.2)
    | none => do
      let r ← bottomUps o as q.2
      let x := r.2.newTemp "res" (some i) (.fn f :: .sym .lpar :: (joinText [.sym .comma, .blank] r.1 ++ [.sym .rpar]))
      .ok ([.word x.1], x.2)
/-- The loops over arguments (`Print.cpp:343-347`, `368-374`). -/
def bottomUps (o : PrintOpts) : List (Ex π) → PState π → Outcome (List (List Piece) × PState π)
  | [], s => .ok ([], s)
  | a :: as, s => do
    let x ← bottomUp o a s
    let y ← bottomUps o as x.2
    .ok (x.1 :: y.1, y.2)
/-- The second and later passes of the loop over operands (`Print.cpp:401-430`). -/
def bottomComm (o : PrintOpts) (op : Op) (i : Nat) : List Piece → List (Ex π) → PState π → Outcome (List Piece × PState π)
  | lhs, [], s => .ok (lhs, s)
  | lhs, a :: as, s => do
    let x ← bottomUp o a s
    let y := x.2.newTemp "expr" (if as.isEmpty then some i else none) (lhs ++ opText op ++ x.1)
    bottomComm o op i [.word y.1] as y.2
end

/-- One equation (`Print.cpp:435-468`). -/
def printEq (o : PrintOpts) (e : π × Ex π) (s : PState π) : Outcome (PState π) := do
  let x ← bottomUp o e.2 s
  let y := x.2.newTemp "expr" (some e.2.id) x.1
  .ok { y.2 with out := y.2.out ++ [.store e.1 y.1] }

/-- The equations of a part (`visit_eqs`, `YaskKernel.cpp:555-559`, `704-706`). -/
def printEqs (o : PrintOpts) : List (π × Ex π) → PState π → Outcome (PState π)
  | [], s => .ok s
  | e :: es, s => do
    let s' ← printEq o e s
    printEqs o es s'

/-- The code of a part. -/
def printPart (o : PrintOpts) (es : List (π × Ex π)) : Outcome (List (Stmt π)) := do
  let s ← printEqs o es ⟨1, [], [], []⟩
  .ok s.out

end
end Yask.Comp
