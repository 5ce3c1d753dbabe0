import Verif.Compiler.ExprModel

/-!
# Model of the analysis of accesses in the inner loop

`FindIndicesVisitor` and `SetLoopVisitor` (`src/compiler/lib/Eqs.cpp:237-328`), sent by `analyze_loop()`
(`src/compiler/lib/Eqs.cpp:746-756`), and its use before the loops of the generated code, in
`CppPreLoopPrintDataVisitor` (`src/compiler/lib/Cpp.cpp:1271-1292`, `src/compiler/lib/YaskKernel.cpp:646-649`).

Simplifications.
* Args of points may again contain points, to any depth; `Pt n` are the points in which this depth is at most `n`.
* The sets of names are lists.
* Instead of the text of the generated code, the values that it has.
* `lookup_point_var` finds what was loaded for the same point (`src/compiler/lib/Cpp.cpp:1282-1288`).
-/

namespace Yask.LoopDep
open Comp (NExpr IndexType BinOp CommOp)

/-- Points with args of nesting at most `n`: the var and an arg for each of its dims. -/
def Pt : Nat → Type
  | 0 => Empty
  | n + 1 => String × List (NExpr (Pt n))

mutual
/-- The names that `FindIndicesVisitor` finds (`src/compiler/lib/Eqs.cpp:237-255`), by the traversal of `ExprVisitor`
(`src/compiler/lib/Visitor.hpp:46-100`); `pu` are the names found in a point. -/
def used {π : Type} (pu : π → List String) : NExpr π → List String
  | .const _ => []
  | .code _ => []
  | .index d _ => [d]
  | .point p => pu p
  | .neg a => used pu a
  | .bin _ l r => used pu l ++ used pu r
  | .comm _ ops => useds pu ops
  | .func _ ops => useds pu ops
/-- The loops over operands. -/
def useds {π : Type} (pu : π → List String) : List (NExpr π) → List String
  | [] => []
  | a :: as => used pu a ++ useds pu as
end

/-- The names found in a point: those in its args (`_visit_var_point_args`, `src/compiler/lib/Visitor.hpp:51-59`). -/
def ptUsed : (n : Nat) → Pt n → List String
  | 0, p => nomatch p
  | n + 1, (_, args) => useds (ptUsed n) args

/-- `VarDepType` (`src/compiler/lib/VarPoint.hpp:49-53`). -/
inductive Dep
  | invariant | dependent | offset | complex
  deriving DecidableEq

/-- The loop over args in `SetLoopVisitor::visit` (`src/compiler/lib/Eqs.cpp:286-324`): `dom` are the domain dims, `idim` the
inner-loop dim; args come with the dim of the var at their position. -/
def depLoop {n : Nat} (dom : List String) (idim : String) : Dep → List (String × NExpr (Pt n)) → Outcome Dep
  | lt, [] => .ok lt
  | lt, (g, arg) :: rest =>
    let u := used (ptUsed n) arg
    let lt := if lt = .invariant ∧ dom.any (fun d => decide (d ≠ idim) && u.contains d) then .dependent else lt
    if u.contains idim then
      if g = idim then do
        let o ← arg.offsetFrom idim
        match o with
        | some _ => depLoop dom idim .offset rest
        | none => .ok .complex
      else .ok .complex
    else depLoop dom idim lt rest

/-- `SetLoopVisitor::visit` (`src/compiler/lib/Eqs.cpp:271-327`). -/
def dep {n : Nat} (dom : List String) (idim : String) (args : List (String × NExpr (Pt n))) : Outcome Dep :=
  depLoop dom idim .invariant args

/-- What is loaded of a point before the loops, if anything (`src/compiler/lib/Cpp.cpp:1271-1292`): `now` is the value of the
point at this place. -/
def preload {n : Nat} {K : Type} (dom : List String) (idim : String) (args : List (String × NExpr (Pt n))) (now : K) :
    Option K :=
  match dep dom idim args with
  | .ok .invariant => some now
  | _ => none

/-- A read in the loops (`src/compiler/lib/Cpp.cpp:825-827`): what was loaded before, or else the value now. -/
def readInLoop {K : Type} (pre : Option K) (now : K) : K := pre.getD now

end Yask.LoopDep
