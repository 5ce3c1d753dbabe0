import Verif.Spec.ExprSpec
import Verif.Compiler.LoopDepModel

/-!
# Specification for accesses in the inner loop (C94)

The values of the args of a point, and so the element that it names, at given indices.
-/

namespace Yask.LoopDep
open Comp (NExpr IndexType)

/-- What does not change during the loops: the first and last indices of dims, functions, the text of code, which may
use the indices, and what is in the vars. -/
structure World where
  first : String → ℚ
  last : String → ℚ
  func : String → List ℚ → ℚ
  code : String → (String → ℚ) → ℚ
  mem : String → List ℚ → ℚ

/-- The meaning of expressions at indices `idx`, given the values of points. -/
def interp {π : Type} (w : World) (idx : String → ℚ) (pv : π → ℚ) : Interp π ℚ where
  const q := q
  code s := w.code s idx
  index d t := match t with | .first => w.first d | .last => w.last d | _ => idx d
  point := pv
  div a b := a / b
  mod := Comp.modVal
  func := w.func

/-- The value of a point: what its var has at the values of its args. -/
def ptVal (w : World) (idx : String → ℚ) : (n : Nat) → Pt n → ℚ
  | 0, p => nomatch p
  | n + 1, (v, args) => w.mem v (NExpr.vals (interp w idx (ptVal w idx n)) args)

/-- The value of an arg. -/
def argVal (w : World) (idx : String → ℚ) {n : Nat} (e : NExpr (Pt n)) : ℚ :=
  e.val (interp w idx (ptVal w idx n))

mutual
/-- The expression has a leaf of this kind; `pm` tells it of points. -/
def has {π : Type} (q : NExpr π → Prop) (pm : π → Prop) : NExpr π → Prop
  | .const c => q (.const c)
  | .code s => q (.code s)
  | .index d t => q (.index d t)
  | .point p => pm p
  | .neg a => has q pm a
  | .bin _ l r => has q pm l ∨ has q pm r
  | .comm _ ops => hasAny q pm ops
  | .func _ ops => hasAny q pm ops
/-- One of the expressions has it. -/
def hasAny {π : Type} (q : NExpr π → Prop) (pm : π → Prop) : List (NExpr π) → Prop
  | [] => False
  | a :: as => has q pm a ∨ hasAny q pm as
end

/-- The point mentions the index `d`, at any depth. -/
def ptMentions (d : String) : (n : Nat) → Pt n → Prop
  | 0, p => nomatch p
  | n + 1, (_, args) => hasAny (fun e => ∃ t, e = .index d t) (ptMentions d n) args

/-- The arg mentions the index `d`. -/
def Mentions (d : String) {n : Nat} (e : NExpr (Pt n)) : Prop :=
  has (fun e => ∃ t, e = .index d t) (ptMentions d n) e

/-- The point has code in it. -/
def ptCode : (n : Nat) → Pt n → Prop
  | 0, p => nomatch p
  | n + 1, (_, args) => hasAny (fun e => ∃ s, e = .code s) (ptCode n) args

/-- The arg has code in it; only the compiler itself makes such args. -/
def HasCode {n : Nat} (e : NExpr (Pt n)) : Prop := has (fun e => ∃ s, e = .code s) (ptCode n) e

/-- The indices are the same except in dims `ds`. -/
def SameBut (ds : List String) (i j : String → ℚ) : Prop := ∀ d, d ∉ ds → i d = j d

end Yask.LoopDep
