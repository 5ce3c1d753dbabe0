import Verif.Compiler.ExprModel

/-!
# Model of var points and of the checks of each equation

The constructor of `VarPoint` with `set_arg_offset` and `set_arg_const` (`src/compiler/lib/VarPoint.cpp:36-82,236-306`), the
foldability of vars (`Var.cpp:134-176`), the vectorization type of points (`Eqs.cpp:166-232`) and the first part of
`Eqs::analyze_eqs` (`Eqs.cpp:381-585`): the checks of each equation on its own. The order of the exceptions is kept only as far as
it decides between an exception and undefined behaviour. Messages are left out.
-/

namespace Yask.Comp

/-- What is used of a var: name, is it a scratch var, and its dims (`Var.hpp:45-72`). -/
structure EqVar where
  name : String
  scratch : Bool
  dims : List (String × IndexType)
deriving DecidableEq

/-- `VarPoint`: var, args, `_offsets`, `_consts` (`VarPoint.hpp:46-60`). -/
structure CPt (π : Type) where
  var : EqVar
  args : List (NExpr π)
  offsets : List (String × ℤ) := []
  consts : List (String × ℤ) := []

section
variable {π : Type} [DecidableEq π]

/-- `Tuple::add_dim_back` (`src/common/tuple.cpp:78-86`). -/
def setKey (l : List (String × ℤ)) (d : String) (v : ℤ) : List (String × ℤ) :=
  if l.any (fun e => decide (e.1 = d)) then l.map fun e => if e.1 = d then (d, v) else e else l ++ [(d, v)]

/-- `Tuple::remove_dim` (`src/common/tuple.hpp`, `tuple.cpp:270-280`). -/
def dropKey (l : List (String × ℤ)) (d : String) : List (String × ℤ) := l.filter fun e => decide (e.1 ≠ d)

/-- `set_arg_offset` (`VarPoint.cpp:236-278`). The negation of the least `int` is not modelled as undefined. -/
def CPt.setOffset (p : CPt π) (d : String) (k : ℤ) : CPt π :=
  match p.var.dims.findIdx? (fun g => decide (g.2 ≠ .misc) && decide (g.1 = d)) with
  | some i =>
    { p with
      args := p.args.set i (normOffset d ((p.var.dims[i]?.map Prod.snd).getD .domain) k)
      offsets := setKey p.offsets d k
      consts := dropKey p.consts d }
  | none => p

/-- `set_arg_const` (`VarPoint.cpp:281-306`). -/
def CPt.setConst (p : CPt π) (d : String) (c : ℤ) : CPt π :=
  match p.var.dims.findIdx? (fun g => decide (g.1 = d)) with
  | some i => { p with args := p.args.set i (.const c), consts := setKey p.consts d c, offsets := dropKey p.offsets d }
  | none => p

/-- One arg in the constructor (`VarPoint.cpp:52-79`). -/
def ctorArg (p : CPt π) (a : (String × IndexType) × NExpr π) : Outcome (CPt π) := do
  let k ← argKind a.1.1 a.2
  match k with
  | .const c => .ok (p.setConst a.1.1 c)
  | .offset o => .ok (p.setOffset a.1.1 o)
  | .other => .ok p

/-- The constructor of `VarPoint` (`VarPoint.cpp:36-82`). -/
def newPoint (v : EqVar) (args : List (NExpr π)) : Outcome (CPt π) :=
  if v.dims.length ≠ args.length then .throws
  else (v.dims.zip args).foldlM ctorArg { var := v, args := args }

/-- The dims of the solution used here: `_step_dim`, `_domain_dims`, `_fold_gt1`. -/
structure CDims where
  step : String
  domain : List String
  folded : List String

/-- `get_arg` (`VarPoint.cpp:83-90`). -/
def CPt.arg (p : CPt π) (d : String) : Option (NExpr π) := ((p.var.dims.zip p.args).find? fun a => decide (a.1.1 = d)).map Prod.snd

/-- `_num_foldable_dims` (`Var.cpp:139-157`). -/
def EqVar.numFoldable (D : CDims) (v : EqVar) : Nat :=
  (v.dims.filter fun g => decide (g.2 = .domain) && decide (g.1 ∈ D.folded)).length

/-- `_is_foldable` (`Var.cpp:164-175`). -/
def EqVar.foldable (D : CDims) (v : EqVar) : Bool :=
  v.dims.any (fun g => decide (g.2 = .domain)) && decide (v.numFoldable D = D.folded.length)

/-- Is the vectorization type of the point `VEC_FULL`? (`Eqs.cpp:196-235`) -/
def CPt.vecFull (D : CDims) (p : CPt π) : Bool :=
  if D.folded.length = 0 ∧ p.var.foldable D = true then true
  else if p.var.numFoldable D = 0 then false
  else decide ((D.folded.filter fun d => (p.offsets.lookup d).isSome).length = D.folded.length)

/-- An equation as the user writes it: vars with index expressions. -/
structure SrcEq (π : Type) where
  lhs : EqVar × List (NExpr π)
  rhs : List (EqVar × List (NExpr π))

/-- An equation with its points constructed. -/
structure CEq (π : Type) where
  lhs : CPt π
  rhs : List (CPt π)

/-- Misc index: a constant integer (`Eqs.cpp:455-465,571-580`). -/
def checkMisc (e : NExpr π) : Outcome Unit :=
  if e.isConst then do
    let _ ← e.intVal
    .ok ()
  else .throws

/-- One LHS arg (`Eqs.cpp:430-466`). -/
def checkLhsArg (D : CDims) (a : (String × IndexType) × NExpr π) : Outcome Unit :=
  if a.1.1 = D.step then .ok ()
  else if a.1.1 ∈ D.domain then
    if a.2.same (.index a.1.1 .domain) then .ok () else .throws
  else checkMisc a.2

/-- One RHS arg (`Eqs.cpp:544-581`). -/
def checkRhsArg (D : CDims) (offsets : List (String × ℤ)) (a : (String × IndexType) × NExpr π) : Outcome Unit :=
  if a.1.1 = D.step then
    if (offsets.lookup a.1.1).isSome then .ok () else .throws
  else if a.1.1 ∈ D.domain then
    if (offsets.lookup a.1.1).isSome then .ok () else .throws
  else checkMisc a.2

/-- Runs a check for each element. -/
def checkAll {α : Type} (f : α → Outcome Unit) : List α → Outcome Unit
  | [] => .ok ()
  | a :: l => do
    f a
    checkAll f l

/-- The check of one RHS point against the LHS step offset (`Eqs.cpp:494-524`); -11 as in the code. -/
def lateRead (D : CDims) (dir lofs : ℤ) (p : CPt π) : Bool :=
  match p.offsets.lookup D.step with
  | some rofs => (decide (dir = 1) && decide (rofs > lofs)) || (decide (dir = -11) && decide (rofs < lofs))
  | none => false

/-- The step direction (`Eqs.cpp:468-529`): the new `_step_dir`. -/
def checkDir (D : CDims) (dir : ℤ) (e : CEq π) : Outcome ℤ :=
  if e.lhs.var.scratch then .ok dir
  else match e.lhs.offsets.lookup D.step with
    | some lofs =>
      if lofs ≠ 1 ∧ lofs ≠ -1 then .throws
      else
        let dir1 := if dir = 0 ∧ lofs ≠ 0 then (if lofs > 0 then 1 else -1) else dir
        if lofs ≠ dir1 then .throws
        else if e.rhs.any (lateRead D dir1 lofs) then .throws
        else .ok dir1
    | none => .throws

/-- The checks of one equation (`Eqs.cpp:383-581`); the value is `_step_dir`. -/
def checkEq (D : CDims) (dir : ℤ) (e : CEq π) : Outcome ℤ :=
  if D.domain.any (fun d => (e.lhs.arg d).isNone) then .throws
  else if (e.lhs.arg D.step).isSome = e.lhs.var.scratch then .throws
  else do
    checkAll (checkLhsArg D) (e.lhs.var.dims.zip e.lhs.args)
    let dir1 ← checkDir D dir e
    if e.lhs.vecFull D then do
      checkAll (fun p => checkAll (checkRhsArg D p.offsets) (p.var.dims.zip p.args)) e.rhs
      .ok dir1
    else .throws

/-- Constructs all elements of a list. -/
def mapAll {α β : Type} (f : α → Outcome β) : List α → Outcome (List β)
  | [] => .ok []
  | a :: l => do
    let b ← f a
    let bs ← mapAll f l
    .ok (b :: bs)

/-- Constructs the points of an equation. -/
def newEq (e : SrcEq π) : Outcome (CEq π) := do
  let l ← newPoint e.lhs.1 e.lhs.2
  let r ← mapAll (fun p => newPoint p.1 p.2) e.rhs
  .ok ⟨l, r⟩

/-- All equations: the points are constructed, then the equations are checked one after the other, `_step_dir` being unset at
first (`Eqs.cpp:381-600`, `714-717`). -/
def checkEqs (D : CDims) (es : List (SrcEq π)) : Outcome (ℤ × List (CEq π)) := do
  let cs ← mapAll newEq es
  let dir ← cs.foldlM (checkEq D) (0 : ℤ)
  .ok (if dir = 0 then 1 else dir, cs)

end

end Yask.Comp
