import Verif.Compiler.DepsModel

/-!
# Model of the division of the equations into parts and stages

`Eqs::analyze_eqs` (only what concerns dependences), `Parts::add_eq_to_part`, `Parts::make_parts`,
`Stages::add_parts_to_stage`, `Stages::make_stages` (`src/compiler/lib/Eqs.cpp`).

Simplifications.  An equation is an abstract object with the attributes the analysis looks at.  Names, indices,
messages and the lists of input and output vars are left out.  The list of equations that a stage keeps beside
its list of parts is left out, too (taking a part with more than one equation out of a stage erases past the
end of that list, `C42_add_remove_two_undefined`).
-/

namespace Yask.Comp

/-- The equations and the attributes the analysis uses. `ε`: equations, `Λ`: logical vars, `κ`: conditions and
step expression, `ν`: vars. -/
structure EqSys (ε Λ κ ν : Type) where
  /-- `get_all()`: the equations in the order of their definition -/
  eqs : List ε
  /-- `find_var_slice` of the LHS: var name with step and misc indices (`VarPoint.cpp:121-144`) -/
  lhs : ε → Λ
  /-- the same for every point read on the RHS (`Eqs.cpp:147`) -/
  rhs : ε → List Λ
  /-- the var on the LHS -/
  var : ε → ν
  /-- `is_scratch()` of the var on the LHS -/
  scr : ε → Bool
  /-- `LogicalVar::is_scratch` -/
  lvScr : Λ → Bool
  /-- domain condition, step condition, LHS step expression; equal if `are_exprs_same` -/
  key : ε → κ
  /-- same LHS, and the conditions do not allow that (`Eqs.cpp:639-681`) -/
  clash : ε → ε → Bool
  /-- scratch vars with the same dims and, unless `_bundle_scratch`, the same halo (`Eqs.cpp:1056-1065`) -/
  compat : ε → ε → Bool
  /-- the name of the var on the LHS matches the regex (`Eqs.cpp:1189-1200`) -/
  wanted : ε → Bool
  /-- `settings._find_deps` -/
  findDeps : Bool
  /-- `settings._bundle` -/
  bundle : Bool
  /-- calls of `add_flow_dependency(from, to)` (`Solution.hpp:206-213`) -/
  user : List (ε × ε)

section
variable {ε Λ κ ν : Type} [DecidableEq ε] [DecidableEq Λ] [DecidableEq κ] [DecidableEq ν]

/-- Dependences between logical vars (`Eqs.cpp:587-604`, part of the loop of `Eqs.cpp:383-600`). The other
checks of that loop do not concern dependences. -/
def EqSys.lvGroup (S : EqSys ε Λ κ ν) (ord : List Λ → List Λ) : Outcome (DepGroup Λ) := do
  let g ← S.eqs.foldlM (fun (g : DepGroup Λ) e => do
    let g1 ← (S.rhs e).foldlM (fun (g : DepGroup Λ) r => (g.addItem r).setImm S.lvScr (S.lhs e) r)
      (g.addItem (S.lhs e))
    g1.findAll ord) {}
  g.topoSort ord

/-- The equations as a group, with the dependences the user added (`Solution.hpp:206-213`). -/
def EqSys.userGroup (S : EqSys ε Λ κ ν) : Outcome (DepGroup ε) :=
  S.user.foldlM (fun (g : DepGroup ε) p => g.setImm S.scr p.1 p.2) { all := S.eqs }

/-- One pair of equations (`Eqs.cpp:623-706`). -/
def EqSys.eqStep (S : EqSys ε Λ κ ν) (lv : DepGroup Λ) (e1 : ε) (g : DepGroup ε) (e2 : ε) :
    Outcome (DepGroup ε) :=
  if e1 = e2 then .ok g
  else if S.clash e1 e2 then .throws
  else if !S.findDeps then .ok g
  else if lv.deps.isDepOn (S.lhs e2) (S.lhs e1) then g.setImm S.scr e2 e1
  else .ok g

/-- Second part of `analyze_eqs` (`Eqs.cpp:607-713`): each pair of equations. -/
def EqSys.eqGroup (S : EqSys ε Λ κ ν) (lv : DepGroup Λ) (g : DepGroup ε) (ord : List ε → List ε) :
    Outcome (DepGroup ε) :=
  S.eqs.foldlM (fun (g : DepGroup ε) e1 => do
    let g1 ← S.eqs.foldlM (S.eqStep lv e1) g
    g1.findAll ord) g

/-- `analyze_eqs` (`Eqs.cpp:364-735`), as far as it concerns dependences. -/
def EqSys.analyze (S : EqSys ε Λ κ ν) (ordL : List Λ → List Λ) (ordE : List ε → List ε) :
    Outcome (DepGroup ε) := do
  let g ← S.userGroup
  let lv ← S.lvGroup ordL
  S.eqGroup lv g ordE

/-- Lots of objects, identified by numbers: the equations of the parts, or the parts of the stages. -/
structure Lots (β κ : Type) where
  /-- the dependency group -/
  g : DepGroup Nat := {}
  /-- `get_items()` -/
  items : Nat → List β := fun _ => []
  /-- conditions and step expression of a part -/
  key : Nat → Option κ := fun _ => none
  /-- `is_scratch()` -/
  scr : Nat → Bool := fun _ => false
  /-- `_idx` -/
  next : Nat := 1
  /-- `_eqs_in_parts`, `_parts_in_stages` -/
  placed : List β := []

/-- `add_eq`, `add_part`: appends an object to a lot. -/
def Lots.addTo {β κ : Type} (st : Lots β κ) (p : Nat) (e : β) : Lots β κ :=
  { st with items := fun q => if q = p then st.items p ++ [e] else st.items q }

/-- New lot with the object (`Eqs.cpp:1138-1159`, `Eqs.cpp:1491-1506`). -/
def Lots.newLot {β κ : Type} (st : Lots β κ) (es : List β) (k : Option κ) (s : Bool) : Lots β κ :=
  { st with
    g := st.g.addItem st.next
    items := fun q => if q = st.next then es else st.items q
    key := fun q => if q = st.next then k else st.key q
    scr := fun q => if q = st.next then s else st.scr q
    next := st.next + 1 }

/-- `rel_eqs` (`Eqs.cpp:1008-1020`): the other equations that update the same (logical) var. -/
def EqSys.relEqs (S : EqSys ε Λ κ ν) (e : ε) : List ε :=
  S.eqs.filter fun e2 => decide (e ≠ e2) &&
    (if S.scr e then decide (S.var e = S.var e2) else decide (S.lhs e = S.lhs e2))

/-- The checks of one existing part (`Eqs.cpp:1031-1099`). -/
def EqSys.fits (S : EqSys ε Λ κ ν) (d : Deps ε) (st : Lots ε κ) (e : ε) (p : Nat) : Bool :=
  decide (st.scr p = S.scr e) && decide (st.key p = some (S.key e)) &&
  (st.items p).all fun e2 =>
    (!S.scr e || S.compat e e2) && !d.isDep e e2 && (S.relEqs e).all fun e3 => !d.isDep e2 e3

/-- The loop over the existing parts (`Eqs.cpp:1025-1135`). Removing the equation just added and clearing the
dependences restores the state. `none`: no part found. -/
def EqSys.findPart (S : EqSys ε Λ κ ν) (E : DepGroup ε) (ord : List Nat → List Nat) (st : Lots ε κ) (e : ε) :
    List Nat → Outcome (Option (Lots ε κ))
  | [] => .ok none
  | p :: ps =>
    if S.fits E.deps st e p then
      let st1 := st.addTo p e
      match st1.g.inherit st1.items E ord with
      | .ok g => .ok (some { st1 with g := g.clear })
      | .throws => S.findPart E ord { st with g := st.g.clear } e ps
      | .undefined => .undefined
    else S.findPart E ord st e ps

/-- `add_eq_to_part` (`Eqs.cpp:904-1167`). If no part is found but candidates were tried, the dependences have
been cleared; they are empty anyway. -/
def EqSys.addEq (S : EqSys ε Λ κ ν) (E : DepGroup ε) (ord : List Nat → List Nat) (st : Lots ε κ) (e : ε) :
    Outcome (Lots ε κ) :=
  if e ∈ st.placed then .ok st
  else do
    let r ← if S.bundle then S.findPart E ord st e st.g.all else .ok none
    let st1 := match r with
      | some st1 => st1
      | none => st.newLot [e] (some (S.key e)) (S.scr e)
    .ok { st1 with placed := e :: st1.placed }

/-- The equations that are added, in order (`Eqs.cpp:1184-1206`). -/
def EqSys.todo (S : EqSys ε Λ κ ν) : List ε :=
  (S.eqs.filter fun e => !S.scr e && S.wanted e) ++ S.eqs.filter fun e => S.scr e

/-- `make_parts` (`Eqs.cpp:1170-1213`). -/
def EqSys.makeParts (S : EqSys ε Λ κ ν) (E : DepGroup ε) (ord : List Nat → List Nat) : Outcome (Lots ε κ) := do
  let st ← S.todo.foldlM (S.addEq E ord) {}
  let g ← st.g.inherit st.items E ord
  let g ← g.topoSort ord
  .ok { st with g := g }

/-- Var matching (`Eqs.cpp:1395-1429`): any equation of `pps` against any equation of the stage. -/
def EqSys.varMatch (S : EqSys ε Λ κ ν) (P : Lots ε κ) (logical : Bool) (pps ps : List Nat) : Bool :=
  pps.any fun p1 => (P.items p1).any fun e1 => ps.any fun p2 => (P.items p2).any fun e2 =>
    if logical then decide (S.lhs e1 = S.lhs e2) else decide (S.var e1 = S.var e2)

/-- The loop over `pps` for one stage (`Eqs.cpp:1431-1478`): each part is tried alone. Afterwards the stage and
the dependences are as before. -/
def tryParts (P : DepGroup Nat) (ord : List Nat → List Nat) (st : Lots Nat Unit) (s : Nat) :
    List Nat → Outcome Bool
  | [] => .ok true
  | pp :: pps =>
    if (st.items s).any fun p2 => P.deps.isDep pp p2 then .ok false
    else
      let st1 := st.addTo s pp
      match st1.g.inherit st1.items P ord with
      | .ok _ => tryParts P ord { st with g := st.g.clear } s pps
      | .throws => .ok false
      | .undefined => .undefined

/-- The loop over the existing stages (`Eqs.cpp:1383-1489`). -/
def EqSys.findStage (S : EqSys ε Λ κ ν) (P : Lots ε κ) (ord : List Nat → List Nat) (vars logical scr : Bool)
    (st : Lots Nat Unit) (pps : List Nat) : List Nat → Outcome (Option Nat)
  | [] => .ok none
  | s :: ss =>
    if st.scr s ≠ scr then S.findStage P ord vars logical scr st pps ss
    else if (logical || vars) && !S.varMatch P logical pps (st.items s) then
      S.findStage P ord vars logical scr st pps ss
    else do
      let ok ← tryParts P.g ord st s pps
      if ok then .ok (some s)
      else S.findStage P ord vars logical scr { st with g := st.g.clear } pps ss

/-- `add_parts_to_stage` (`Eqs.cpp:1355-1520`). -/
def EqSys.addParts (S : EqSys ε Λ κ ν) (P : Lots ε κ) (ord : List Nat → List Nat) (vars logical : Bool)
    (st : Lots Nat Unit) (pps : List Nat) : Outcome (Lots Nat Unit) :=
  match pps with
  | [] => .ok st
  | p0 :: _ =>
    if p0 ∈ st.placed then .ok st
    else do
      let r ← S.findStage P ord vars logical (P.scr p0) st pps st.g.all
      let st1 := match r with
        | some s => { st with g := st.g.clear, items := fun q => if q = s then st.items s ++ pps else st.items q }
        | none => Lots.newLot { st with g := st.g.clear } pps none (P.scr p0)
      .ok { st1 with placed := pps ++ st1.placed }

/-- The three passes of `make_stages` (`Eqs.cpp:1529-1563`). -/
def EqSys.groupParts (S : EqSys ε Λ κ ν) (P : Lots ε κ) (ord : List Nat → List Nat) : Outcome (Lots Nat Unit) := do
  let st1 ← P.g.all.foldlM (fun st p => S.addParts P ord true true st [p]) {}
  let st2 ← st1.g.all.foldlM (fun st s => S.addParts P ord true false st (st1.items s)) {}
  ((st2.g.all.filter fun s => !st2.scr s) ++ st2.g.all.filter fun s => st2.scr s).foldlM
    (fun st s => S.addParts P ord false false st (st2.items s)) {}

/-- `make_stages` (`Eqs.cpp:1523-1571`). -/
def EqSys.makeStages (S : EqSys ε Λ κ ν) (P : Lots ε κ) (ord : List Nat → List Nat) : Outcome (Lots Nat Unit) := do
  let st ← S.groupParts P ord
  let g ← st.g.inherit st.items P.g ord
  let g ← g.topoSort ord
  .ok { st with g := g }

end

end Yask.Comp
