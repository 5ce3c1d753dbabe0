import Verif.Common.Outcome

/-!
# Model of the halo, write-point and step-allocation analysis of the compiler

`Var::update_halo`, `get_halo_size(s)`, `get_step_dim_info` (`src/compiler/lib/Var.cpp`, `Var.hpp`),
`Stages::calc_halos` (`src/compiler/lib/Eqs.cpp`), and the step checks of `Eqs::analyze_eqs`.

Simplifications.  Vars and stages are numbered.  The nested maps `_halos[stage][left][step]` of tuples are one list
of entries with keys (stage, left, step, dim).  Tuples without any dim are therefore not represented; only
`get_step_dim_info` sees them, and it ignores them except for the test "written here?", where for a var with at
least one domain dim there is also an entry with a dim.  Points in conditions are left out: domain conditions must
depend on domain indices only (`Eqs.cpp:584`), and step conditions are evaluated once per step.
-/

namespace Yask.Comp

/-- An access to a var: `get_arg_offsets()` (`VarPoint.hpp:104`), split into the step dim and the domain dims.
`none`: no step dim, or its argument is not an offset from the step index. -/
structure Pt where
  var : Nat
  step : Option Int
  dom : List (String × Int)
deriving DecidableEq

/-- The offset in a domain dim (zero if the var does not have the dim). -/
def Pt.at (p : Pt) (n : String) : Int := (p.dom.lookup n).getD 0

/-- An equation: the point written and the points read on the RHS. -/
structure PEq where
  lhs : Pt
  rhs : List Pt
deriving DecidableEq

/-- Key of an entry of `_halos` (`Var.hpp:75-80`). -/
structure HKey where
  stage : Nat
  left : Bool
  step : Int
  dim : String
deriving DecidableEq

/-- The results of the analysis that are kept in a var (`Var.hpp:75-87`). -/
structure HVar where
  /-- `_halos` -/
  halos : List (HKey × Int) := []
  /-- `_write_points` -/
  writes : List (Nat × Int) := []
  /-- `_l1_dist` -/
  l1 : Int := 0
deriving DecidableEq

/-- Adds a value or keeps the larger one (`Var.cpp:246-260`, `Var.cpp:305-316`). -/
def raise {κ : Type} [DecidableEq κ] (h : List (κ × Int)) (k : κ) (v : Int) : List (κ × Int) :=
  if h.any (fun e => decide (e.1 = k)) then
    h.map fun e => if e.1 = k then (e.1, if v > e.2 then v else e.2) else e
  else h ++ [(k, v)]

/-- `update_l1_dist` (`Var.hpp:289-291`). -/
def HVar.updateL1 (v : HVar) (d : Int) : HVar := { v with l1 := max v.l1 d }

/-- `update_halo(const Var&)` (`Var.cpp:222-266`). -/
def HVar.updateVar (v other : HVar) : HVar :=
  HVar.updateL1 { v with halos := other.halos.foldl (fun h e => raise h e.1 e.2) v.halos } other.l1

/-- `update_halo(stage_name, offsets)` (`Var.cpp:271-326`). -/
def HVar.updateOfs (v : HVar) (stage : Nat) (step : Option Int) (dom : List (String × Int)) : HVar :=
  HVar.updateL1
    { v with halos := dom.foldl (fun h d =>
        raise h ⟨stage, decide (d.2 ≤ 0), step.getD 0, d.1⟩ (if d.2 < 0 then - d.2 else d.2)) v.halos }
    (dom.foldl (fun n d => if d.2 ≠ 0 then n + 1 else n) 0)

/-- `update_write_points` (`Var.cpp:329-335`). -/
def HVar.updateWrite (v : HVar) (stage : Nat) (step : Option Int) : HVar :=
  match step with
  | some s => { v with writes := (stage, s) :: v.writes.filter fun w => decide (w.1 ≠ stage) }
  | none => v

/-- `get_halo_sizes` (`Var.hpp:189-199`). -/
def HVar.sizes (v : HVar) (stage : Nat) (left : Bool) : List (String × Int) :=
  v.halos.foldl (fun t e => if e.1.stage = stage ∧ e.1.left = left then raise t e.1.dim e.2 else t) []

/-- `get_halo_size` (`Var.hpp:202-217`). -/
def HVar.size (v : HVar) (dim : String) (left : Bool) : Int :=
  v.halos.foldl (fun h e => if e.1.dim = dim ∧ e.1.left = left then max h e.2 else h) 0

/-- `sub_elements`, `add_elements` with `strict_rhs = false` (`tuple.hpp:498-531`). -/
def combineOfs (f : Int → Int → Int) (a b : List (String × Int)) : List (String × Int) :=
  a.map fun d => match b.lookup d.1 with
    | some x => (d.1, f d.2 x)
    | none => d

/-- A stage: its parts, each a list of equations. -/
structure HStage where
  id : Nat
  scr : Bool
  parts : List (List PEq)
deriving DecidableEq

/-- `get_eqs()` of a stage. -/
def HStage.eqs (s : HStage) : List PEq := s.parts.flatten

/-- The stages in topological order, and `get_all_scratch_deps_on`. -/
structure HSys where
  stages : List HStage
  scrDeps : Nat → List Nat

/-- The stage and the scratch stages it requires (`Eqs.cpp:1657-1663`). -/
def HSys.reqd (S : HSys) (st : HStage) : List HStage :=
  st :: S.stages.filter fun s => decide (s.id ∈ S.scrDeps st.id)

/-- Changes one entry of a map. -/
def setAt {β : Type} (f : Nat → β) (i : Nat) (b : β) : Nat → β := fun j => if j = i then b else f j

/-- One equation in phase 1 (`Eqs.cpp:1679-1702`). -/
def phase1Eq (stage : Nat) (m : Nat → HVar) (e : PEq) : Nat → HVar :=
  let m1 := (e.lhs :: e.rhs).foldl (fun m p => setAt m p.var ((m p.var).updateOfs stage p.step p.dom)) m
  setAt m1 e.lhs.var ((m1 e.lhs.var).updateWrite stage e.lhs.step)

/-- Phase 1 of `calc_halos` (`Eqs.cpp:1643-1706`). -/
def HSys.phase1 (S : HSys) : Nat → HVar :=
  (S.stages.filter fun s => !s.scr).foldl (fun m st =>
    (S.reqd st).foldl (fun m r => r.eqs.foldl (phase1Eq st.id) m) m) fun _ => {}

/-- Input points of a scratch equation in phase 2 (`Eqs.cpp:1853-1879`). -/
def phase2Pt (stage : Nat) (lo ro : List (String × Int)) (l1 : Int) (m : Nat → HVar) (p : Pt) : Nat → HVar :=
  setAt m p.var ((((m p.var).updateOfs stage p.step (combineOfs (· - ·) p.dom lo)).updateOfs stage p.step
    (combineOfs (· + ·) p.dom ro)).updateL1 l1)

/-- One scratch part in phase 2 (`Eqs.cpp:1780-1879`). -/
def phase2Part (stage : Nat) (m : Nat → HVar) (part : List PEq) : Nat → HVar :=
  match part with
  | [] => m
  | e1 :: rest =>
    let m1 := rest.foldl (fun m e2 => setAt m e1.lhs.var ((m e1.lhs.var).updateVar (m e2.lhs.var))) m
    let m2 := rest.foldl (fun m e2 => setAt m e2.lhs.var ((m e2.lhs.var).updateVar (m e1.lhs.var))) m1
    let ov := m2 e1.lhs.var
    (part.flatMap PEq.rhs).foldl (phase2Pt stage (ov.sizes stage true) (ov.sizes stage false) ov.l1) m2

/-- Phase 2 for one non-scratch stage (`Eqs.cpp:1751-1882`): the shadow vars. The original has shadows only of the vars
it touches; the others would be unchanged copies. -/
def HSys.phase2 (S : HSys) (real : Nat → HVar) (st : HStage) : Nat → HVar :=
  S.stages.reverse.foldl (fun m s => if s.id ∈ S.scrDeps st.id then s.parts.foldl (phase2Part st.id) m else m) real

/-- `calc_halos` (`Eqs.cpp:1614-1903`). -/
def HSys.calcHalos (S : HSys) : Nat → HVar :=
  let real := S.phase1
  (S.stages.filter fun s => !s.scr).foldl (fun m st => fun v => (m v).updateVar (S.phase2 real st v)) real

/-- The halo of a scratch part that is written (`find_scratch_write_halos`, `src/kernel/lib/setup.cpp:1184-1228`). -/
def writeHalo (m : Nat → HVar) (part : List PEq) (dim : String) (left : Bool) : Int :=
  part.foldl (fun h e => max h ((m e.lhs.var).size dim left)) 0

/-- Are halos of a var exchanged with a neighbour rank at this Manhattan distance? (`alloc_mpi_data`,
`src/kernel/lib/alloc.cpp:502-523`) -/
def exchangesWith (l1 wfSteps : Int) (nDims mandist : Nat) : Bool :=
  let maxdist := if wfSteps > 0 then (nDims : Int) else l1
  !decide ((mandist : Int) > maxdist)

/-! ### Allocation in the step dim -/

/-- The lowest and highest step offsets with any halo in a stage (`Var.cpp:380-420`). -/
def HVar.stepRange (v : HVar) (stage : Nat) : Option (Int × Int) :=
  v.halos.foldl (fun r e =>
    if e.1.stage = stage then
      match r with
      | none => some (e.1.step, e.1.step)
      | some (a, b) => some (min a e.1.step, max b e.1.step)
    else r) none

/-- The largest halo at a step offset in a stage (`Var.cpp:447-456`). -/
def HVar.maxHalo (v : HVar) (stage : Nat) (step : Int) : Int :=
  v.halos.foldl (fun h e => if e.1.stage = stage ∧ e.1.step = step then max h e.2 else h) 0

/-- Is the var written in the stage at an offset that has a halo there? (`Var.cpp:404-405`) -/
def HVar.isWritten (v : HVar) (stage : Nat) : Bool :=
  v.halos.any fun e => decide (e.1.stage = stage) && decide (v.writes.lookup stage = some e.1.step)

/-- The number of steps needed for one stage (`Var.cpp:427-482`); 1 if it is not more than that. -/
def HVar.stageAlloc (v : HVar) (stage : Nat) : Int :=
  match v.stepRange stage with
  | none => 1
  | some (first, last) =>
    if last ≠ first then
      let sz := last - first + 1
      if v.isWritten stage ∧ sz > 1 ∧ v.maxHalo stage first = 0 ∧ v.maxHalo stage last = 0 then sz - 1 else sz
    else 1

/-- `get_step_dim_info().step_dim_size` (`Var.cpp:361-499`). `stages`: keys of `_halos`; `varAlloc`: the size set with
`set_step_alloc_size`; `optAlloc`: the size set with the option. The last assignment overwrites both. -/
def HVar.stepAlloc (v : HVar) (hasStep : Bool) (varAlloc optAlloc : Int) : Int :=
  if !hasStep then 1
  else if v.halos = [] then 1
  else
    let maxSz := (v.halos.map fun e => e.1.stage).foldl (fun m s => max m (v.stageAlloc s)) 1
    let size1 := if varAlloc > 0 then varAlloc else 1
    let _size2 := if optAlloc > 0 then optAlloc else size1
    maxSz

/-! ### Checks of the step offsets -/

/-- The step argument of a point. -/
inductive StepArg
  /-- the var has no step dim -/
  | absent
  /-- a simple offset from the step index -/
  | offset (k : Int)
  /-- any other expression -/
  | other
deriving DecidableEq

/-- What the step checks look at: is the LHS a scratch var, the step argument on the LHS and those on the RHS. -/
structure StepEq where
  scr : Bool
  lhs : StepArg
  rhs : List StepArg
deriving DecidableEq

/-- Is there a step argument? -/
def StepArg.present : StepArg → Bool
  | .absent => false
  | _ => true

/-- The check of one RHS point (`Eqs.cpp:494-524`). -/
def badRead (dir lofs : Int) : StepArg → Bool
  | .offset rofs => (decide (dir = 1) && decide (rofs > lofs)) || (decide (dir = -11) && decide (rofs < lofs))
  | _ => false

/-- The step checks of one equation (`Eqs.cpp:414-425`, `466-531`, `545-558`). The result is `_step_dir`. -/
def stepCheck (dir : Int) (e : StepEq) : Outcome Int := do
  let dir1 ←
    if e.scr then (if e.lhs.present then .throws else .ok dir)
    else match e.lhs with
      | .offset lofs =>
        if lofs ≠ 1 ∧ lofs ≠ -1 then .throws
        else
          let dir1 := if dir = 0 ∧ lofs ≠ 0 then (if lofs > 0 then 1 else -1) else dir
          if lofs ≠ dir1 then .throws
          else if e.rhs.any (badRead dir1 lofs) then .throws
          else .ok dir1
      | _ => .throws
  if e.rhs.any fun a => decide (a = .other) then .throws else .ok dir1

/-- The loop over the equations (`Eqs.cpp:383-600`), only the step checks; the first argument is `_step_dir` before,
zero if it was not set. -/
def stepChecks (dir : Int) (es : List StepEq) : Outcome Int := es.foldlM stepCheck dir

end Yask.Comp
