import Verif.Common.Outcome

/-!
# Model of the lifespan analysis of scratch vars and of the evaluation of scratch parts

`Stages::calc_lifespans` (`src/compiler/lib/Eqs.cpp:1912-2026`), the required parts of a non-scratch part
(`src/compiler/lib/YaskKernel.cpp:1035-1057`, `src/kernel/lib/stencil_calc.hpp:126-143`) and the order in which
`calc_micro_block` evaluates them (`src/kernel/lib/stencil_calc.cpp:74-283`).

Scratch vars, parts and stages are numbered.
-/

namespace Yask.Comp

/-- Scratch vars accessed in a stage: those written, then those read. -/
structure LStage where
  outs : List Nat
  ins : List Nat
deriving DecidableEq

/-- First and last stage of each var. -/
abbrev Spans := Nat → Option (Nat × Nat)

/-- An access in stage `snum` (`Eqs.cpp:1928-1933`). -/
def touch (snum : Nat) (m : Spans) (v : Nat) : Spans := fun u =>
  if u = v then
    (match m v with
    | none => some (snum, snum)
    | some (f, _) => some (f, snum))
  else m u

/-- The first loop (`Eqs.cpp:1917-1943`): stages with their numbers. -/
def firstLast (stages : List LStage) : Spans :=
  stages.zipIdx.foldl (fun m s => (s.1.outs ++ s.1.ins).foldl (touch s.2) m) fun _ => none

/-- `nmems_per_sz`, `free_stack_per_sz`, `var_slots_per_sz` (`Eqs.cpp:1950-1952`). -/
structure SlotSt where
  nmems : Nat → Nat := fun _ => 0
  free : Nat → List Nat := fun _ => []
  slots : Nat → Option Nat := fun _ => none

/-- Changes one entry of a map. -/
def put {β : Type} (f : Nat → β) (i : Nat) (b : β) : Nat → β := fun j => if j = i then b else f j

/-- New var (`Eqs.cpp:1972-1995`). -/
def allocVar (size : Nat → Nat) (s : SlotSt) (v : Nat) : SlotSt :=
  match s.free (size v) with
  | n :: rest => { s with free := put s.free (size v) rest, slots := put s.slots v (some n) }
  | [] => { s with slots := put s.slots v (some (s.nmems (size v))), nmems := put s.nmems (size v) (s.nmems (size v) + 1) }

/-- Done with a var (`Eqs.cpp:1998-2005`); `at` throws if it has no slot. -/
def freeVar (size : Nat → Nat) (s : SlotSt) (v : Nat) : Outcome SlotSt :=
  match s.slots v with
  | some n => .ok { s with free := put s.free (size v) (n :: s.free (size v)) }
  | none => .throws

/-- One stage index (`Eqs.cpp:1955-2008`). `vars`: the keys of `first_last` in the (arbitrary) order of the pointers. -/
def slotStage (size : Nat → Nat) (spans : Spans) (vars : List Nat) (s : SlotSt) (si : Nat) : Outcome SlotSt :=
  let s1 := vars.foldl (fun s v => match spans v with
    | some (f, _) => if f = si then allocVar size s v else s
    | none => s) s
  vars.foldlM (fun s v => match spans v with
    | some (_, l) => if l = si then freeVar size s v else .ok s
    | none => .ok s) s1

/-- The greedy assignment (`Eqs.cpp:1954-2009`). -/
def assignSlots (size : Nat → Nat) (spans : Spans) (vars : List Nat) (snum : Nat) : Outcome SlotSt :=
  (List.range snum).foldlM (slotStage size spans vars) {}

/-- Final slot numbers (`Eqs.cpp:2011-2026`). `szs`: the keys of `nmems_per_sz` in ascending order. -/
def finalSlot (size : Nat → Nat) (s : SlotSt) (szs : List Nat) (v : Nat) : Option Nat :=
  (s.slots v).map fun n => ((szs.takeWhile fun z => decide (z ≠ size v)).map s.nmems).sum + n

/-- `calc_lifespans`: the memory slot of each scratch var. -/
def calcLifespans (size : Nat → Nat) (stages : List LStage) (vars szs : List Nat) : Outcome (Nat → Option Nat) := do
  let s ← assignSlots size (firstLast stages) vars stages.length
  pure (finalSlot size s szs)

/-! ### Evaluation -/

/-- A part: its number, the number of its stage, and the scratch vars read and written. -/
structure SPart where
  id : Nat
  stage : Nat
  ins : List Nat
  outs : List Nat
deriving DecidableEq

/-- A non-scratch part with its scratch children, in the order of `get_reqd_parts()`. -/
structure MainPart where
  children : List SPart
  self : SPart
deriving DecidableEq

/-- `get_reqd_parts()` (`stencil_calc.hpp:139-143`). -/
def MainPart.reqd (p : MainPart) : List SPart := p.children ++ [p.self]

/-- The parts that `calc_micro_block` evaluates for one non-scratch part, and `parts_done` afterwards
(`stencil_calc.cpp:80`, `125-128`, `281`). -/
def microParts (done : List Nat) : List SPart → List SPart × List Nat
  | [] => ([], done)
  | p :: ps => if p.id ∈ done then microParts done ps
    else ((p :: (microParts (p.id :: done) ps).1), (microParts (p.id :: done) ps).2)

/-- All parts evaluated for the non-scratch parts of a stage in one micro-block, in order: `parts_done` is kept between the
calls (`src/kernel/lib/context.cpp:1136-1159`). -/
def microBlock (done : List Nat) : List MainPart → List SPart
  | [] => []
  | m :: ms => (microParts done m.reqd).1 ++ microBlock (microParts done m.reqd).2 ms

/-- Evaluates parts with the values of scratch vars kept in memory slots: `comp id vals v` is the value of var `v`
computed by part `id` from the values `vals` of the vars it reads. The result is the list of values read. A part with a
condition keeps values at other points; then its outputs must be listed as inputs, too. -/
def runSlots {V : Type} (slot : Nat → Nat) (comp : Nat → List V → Nat → V) (mem : Nat → V) : List SPart → List (List V)
  | [] => []
  | p :: ps =>
    let vals := p.ins.map fun v => mem (slot v)
    vals :: runSlots slot comp (p.outs.foldl (fun m v => put m (slot v) (comp p.id vals v)) mem) ps

end Yask.Comp
