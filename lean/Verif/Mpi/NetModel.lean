import Verif.Sched.SchedSpec
import Verif.Common.Outcome

/-!
# Model of `run_solution` on several ranks

`StencilContext::run_solution` (`src/kernel/lib/context.cpp:219-615`) with its halo exchanges (`exchange_halos`,
`src/kernel/lib/halo.cpp:78-490`) and dirty flags (`StencilPartBase::update_var_info`,
`src/kernel/lib/stencil_calc.cpp:285-330`; `StencilContext::update_var_info`, `context.cpp:1549-1578`), on top of the
tiling of each rank (`Verif.Sched.SchedModel`).

Simplifications.
* Between two exchanges a rank only touches its own state, and the messages of an exchange are matched by their order, so the
  ranks are taken to run pass by pass together; a message holds the data of its sender at the time it was packed.
* A step slot of a var is named by its position (`_wrap_step`); every slot is in the window of valid steps.
* The regions exchanged are a parameter (`box`, see `Verif.Mpi.BoxModel`); that the region sent is the region received is
  `C29_match`, and delivery is that of MPI or of the shared-memory buffers (C24).
* `do_halo_exchange` is set, there is no device, and `calc_micro_block` may mark any outputs of the pass as modified by this rank, but
  at least those to which a point was written.
-/

namespace Yask.Mpi
open Spec

/-- A step slot of a var: number of the var, number of the slot. -/
abbrev Slot := Nat × Nat

/-- All ranks of a run: their number and configurations, number of vars and of slots of each var, neighbours of each rank
(`MPIData::visit_neighbors`), the points of var `v` that rank `me` receives from rank `nb` (`box me nb v p`), whether a rank has
buffers for a var (`mpi_data.count(gname)`), and the slots that the parts of a stage write at a step
(`get_output_step_index` and the output vars of the parts). -/
structure Net where
  n : Nat
  cfg : Nat → RunCfg
  nvars : Nat
  nslots : Nat → Nat
  nbrs : Nat → List Nat
  box : Nat → Nat → Nat → List Int → Bool
  hasBuf : Nat → Nat → Bool
  outs : Nat → Int → Slot → Bool

/-- Data and dirty flags (`_dirty_steps[self]`, `_dirty_steps[others]`) of all ranks. -/
structure NState (Val : Type*) where
  copy : Nat → Slot × List Int → Val
  self : Nat → Slot → Bool
  others : Nat → Slot → Bool

/-- The slots of var `v` that rank `r` takes part in exchanging (`halo.cpp:103-146`). -/
def Net.toSwap {Val : Type*} (N : Net) (s : NState Val) (r v : Nat) : List Nat :=
  if N.hasBuf r v then (List.range (N.nslots v)).filter fun t => s.others r (v, t) else []

/-- `vars_to_swap` of rank `r` (`halo.cpp:96-146`); the position of a var in it is the tag of its messages (`halo.cpp:181-183`). -/
def Net.swapList {Val : Type*} (N : Net) (s : NState Val) (r : Nat) : List (Nat × List Nat) :=
  (List.range N.nvars).filterMap fun v => if N.toSwap s r v = [] then none else some (v, N.toSwap s r v)

/-- `is_mine_dirty` (`halo.cpp:254-261`); if it is not set, an empty message is sent. -/
def Net.mineDirty {Val : Type*} (N : Net) (s : NState Val) (r v : Nat) : Bool :=
  (N.toSwap s r v).any fun t => s.self r (v, t)

/-- Unpacking of the messages of neighbour `nb` into the copies `m` of rank `me` (`halo.cpp:340-437`); `src` is the state when
the messages were packed (`halo.cpp:232-300`). -/
def Net.unpack {Val : Type*} (N : Net) (src : NState Val) (me : Nat) (m : Slot × List Int → Val) (nb : Nat) :
    Slot × List Int → Val :=
  fun l => if l.1.1 < N.nvars ∧ l.1.2 ∈ N.toSwap src me l.1.1 ∧ N.box me nb l.1.1 l.2 = true ∧ N.mineDirty src nb l.1.1 = true then
      src.copy nb l
    else m l

/-- `exchange_halos`: messages packed in state `src` are unpacked in state `cur`, one neighbour after another; then the flags
of the vars exchanged are cleared (`halo.cpp:470-480`).  If two neighbours do not exchange the same vars and slots, messages are
missing or do not match: undefined. -/
def Net.exchangeFrom {Val : Type*} (N : Net) (src cur : NState Val) : Outcome (NState Val) :=
  if ∀ r < N.n, ∀ nb ∈ N.nbrs r, N.swapList src r = N.swapList src nb then
    .ok { copy := fun r => (N.nbrs r).foldl (N.unpack src r) (cur.copy r)
          self := fun r β => if β.1 < N.nvars ∧ N.toSwap src r β.1 ≠ [] then false else cur.self r β
          others := fun r β => if β.1 < N.nvars ∧ N.toSwap src r β.1 ≠ [] then false else cur.others r β }
  else .undefined

/-- Work between two halo exchanges: stages, first step, number of steps. -/
structure Pass where
  stages : List Nat
  t0 : Int
  nt : Nat
deriving DecidableEq

/-- The passes of `run_solution(first, last)`: one per stage and step without wave-fronts, one per group of steps with
wave-fronts (`context.cpp:349-585`). -/
def passes (c : RunCfg) (first last : Int) : List Pass :=
  let dir := RunCfg.stepDir first last
  let st := (max c.wfSteps 1).toNat
  let n := RunCfg.numSteps first last
  (List.range ((n + st - 1) / st)).flatMap fun (k : Nat) =>
    let t0 := first + dir * (k * st : Nat)
    let nt := min st (n - k * st)
    if c.wfSteps = 0 then (List.range c.nst).map fun stage => ⟨[stage], t0, nt⟩
    else [⟨List.range c.nst, t0, nt⟩]

/-- All mega-blocks of one section of the rank (`context.cpp:404-417,447-459,510-523,552-564`). -/
def sectPass (c : RunCfg) (dir : Int) (p : Pass) (sect : RunCfg.Sect) : Traces Task :=
  doSeq ((RunCfg.scan c.rankLoop).map fun base => c.calcMega dir p.stages sect base p.t0 p.nt)

/-- What a rank computes before it packs its messages: the exterior sections, or everything if computation does not overlap
communication (`context.cpp:376-417,486-523`; `context.cpp:447-459,552-564`). -/
def packedPass (c : RunCfg) (dir : Int) (p : Pass) : Traces Task :=
  doSeq ((c.sections.filter fun s => decide (s ≠ .interior)).map (sectPass c dir p))

/-- What it computes afterwards: the interior, or nothing (`context.cpp:447-459,552-564`). -/
def laterPass (c : RunCfg) (dir : Int) (p : Pass) : Traces Task :=
  doSeq ((c.sections.filter fun s => decide (s = .interior)).map (sectPass c dir p))

/-- The slots that are marked as possibly modified by other ranks after the stages and steps of a pass
(`StencilContext::update_var_info`, `context.cpp:1549-1578`). -/
def Net.passOuts (N : Net) (dir : Int) (p : Pass) (β : Slot) : Bool :=
  (List.range p.nt).any fun i => p.stages.any fun st => N.outs st (p.t0 + dir * i) β

/-- The state after computing the sections before packing, where rank `r` ran the trace `u r` and marked the slots `mk r` as
modified (`stencil_calc.cpp:285-287`). -/
noncomputable def NState.computed {G : RunCfg} {Val : Type*} (S : Stencil G Slot Val) (N : Net) (dir : Int) (p : Pass)
    (u : Nat → List Task) (mk : Nat → Slot → Bool) (s : NState Val) : NState Val :=
  { copy := fun r => S.sem.exec (u r) (s.copy r)
    self := fun r β => s.self r β || mk r β
    others := fun r β => s.others r β || N.passOuts dir p β }

/-- Further computation that does not mark anything. -/
noncomputable def NState.further {G : RunCfg} {Val : Type*} (S : Stencil G Slot Val) (v : Nat → List Task) (s : NState Val) : NState Val :=
  { s with copy := fun r => S.sem.exec (v r) (s.copy r) }

/-- Possible results of one pass on all ranks. -/
def Net.PassTo {G : RunCfg} {Val : Type*} (N : Net) (S : Stencil G Slot Val) (dir : Int) (p : Pass) (s : NState Val)
    (o : Outcome (NState Val)) : Prop :=
  ∃ (u v : Nat → List Task) (mk : Nat → Slot → Bool),
    (∀ r < N.n, packedPass (N.cfg r) dir p (u r) ∧ laterPass (N.cfg r) dir p (v r) ∧
      (∀ a ∈ u r, ∀ β, S.writes a β → mk r β = true) ∧ ∀ β, mk r β = true → N.passOuts dir p β = true) ∧
    o = N.exchangeFrom (s.computed S N dir p u mk) ((s.computed S N dir p u mk).further S v)

/-- Possible results of a list of passes. -/
def Net.PassesTo {G : RunCfg} {Val : Type*} (N : Net) (S : Stencil G Slot Val) (dir : Int) :
    List Pass → NState Val → Outcome (NState Val) → Prop
  | [], s, o => o = .ok s
  | p :: ps, s, o => ∃ o1, N.PassTo S dir p s o1 ∧
    ((∃ s1, o1 = .ok s1 ∧ N.PassesTo S dir ps s1 o) ∨ (o1.isOk = false ∧ o = o1))

/-- Possible results of `run_solution(first, last)` on all ranks: all slots are marked as possibly modified by other ranks
(`set_all_neighbor_vars_dirty`, `context.cpp:234`, `context.hpp:545-548`), the halos are exchanged (`context.cpp:344-346`), then the
passes follow.  If the ranks do not have the same passes, their messages do not match: undefined. -/
def Net.RunTo {G : RunCfg} {Val : Type*} (N : Net) (S : Stencil G Slot Val) (first last : Int) (s : NState Val)
    (o : Outcome (NState Val)) : Prop :=
  let s0 : NState Val := { s with others := fun _ _ => true }
  if ∀ r < N.n, passes (N.cfg r) first last = passes (N.cfg 0) first last then
    ∃ o1, o1 = N.exchangeFrom s0 s0 ∧
      ((∃ s1, o1 = .ok s1 ∧ N.PassesTo S (RunCfg.stepDir first last) (passes (N.cfg 0) first last) s1 o) ∨
        (o1.isOk = false ∧ o = o1))
  else o = .undefined

end Yask.Mpi
