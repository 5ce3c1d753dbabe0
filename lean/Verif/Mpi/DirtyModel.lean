import Verif.Common.Outcome

/-!
# Model of the dirty flags and of halo exchange for one var

`YkVarBase::set_dirty*` (`src/kernel/lib/yk_var.cpp:122-153,361-368,577-590`), `exchange_halos`
(`src/kernel/lib/halo.cpp:78-490`), `update_var_info` (`src/kernel/lib/stencil_calc.cpp:291-330`,
`src/kernel/lib/context.cpp:1549-1578`), `set_all_neighbor_vars_dirty`
(`src/kernel/lib/context.hpp:545-548`) and their order in `run_solution`
(`src/kernel/lib/context.cpp:219-640`).

Points of the overall domain have one owner each; a rank also holds copies of the points in its halo.
`T` are the step slots of the var (`_wrap_step`; one slot if there is no step dimension).  That the
region sent by one rank is the region received by the other is C29, delivery of the messages is C24
(shared memory) or MPI.

A message is made from the state of the sender when it packs, and ranks touch only their own copies
otherwise, so the ranks can be taken to run each operation together.
-/

namespace Yask.Dirty

/-- Ranks, slots and ownership. -/
structure Topo (R T P : Type) where
  ranks : List R
  /-- the valid steps visited at `halo.cpp:113-118` -/
  slots : List T
  owner : P → R
  halo : R → P → Bool

/-- State of the copies of one var in all ranks. -/
structure State (R T P V : Type) where
  copy : R → T → P → V
  /-- `_dirty_steps[self]`, `_dirty_steps[others]` -/
  self : R → T → Bool
  others : R → T → Bool

/-- Operations of all ranks. -/
inductive Op (R T P V : Type)
  /-- an API call of one rank that writes elements of slot `t` -/
  | write (r : R) (t : T) (ws : List (P × V))
  /-- an API call made by every rank (`set_all_elements_same`, a slice set by all ranks, …) -/
  | writeAll (t : T) (ws : R → List (P × V))
  /-- begin of `run_solution` -/
  | start
  /-- evaluation of a stage: rank `r` writes `ws r` to slot `t` -/
  | eval (t : T) (ws : R → List (P × V))
  /-- `exchange_halos` -/
  | exchange
  /-- `exchange_halos` for the exterior, evaluation of the interior, `exchange_halos` for the interior -/
  | overlap (t : T) (ws : R → List (P × V))

variable {R T P V : Type} [DecidableEq R] [DecidableEq T] [DecidableEq P]

/-- Writes to the copies of one rank. -/
def pokes (m : T → P → V) (t : T) (ws : List (P × V)) : T → P → V :=
  ws.foldl (fun m w t' p => if t' = t ∧ p = w.1 then w.2 else m t' p) m

/-- Slots to exchange, as seen by rank `r` (`halo.cpp:97-146`). -/
def toSwap (topo : Topo R T P) (s : State R T P V) (r : R) : List T :=
  topo.slots.filter fun t => s.others r t

/-- `is_mine_dirty` (`halo.cpp:254-261`): some slot to exchange is dirty in rank `r`; if not, an empty
message is sent. -/
def mineDirty (topo : Topo R T P) (s : State R T P V) (r : R) : Bool :=
  (toSwap topo s r).any fun t => s.self r t

/-- Copies of rank `r` after unpacking: for each slot to exchange and each non-empty message, the halo
points owned by its sender are overwritten (`halo.cpp:372-437`).  `src` is the state when the messages
were packed. -/
def unpack (topo : Topo R T P) (src cur : State R T P V) (r : R) : T → P → V :=
  fun t p =>
    if t ∈ toSwap topo src r ∧ topo.halo r p = true ∧ mineDirty topo src (topo.owner p) = true then
      src.copy (topo.owner p) t p
    else cur.copy r t p

/-- Pack and unpack; at the end both flags of all slots are cleared (`halo.cpp:473-480`).  If the ranks
do not have the same slots to exchange, data is unpacked into the wrong place: undefined. -/
def exchangeFrom (topo : Topo R T P) (src cur : State R T P V) : Outcome (State R T P V) :=
  if ∀ r ∈ topo.ranks, ∀ r' ∈ topo.ranks, toSwap topo src r = toSwap topo src r' then
    .ok { copy := fun r => unpack topo src cur r, self := fun _ _ => false, others := fun _ _ => false }
  else .undefined

/-- Effect of an operation. -/
def step (topo : Topo R T P) (s : State R T P V) : Op R T P V → Outcome (State R T P V)
  | .write r t ws => .ok { s with
      copy := fun r' => if r' = r then pokes (s.copy r') t ws else s.copy r'
      self := fun r' t' => if r' = r ∧ t' = t then true else s.self r' t' }
  | .writeAll t ws => .ok { s with
      copy := fun r => pokes (s.copy r) t (ws r)
      self := fun r t' => if t' = t then true else s.self r t' }
  | .start => .ok { s with others := fun _ _ => true }
  -- `calc_micro_block` marks the var of its own rank (`stencil_calc.cpp:287`), then all ranks mark the
  -- neighbours' (`context.cpp:434,468,538,572`)
  | .eval t ws => .ok {
      copy := fun r => pokes (s.copy r) t (ws r)
      self := fun r t' => if t' = t ∧ ws r ≠ [] then true else s.self r t'
      others := fun r t' => if t' = t then true else s.others r t' }
  | .exchange => exchangeFrom topo s s
  -- messages are packed before the interior is evaluated; the interior does not mark the var dirty
  | .overlap t ws => exchangeFrom topo s { s with copy := fun r => pokes (s.copy r) t (ws r) }

/-- A sequence of operations. -/
def run (topo : Topo R T P) (s : State R T P V) (os : List (Op R T P V)) : Outcome (State R T P V) :=
  os.foldlM (step topo) s

/-- State after allocation: all flags are set (`yk_var.cpp:361-367`). -/
def fresh (copy : R → T → P → V) : State R T P V :=
  { copy := copy, self := fun _ _ => true, others := fun _ _ => true }

end Yask.Dirty
