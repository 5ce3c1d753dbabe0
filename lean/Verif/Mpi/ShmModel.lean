import Mathlib.Logic.Function.Basic

/-!
# Model of halo exchange through shared-memory buffers

`SimpleLock` (`src/kernel/lib/utils.hpp:42-135`) and its use in `exchange_halos`
(`src/kernel/lib/halo.cpp:226-330,350-440`, accessors in `settings.hpp:462-500`).

Any number of ranks run concurrently.  A channel is the buffer, with its lock, used by one rank to send
the data of one var to one neighbour.  In each exchange (round) a rank first packs into its send
buffers, waiting for each to be free, then unpacks its receive buffers, waiting for each to be full.

Every access to shared memory (one cell of the buffer, the size, one counter) is a separate step.
Simplifications: accesses are sequentially consistent; the test of both counters in `is_ok_to_read` and
`is_ok_to_write` is one step (each side only changes its own counter); the counters do not overflow.
-/

namespace Yask.Shm

variable {R C V : Type} [DecidableEq R] [DecidableEq C]

/-- An action of the program of a rank. -/
inductive Act (C : Type)
  /-- `halo_pack_isend` with a shared buffer -/
  | send (c : C)
  /-- `halo_unpack` with a shared buffer -/
  | recv (c : C)
  deriving DecidableEq

/-- The exchange pattern.  `used n c`: channel `c` is used in round `n` (its var may be dirty). -/
structure Net (R C V : Type) where
  src : C → R
  dst : C → R
  used : Nat → C → Bool
  /-- the packed data of round `n` -/
  msg : C → Nat → List V
  /-- the order in which a rank visits its send and receive buffers -/
  outs : Nat → R → List C
  ins : Nat → R → List C
  rounds : Nat

/-- A rank visits each of its used buffers once per round
(`vars_to_swap` and `visit_neighbors`, `halo.cpp:180-196`). -/
structure Net.Ok (net : Net R C V) : Prop where
  outs_mem : ∀ n r c, c ∈ net.outs n r ↔ net.used n c = true ∧ net.src c = r
  ins_mem : ∀ n r c, c ∈ net.ins n r ↔ net.used n c = true ∧ net.dst c = r
  outs_nodup : ∀ n r, (net.outs n r).Nodup
  ins_nodup : ∀ n r, (net.ins n r).Nodup

/-- The program of one round: the sequence of `steps_to_do` (`halo.cpp:137-149`). -/
def Net.prog (net : Net R C V) (n : Nat) (r : R) : List (Act C) :=
  if n < net.rounds then (net.outs n r).map .send ++ (net.ins n r).map .recv else []

/-- Where a rank is inside its current action. -/
inductive Micro (V : Type)
  | idle
  /-- the buffer was free; `j` cells have been packed -/
  | writing (j : Nat)
  /-- the size has been stored -/
  | sized
  /-- the buffer was full; its size was read, and these cells have been unpacked -/
  | reading (size : Nat) (acc : List V)

/-- State of all ranks and channels. -/
structure State (R C V : Type) where
  round : R → Nat
  todo : R → List (Act C)
  micro : R → Micro V
  /-- `_write_count`, `_read_count`, `_data` -/
  wc : C → Int
  rc : C → Int
  data : C → Nat
  buf : C → Nat → V
  /-- the messages unpacked from the channel, oldest first -/
  log : C → List (List V)

/-- Initial state: `SimpleLock::init` (`utils.hpp:82-86`, `_ival` = 1000); buffers hold anything. -/
def init (net : Net R C V) (data : C → Nat) (buf : C → Nat → V) : State R C V where
  round _ := 0
  todo := net.prog 0
  micro _ := .idle
  wc _ := 1000
  rc _ := 1000
  data := data
  buf := buf
  log _ := []

/-- The next step of rank `r`; `none` if it waits or has finished. -/
def stepRank (net : Net R C V) (s : State R C V) (r : R) : Option (State R C V) :=
  match s.micro r, s.todo r with
  -- next exchange
  | .idle, [] =>
    if s.round r < net.rounds then
      some { s with
        round := Function.update s.round r (s.round r + 1)
        todo := Function.update s.todo r (net.prog (s.round r + 1) r) }
    else none
  -- `wait_for_ok_to_write` (`halo.cpp:239-244`, `utils.hpp:111-121`)
  | .idle, .send c :: _ =>
    if s.wc c = s.rc c then some { s with micro := Function.update s.micro r (.writing 0) } else none
  -- packing (`halo.cpp:268-296`), `set_data` (`halo.cpp:319`)
  | .writing j, .send c :: _ =>
    match (net.msg c (s.round r))[j]? with
    | some x => some { s with
        buf := Function.update s.buf c (Function.update (s.buf c) j x)
        micro := Function.update s.micro r (.writing (j + 1)) }
    | none => some { s with
        data := Function.update s.data c (net.msg c (s.round r)).length
        micro := Function.update s.micro r .sized }
  -- `mark_write_done` (`halo.cpp:320`, `utils.hpp:124-128`)
  | .sized, .send c :: rest =>
    some { s with
      wc := Function.update s.wc c (s.wc c + 1)
      micro := Function.update s.micro r .idle
      todo := Function.update s.todo r rest }
  -- `wait_for_ok_to_read`, `get_data` (`halo.cpp:355-361`, `utils.hpp:90-100`)
  | .idle, .recv c :: _ =>
    if s.wc c ≠ s.rc c then
      some { s with micro := Function.update s.micro r (.reading (s.data c) []) }
    else none
  -- unpacking (`halo.cpp:402-427`), `mark_read_done` (`halo.cpp:435-436`, `utils.hpp:103-107`)
  | .reading k acc, .recv c :: rest =>
    if acc.length < k then
      some { s with
        micro := Function.update s.micro r (.reading k (acc ++ [s.buf c acc.length])) }
    else
      some { s with
        rc := Function.update s.rc c (s.rc c + 1)
        log := Function.update s.log c (s.log c ++ [acc])
        micro := Function.update s.micro r .idle
        todo := Function.update s.todo r rest }
  | _, _ => none

/-- Executions: any interleaving of the steps of the ranks. -/
inductive Reach (net : Net R C V) : State R C V → State R C V → Nat → Prop
  | refl (s) : Reach net s s 0
  | step (s t u) (r : R) (n : Nat) : Reach net s t n → stepRank net t r = some u → Reach net s u (n + 1)

end Yask.Shm
