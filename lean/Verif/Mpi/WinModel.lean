import Verif.Mpi.DirtyModel
import Verif.Common.IdivModel

/-!
# Model of the steps of halo exchanges

`Mpi/DirtyModel.lean` models halo exchange by step slots that all ranks have in common.  The code has no
such common order: each rank visits the *valid steps* of its own var, packs the slot of each of them, and
the receiver unpacks into the slots of its own valid steps, in the order of their step indices
(`exchange_halos`, `src/kernel/lib/halo.cpp:110-141,263-300,405-431`).  Here each rank has its own valid
steps.  They begin at 0 (`init_valid_steps`, `src/kernel/lib/yk_var.hpp:814-817`), and are moved by
`update_valid_step` (`src/kernel/lib/yk_var.cpp:559-575`).

One var with a step dim of `n` slots; points, owners and halos as in `Mpi/DirtyModel.lean`.
-/

namespace Yask.Win
open Yask.Dirty

variable {R P V : Type}

/-- `_wrap_step` (`src/kernel/lib/yk_var.hpp:126-150`). -/
def slot (n : Nat) [NeZero n] (t : Int) : Fin n := Fin.ofNat n (imodFlr t n).toNat

/-- `update_valid_step` (`yk_var.cpp:559-575`) for valid steps `f, …, f+n-1`; the new first step. -/
def upd (n : Nat) (f t : Int) : Int :=
  if t < f then t else if t > f + n - 1 then t - n + 1 else f

/-- State of one var in all ranks: the first valid step of each rank, and copies and flags by slot. -/
structure WState (n : Nat) (R P V : Type) where
  first : R → Int
  st : State R (Fin n) P V

/-- What the ranks do with the var. -/
inductive WOp (n : Nat) (R P V : Type)
  /-- `set_element` and `add_to_element` of rank `r` for step `t`: the valid steps are not moved
  (`src/kernel/lib/yk_var_apis.cpp:402-460`) -/
  | set (r : R) (t : Int) (ws : List (P × V))
  /-- a slice of step `t` set by every rank (`set_dirty_in_slice`, `yk_var.cpp:577-585`) -/
  | slice (t : Int) (ws : R → List (P × V))
  /-- `set_all_elements_same`, `set_all_elements_in_seq` by every rank: all slots are written, the valid
  steps stay (`yk_var.hpp:1538-1551,1786-1806`); `vals` lists the writes to each slot -/
  | setAll (vals : Fin n → R → List (P × V))
  /-- begin of `run_solution` (`src/kernel/lib/context.cpp:234`) -/
  | start
  /-- evaluation of step `t` by all ranks (`src/kernel/lib/stencil_calc.cpp:287-330`, `context.cpp:1549-1578`) -/
  | eval (t : Int) (ws : R → List (P × V))
  /-- `exchange_halos` -/
  | exchange
  /-- evaluation of the exterior for step `t`, begin of the exchange, evaluation of the interior, end of
  the exchange (`context.cpp:380-480`) -/
  | overlap (t : Int) (ext int : R → List (P × V))
  /-- a slice of step `t` set by rank `r` only -/
  | sliceOne (r : R) (t : Int) (ws : List (P × V))
  /-- the steps that `run_auto_tuner_now` runs in rank `r`, without exchange; their number depends on the
  measured times of this rank (`src/kernel/lib/auto_tuner.cpp:541-566`) -/
  | tune (r : R) (steps : List (Int × List (P × V)))

variable [DecidableEq R] [DecidableEq P] {n : Nat} [NeZero n]

/-- The steps that rank `r` exchanges: the valid steps whose slot may be dirty in other ranks, by
increasing index (`halo.cpp:110-141`; `SwapInfo::steps` is a `std::set`). -/
def swapSteps (first : R → Int) (others : R → Fin n → Bool) (r : R) : List Int :=
  ((List.range n).map fun k : Nat => first r + (k : Int)).filter fun t => others r (slot n t)

/-- The message of rank `q`: the slots of its steps, one after the other; empty if none is dirty
(`halo.cpp:255-300`).  One entry is the data of all points of one step. -/
def message (s : WState n R P V) (q : R) : List (P → V) :=
  if (swapSteps s.first s.st.others q).any fun t => s.st.self q (slot n t) then
    (swapSteps s.first s.st.others q).map fun t => s.st.copy q (slot n t)
  else []

/-- Rank `r` after unpacking the messages packed in state `src` (`halo.cpp:405-431`): the k-th entry goes to
the slot of the k-th step of `r`.  The slots of different steps differ, so that the order does not
matter. -/
def unpack (topo : Topo R (Fin n) P) (src cur : WState n R P V) (r : R) : Fin n → P → V :=
  fun u p =>
    if topo.halo r p then
      match ((swapSteps cur.first cur.st.others r).zip (message src (topo.owner p))).find?
          (fun e => decide (slot n e.1 = u)) with
      | some e => e.2 p
      | none => cur.st.copy r u p
    else cur.st.copy r u p

/-- Pack, unpack and clear all flags (`halo.cpp:473-480`).  If a message that is not empty does not have
as many steps as its receiver expects, the receiver reads something else: undefined
(`assert(npbytes == nbytes)`, `halo.cpp:433-434`). -/
def exchangeFrom (topo : Topo R (Fin n) P) (src cur : WState n R P V) : Outcome (WState n R P V) :=
  if ∀ r ∈ topo.ranks, ∀ q ∈ topo.ranks, message src q = [] ∨
      (message src q).length = (swapSteps cur.first cur.st.others r).length then
    .ok { first := cur.first,
          st := { copy := fun r => unpack topo src cur r, self := fun _ _ => false,
                  others := fun _ _ => false } }
  else .undefined

/-- Evaluation of step `t` in all ranks (`stencil_calc.cpp:287-330`, `context.cpp:434,468,538,572`). -/
def evalAll (s : WState n R P V) (t : Int) (ws : R → List (P × V)) : WState n R P V :=
  { first := fun r => upd n (s.first r) t
    st := { copy := fun r => pokes (s.st.copy r) (slot n t) (ws r)
            self := fun r u => if u = slot n t ∧ ws r ≠ [] then true else s.st.self r u
            others := fun r u => if u = slot n t then true else s.st.others r u } }

/-- Evaluation of step `t` in rank `r` alone. -/
def evalOne (r : R) (s : WState n R P V) (e : Int × List (P × V)) : WState n R P V :=
  { first := fun r' => if r' = r then upd n (s.first r') e.1 else s.first r'
    st := { copy := fun r' => if r' = r then pokes (s.st.copy r') (slot n e.1) e.2 else s.st.copy r'
            self := fun r' u => if r' = r ∧ u = slot n e.1 ∧ e.2 ≠ [] then true else s.st.self r' u
            others := fun r' u => if r' = r ∧ u = slot n e.1 then true else s.st.others r' u } }

/-- Writes to slot `u` by all ranks. -/
def writeAll (st : State R (Fin n) P V) (u : Fin n) (ws : R → List (P × V)) : State R (Fin n) P V :=
  { st with
    copy := fun r => pokes (st.copy r) u (ws r)
    self := fun r v => if v = u then true else st.self r v }

/-- Writes to slot `u` by rank `r`. -/
def writeOne (st : State R (Fin n) P V) (r : R) (u : Fin n) (ws : List (P × V)) : State R (Fin n) P V :=
  { st with
    copy := fun r' => if r' = r then pokes (st.copy r') u ws else st.copy r'
    self := fun r' v => if r' = r ∧ v = u then true else st.self r' v }

/-- Effect of an operation. -/
def step (topo : Topo R (Fin n) P) (s : WState n R P V) : WOp n R P V → Outcome (WState n R P V)
  | .set r t ws => .ok { s with st := writeOne s.st r (slot n t) ws }
  | .slice t ws => .ok { first := fun r => upd n (s.first r) t, st := writeAll s.st (slot n t) ws }
  | .setAll vals => .ok { s with st := (List.finRange n).foldl (fun st u => writeAll st u (vals u)) s.st }
  | .start => .ok { s with st := { s.st with others := fun _ _ => true } }
  | .eval t ws => .ok (evalAll s t ws)
  | .exchange => exchangeFrom topo s s
  | .overlap t ext int =>
    let s1 := evalAll s t ext
    exchangeFrom topo s1
      { first := fun r => upd n (s1.first r) t
        st := { s1.st with copy := fun r => pokes (s1.st.copy r) (slot n t) (int r) } }
  | .sliceOne r t ws => .ok
      { first := fun r' => if r' = r then upd n (s.first r') t else s.first r'
        st := writeOne s.st r (slot n t) ws }
  | .tune r ts => .ok (ts.foldl (evalOne r) { s with st := { s.st with
      others := fun r' u => if r' = r then true else s.st.others r' u } })

/-- A sequence of operations. -/
def run (topo : Topo R (Fin n) P) (s : WState n R P V) (os : List (WOp n R P V)) : Outcome (WState n R P V) :=
  os.foldlM (step topo) s

/-- State after allocation (`yk_var.cpp:361-370`). -/
def fresh (copy : R → Fin n → P → V) : WState n R P V :=
  { first := fun _ => 0, st := Dirty.fresh copy }

/-- Operations that all ranks do together as far as the valid steps are concerned. -/
def Common : WOp n R P V → Prop
  | .sliceOne _ _ _ => False
  | .tune _ _ => False
  | _ => True

/-- The operation as seen by slots, in `Mpi/DirtyModel.lean`. -/
def toDirty : WOp n R P V → List (Op R (Fin n) P V)
  | .set r t ws => [.write r (slot n t) ws]
  | .slice t ws => [.writeAll (slot n t) ws]
  | .setAll vals => (List.finRange n).map fun u => .writeAll u (vals u)
  | .start => [.start]
  | .eval t ws => [.eval (slot n t) ws]
  | .exchange => [.exchange]
  | .overlap t ext int => [.eval (slot n t) ext, .overlap (slot n t) int]
  | .sliceOne r t ws => [.write r (slot n t) ws]
  | .tune _ _ => []

end Yask.Win
