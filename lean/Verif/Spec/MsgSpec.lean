/-!
# Specification for halo exchange by messages (C92)

What a rank is to receive, stated without requests, tags, buffers or steps of the protocol.
-/

namespace Yask.MsgSpec

variable {R V : Type}

/-- Data that a rank takes out of a buffer: in exchange `exch`, of var `var`, from rank `nb`. -/
structure Got (R V : Type) where
  exch : Nat
  var : Nat
  nb : R
  data : List V
  deriving DecidableEq

/-- All that rank `me` is to receive in the first `rounds` exchanges: in each exchange, for each var that is
exchanged in it and each neighbour that has data of this var for `me`, once what this neighbour packed
for `me` in this same exchange. -/
def expected (rounds : Nat) (vars : Nat → List Nat) (nbs : R → List R) (size : R → R → Nat → Nat)
    (msg : Nat → R → R → Nat → List V) (me : R) : List (Got R V) :=
  (List.range rounds).flatMap fun n => (vars n).flatMap fun v =>
    ((nbs me).filter fun q => decide (0 < size q me v)).map fun q => ⟨n, v, q, msg n q me v⟩

/-- What rank `me` has received after `n` exchanges if all ranks go through the exchanges together, without
any messages in flight: in each exchange every rank packs, from what it has received before, and then
everything is received.  `pack r h q v` is what rank `r`, having received `h`, packs of var `v` for rank `q`:
anything that its program computes. -/
def together (vars : Nat → List Nat) (nbs : R → List R) (size : R → R → Nat → Nat)
    (pack : R → List (Got R V) → R → Nat → List V) : Nat → R → List (Got R V)
  | 0, _ => []
  | n + 1, me => together vars nbs size pack n me ++
      (vars n).flatMap fun v => ((nbs me).filter fun q => decide (0 < size q me v)).map fun q =>
        ⟨n, v, q, pack q (together vars nbs size pack n q) me v⟩

end Yask.MsgSpec
