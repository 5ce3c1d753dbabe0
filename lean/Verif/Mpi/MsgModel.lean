import Mathlib.Logic.Function.Basic
import Verif.Spec.MsgSpec

/-!
# Model of halo exchange by MPI messages

`exchange_halos` without shared memory (`src/kernel/lib/halo.cpp:78-490`), `adv_halo_exchange`
(`src/kernel/lib/halo.cpp:493-574`) and the arrays of requests and statuses of a var
(`src/kernel/lib/settings.hpp:557-593`).

Any number of ranks run concurrently, and so does MPI, which may take the data of a message from the buffer of
the sender at any time between `MPI_Isend` and the completion of that request, and may write them to the
buffer of the receiver at any time after both `MPI_Isend` and the `MPI_Irecv` that it matches.

MPI is modelled by what its standard says: the k-th message from one rank to another with a given tag
matches the k-th receive request with this source and tag (messages do not overtake each other); a request is
complete when the data have been taken or written; `MPI_Wait` waits for this and sets the request to
`MPI_REQUEST_NULL`; `MPI_Testsome` does so for requests that are complete.  What the standard leaves undefined
sets the flag `bad`: to change or reuse a buffer that belongs to a request that is not complete, and a
message longer than the size of the receive.

Simplifications: all ranks exchange the same vars in an exchange, also when it is done by two calls (C23, C78), and
both ends of a message have buffers of
the same size (C29); packing a buffer and `MPI_Isend` are one step; shared-memory buffers (C24) and
copies to and from a device are left out, as are the timers.
-/

namespace Yask.Msg
open MsgSpec

variable {R V : Type} [DecidableEq R]

/-- The four phases of an exchange, `halo_steps` (`halo.cpp:148`). -/
inductive Kind
  | irecv | send | unpack | final
  deriving DecidableEq

/-- The order of the phases (`steps_to_do`, `halo.cpp:149-163`). -/
def Kind.ord : Kind → Nat
  | .irecv => 0 | .send => 1 | .unpack => 2 | .final => 3

/-- What is done for one var and one neighbour in a phase (`halo.cpp:186-467`); `tag` is `gi`, the position
of the var in `vars_to_swap` (`halo.cpp:181-185`). -/
structure Act (R : Type) where
  kind : Kind
  tag : Nat
  var : Nat
  nb : R
  deriving DecidableEq

/-- The exchange pattern. -/
structure Net (R V : Type) where
  /-- the neighbours of a rank, in the order of `visit_neighbors` (`settings.hpp:600-620`) -/
  nbs : R → List R
  /-- `vars_to_swap` of an exchange (`halo.cpp:96-146`) -/
  vars : Nat → List Nat
  /-- `get_bytes()` of the buffers for a var from one rank to another, in elements; 0 if nothing is exchanged
  (`settings.hpp:503-511`) -/
  size : R → R → Nat → Nat
  /-- what is packed in an exchange, by a rank for another, of a var; nothing if the var of the sender is not
  dirty (`halo.cpp:252-296`) -/
  msg : Nat → R → R → Nat → List V
  rounds : Nat

/-- A rank visits each neighbour once, and each var is in `vars_to_swap` at most once (`halo.cpp:99-146`);
neighbours are so mutually; packed data fit in the buffer (`assert(npbytes <= nbbytes)`, `halo.cpp:297`). -/
structure Net.Ok (net : Net R V) : Prop where
  nbs_nodup : ∀ r, (net.nbs r).Nodup
  nbs_symm : ∀ r q, q ∈ net.nbs r → r ∈ net.nbs q
  vars_nodup : ∀ n, (net.vars n).Nodup
  fits : ∀ n a b v, (net.msg n a b v).length ≤ net.size a b v

/-- The size of the buffer that an action of rank `r` tests: its receive buffer when receiving, else its send
buffer (`halo.cpp:211,234,344,445`). -/
def Net.bytes (net : Net R V) (r : R) (k : Kind) (q : R) (v : Nat) : Nat :=
  match k with
  | .irecv | .unpack => net.size q r v
  | .send | .final => net.size r q v

/-- One phase: all vars to swap with their tags, from 1, and all neighbours (`halo.cpp:179-196`). -/
def Net.acts (net : Net R V) (n : Nat) (r : R) (k : Kind) : List (Act R) :=
  ((net.vars n).zipIdx 1).flatMap fun p =>
    ((net.nbs r).filter fun q => decide (0 < net.bytes r k q p.1)).map fun q => ⟨k, p.2, p.1, q⟩

/-- One exchange: the phases in order (`halo.cpp:149-179`).  With overlapped communication, the first two
are done by one call, and the others by a later one, with computation and progress tests in between
(`context.cpp:436-480`). -/
def Net.prog (net : Net R V) (n : Nat) (r : R) : List (Act R) :=
  if n < net.rounds then
    net.acts n r .irecv ++ net.acts n r .send ++ net.acts n r .unpack ++ net.acts n r .final
  else []

/-- State of all ranks and of MPI.  Buffers, requests and statuses are those of a rank, a neighbour and a var;
messages and receives are those from a rank to another with a tag, numbered from 0. -/
structure State (R V : Type) where
  round : R → Nat
  todo : R → List (Act R)
  /-- `recv_reqs`, `recv_stats`, receive buffers; `none` is `MPI_REQUEST_NULL` -/
  rreq : R × R × Nat → Option (Nat × Nat)
  rstat : R × R × Nat → Nat
  rbuf : R × R × Nat → List V
  /-- `send_reqs`, send buffers -/
  sreq : R × R × Nat → Option (Nat × Nat)
  sbuf : R × R × Nat → List V
  /-- messages sent, with the var of the buffer, the length and the data when they have been taken -/
  nsent : R × R × Nat → Nat
  svar : R × R × Nat × Nat → Nat
  slen : R × R × Nat × Nat → Nat
  sdat : R × R × Nat × Nat → Option (List V)
  /-- receives requested, with the var of the buffer and the length received when the data have been written -/
  nrecv : R × R × Nat → Nat
  rvar : R × R × Nat × Nat → Nat
  rgot : R × R × Nat × Nat → Option Nat
  /-- something was done that MPI leaves undefined -/
  bad : Bool
  /-- what each rank has unpacked -/
  log : R → List (Got R V)

/-- Initial state: no requests (`MPIData`, `settings.hpp:576-593`); statuses and buffers hold anything. -/
def init (net : Net R V) (rstat : R × R × Nat → Nat) (rbuf sbuf : R × R × Nat → List V) : State R V where
  round _ := 0
  todo := net.prog 0
  rreq _ := none
  rstat := rstat
  rbuf := rbuf
  sreq _ := none
  sbuf := sbuf
  nsent _ := 0
  svar _ := 0
  slen _ := 0
  sdat _ := none
  nrecv _ := 0
  rvar _ := 0
  rgot _ := none
  bad := false
  log _ := []

/-- Data written over the first cells of a buffer. -/
def over (x old : List V) : List V := x ++ old.drop x.length

/-- `MPI_Irecv` into the buffer of the neighbour (`halo.cpp:208-231`). -/
def doIrecv (s : State R V) (r : R) (a : Act R) : State R V :=
  let c := (a.nb, r, a.tag)
  let k := s.nrecv c
  { s with
    bad := s.bad || (s.rreq (r, a.nb, a.var)).isSome
    nrecv := Function.update s.nrecv c (k + 1)
    rvar := Function.update s.rvar (a.nb, r, a.tag, k) a.var
    rreq := Function.update s.rreq (r, a.nb, a.var) (some (a.tag, k)) }

/-- Packing and `MPI_Isend` (`halo.cpp:232-337`). -/
def doSend (net : Net R V) (s : State R V) (r : R) (a : Act R) : State R V :=
  let c := (r, a.nb, a.tag)
  let k := s.nsent c
  let m := net.msg (s.round r) r a.nb a.var
  { s with
    bad := s.bad || (s.sreq (r, a.nb, a.var)).isSome
    sbuf := Function.update s.sbuf (r, a.nb, a.var) (over m (s.sbuf (r, a.nb, a.var)))
    nsent := Function.update s.nsent c (k + 1)
    svar := Function.update s.svar (r, a.nb, a.tag, k) a.var
    slen := Function.update s.slen (r, a.nb, a.tag, k) m.length
    sreq := Function.update s.sreq (r, a.nb, a.var) (some (a.tag, k)) }

/-- Taking `nbytes` out of the receive buffer (`halo.cpp:380-437`). -/
def take (s : State R V) (r : R) (a : Act R) (nbytes : Nat) : State R V :=
  { s with
    log := Function.update s.log r
      (s.log r ++ [⟨s.round r, a.var, a.nb, (s.rbuf (r, a.nb, a.var)).take nbytes⟩]) }

/-- Waiting for the data, unless a test has found them, and unpacking (`halo.cpp:341-441`); `none` while
`MPI_Wait` does not return. -/
def doUnpack (s : State R V) (r : R) (a : Act R) : Option (State R V) :=
  match s.rreq (r, a.nb, a.var) with
  -- `halo.cpp:362-366`: the status was stored by a test
  | none => some (take s r a (s.rstat (r, a.nb, a.var)))
  -- `halo.cpp:367-377`
  | some (t, k) =>
    match s.rgot (a.nb, r, t, k) with
    | none => none
    | some c => some (take { s with
        rreq := Function.update s.rreq (r, a.nb, a.var) none
        rstat := Function.update s.rstat (r, a.nb, a.var) c } r a c)

/-- Waiting for the send to finish (`halo.cpp:443-467`). -/
def doFinal (s : State R V) (r : R) (a : Act R) : Option (State R V) :=
  match s.sreq (r, a.nb, a.var) with
  | none => some s
  | some (t, k) =>
    if (s.sdat (r, a.nb, t, k)).isSome then
      some { s with sreq := Function.update s.sreq (r, a.nb, a.var) none }
    else none

/-- The next action of rank `r`; `none` if it waits. -/
def act (net : Net R V) (s : State R V) (r : R) (a : Act R) : Option (State R V) :=
  match a.kind with
  | .irecv => some (doIrecv s r a)
  | .send => some (doSend net s r a)
  | .unpack => doUnpack s r a
  | .final => doFinal s r a

/-- The next step of rank `r`; `none` if it waits or has finished. -/
def stepRank (net : Net R V) (s : State R V) (r : R) : Option (State R V) :=
  match s.todo r with
  | [] =>
    if s.round r < net.rounds then
      some { s with
        round := Function.update s.round r (s.round r + 1)
        todo := Function.update s.todo r (net.prog (s.round r + 1) r) }
    else none
  | a :: rest =>
    (act net s r a).map fun s' => { s' with todo := Function.update s'.todo r rest }

/-- The length that the status of a complete receive has. -/
def count (s : State R V) (r q : R) (v : Nat) : Nat :=
  match s.rreq (r, q, v) with
  | some (t, k) => (s.rgot (q, r, t, k)).getD 0
  | none => 0

/-- `MPI_Testsome` on the receives of var `v`, when it returns `locs` in `indices` (`halo.cpp:523-534`): these
requests become `MPI_REQUEST_NULL`, and the i-th status returned is stored at the i-th index. -/
def testRecv (s : State R V) (r : R) (v : Nat) (locs : List R) : State R V :=
  let stats := locs.map fun q => count s r q v
  { s with
    rreq := fun x => if x.1 = r ∧ x.2.1 ∈ locs ∧ x.2.2 = v then none else s.rreq x
    rstat := (locs.zip stats).foldl (fun f p => Function.update f (r, p.1, v) p.2) s.rstat }

/-- `MPI_Testsome` on the sends of var `v` (`halo.cpp:535-541`). -/
def testSend (s : State R V) (r : R) (v : Nat) (locs : List R) : State R V :=
  { s with sreq := fun x => if x.1 = r ∧ x.2.1 ∈ locs ∧ x.2.2 = v then none else s.sreq x }

/-- MPI takes the data of message `k` out of the send buffer. -/
def fetch (s : State R V) (a b : R) (t k : Nat) : State R V :=
  { s with
    sdat := Function.update s.sdat (a, b, t, k)
      (some ((s.sbuf (a, b, s.svar (a, b, t, k))).take (s.slen (a, b, t, k)))) }

/-- MPI writes the data `x` of message `k` to the buffer of receive `k`. -/
def deliver (net : Net R V) (s : State R V) (a b : R) (t k : Nat) (x : List V) : State R V :=
  let v := s.rvar (a, b, t, k)
  { s with
    bad := s.bad || decide (net.size a b v < x.length)
    rbuf := Function.update s.rbuf (b, a, v) (over x (s.rbuf (b, a, v)))
    rgot := Function.update s.rgot (a, b, t, k) (some x.length) }

/-- A step of a rank or of MPI. -/
inductive Work (net : Net R V) (s : State R V) : State R V → Prop
  | rank (r : R) (u) (h : stepRank net s r = some u) : Work net s u
  | fetch (a b : R) (t k : Nat) (h : k < s.nsent (a, b, t)) (hd : s.sdat (a, b, t, k) = none) :
      Work net s (fetch s a b t k)
  | deliver (a b : R) (t k : Nat) (x : List V) (hd : s.sdat (a, b, t, k) = some x)
      (h : k < s.nrecv (a, b, t)) (hg : s.rgot (a, b, t, k) = none) :
      Work net s (deliver net s a b t k x)

/-- A progress test of a rank (part of `adv_halo_exchange`) that finds any of the requests that are complete,
in any order. -/
inductive Test (s : State R V) : State R V → Prop
  | recv (r : R) (v : Nat) (locs : List R)
      (h : ∀ q ∈ locs, ∃ t k c, s.rreq (r, q, v) = some (t, k) ∧ s.rgot (q, r, t, k) = some c) :
      Test s (testRecv s r v locs)
  | send (r : R) (v : Nat) (locs : List R)
      (h : ∀ q ∈ locs, ∃ t k x, s.sreq (r, q, v) = some (t, k) ∧ s.sdat (r, q, t, k) = some x) :
      Test s (testSend s r v locs)

/-- Executions: any interleaving of steps and tests, with the number of steps that are not tests. -/
inductive Reach (net : Net R V) : State R V → State R V → Nat → Prop
  | refl (s) : Reach net s s 0
  | work (s t u n) : Reach net s t n → Work net t u → Reach net s u (n + 1)
  | test (s t u n) : Reach net s t n → Test t u → Reach net s u n

/-! ### Ranks that compute what they send -/

/-- A program run by all ranks: as `Net`, but what a rank packs is computed from what it has received so far
(`run_solution` evaluates the equations between exchanges, `context.cpp:380-490`). -/
structure Prog (R V : Type) where
  nbs : R → List R
  vars : Nat → List Nat
  size : R → R → Nat → Nat
  pack : R → List (Got R V) → R → Nat → List V
  rounds : Nat

/-- As `Net.Ok`. -/
structure Prog.Ok (p : Prog R V) : Prop where
  nbs_nodup : ∀ r, (p.nbs r).Nodup
  nbs_symm : ∀ r q, q ∈ p.nbs r → r ∈ p.nbs q
  vars_nodup : ∀ n, (p.vars n).Nodup
  fits : ∀ a h b v, (p.pack a h b v).length ≤ p.size a b v

/-- The exchange pattern when the ranks have received `h`. -/
def Prog.at (p : Prog R V) (h : Nat → R → List (Got R V)) : Net R V where
  nbs := p.nbs
  vars := p.vars
  size := p.size
  msg n a b v := p.pack a (h n a) b v
  rounds := p.rounds

/-- As `Reach`, but each rank packs what it computes from what it has received at that time. -/
inductive RunsTo (p : Prog R V) : State R V → State R V → Nat → Prop
  | refl (s) : RunsTo p s s 0
  | work (s t u n) : RunsTo p s t n → Work (p.at fun _ => t.log) t u → RunsTo p s u (n + 1)
  | test (s t u n) : RunsTo p s t n → Test t u → RunsTo p s u n

end Yask.Msg
