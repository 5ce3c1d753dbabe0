import Verif.Var.ResizeModel

/-!
# Model of the allocation of storage

`alloc_var_data`, the last part of `alloc_mpi_data`, `alloc_scratch_data` and `_alloc_data`
(`src/kernel/lib/alloc.cpp:272-452`, `860-1029`, `1036-1187`).

All work in passes over the same list: pass 0 adds up the bytes needed for each key, then one chunk of memory is allocated for
each key; pass 1 hands out the parts of the chunks, with the running sum as offset. A chunk is named by its key; all chunks
returned by the allocator are different memory. Sizes are unbounded. Vars, threads and memory slots are numbered.
-/

namespace Yask.Setup

/-- `AllocKey`: kind of memory and sequence number (`src/kernel/lib/alloc.hpp:185-197`). -/
abbrev AKey := Int × Nat

/-- `CACHELINE_BYTES` and `_data_buf_pad` (`src/kernel/lib/yask.hpp:170-172`, `context.hpp:242`). -/
def cacheLine : Nat := 64
def bufPad : Nat := cacheLine * 3

/-- `ROUND_UP(nbytes + _data_buf_pad, CACHELINE_BYTES)` (`alloc.cpp:412`, `996-997`, `1160-1161`). -/
def resBytes (n : Nat) : Nat := (n + bufPad + cacheLine - 1) / cacheLine * cacheLine

/-- Adds to the bytes of a key. -/
def addReq (reqs : AKey → Nat) (k : AKey) (n : Nat) : AKey → Nat := fun k' => if k' = k then reqs k' + n else reqs k'

/-- The storage of a var or buffer: chunk and offset. -/
structure Place where
  chunk : AKey
  ofs : Nat
deriving DecidableEq

/-! ### Vars -/

/-- The order of allocation (`alloc.cpp:347-374`): each output var, then original vars not done, then the other vars. -/
def sortVars (outs orig all : List Nat) : List Nat :=
  let done (l : List Nat) (gp : Nat) : List Nat := if gp ∈ l then l else l ++ [gp]
  all.foldl done (orig.foldl done outs)

/-- Requests, sequence number and storage set so far. -/
structure AState where
  reqs : AKey → Nat := fun _ => 0
  seq : Nat := 0
  store : Nat → Option Place := fun _ => none

/-- What is known about the vars: `core` is the `YkVarBase` of a var (two vars have the same one after `fuse_vars`); `bytes`,
`numa` and `old` are the storage size, preferred memory and whether there was storage before the call, for each core. -/
structure AVars where
  core : Nat → Nat
  bytes : Nat → Nat
  numa : Nat → Int
  old : Nat → Bool

/-- One var in a pass (`alloc.cpp:395-444`). `sizes` is `none` in pass 0, and the sizes of the chunks in pass 1. For a key
without memory the pointer is null, and the var is left without storage (`src/kernel/lib/generic_var.cpp:77-95`; an assertion
at `alloc.cpp:425` in builds with assertions). -/
def varStep (bundle : Bool) (v : AVars) (sizes : Option (AKey → Nat)) (s : AState) (gp : Nat) : AState :=
  let c := v.core gp
  if v.old c || (s.store c).isSome then s
  else
    let seq := if bundle then s.seq else s.seq + 1
    let k : AKey := (v.numa c, seq)
    let store := match sizes with
      | none => s.store
      | some sz => if sz k = 0 then s.store else fun c' => if c' = c then some ⟨k, s.reqs k⟩ else s.store c'
    { reqs := addReq s.reqs k (resBytes (v.bytes c)), seq := seq, store := store }

/-- Sizes of the chunks after pass 0 (`alloc.cpp:380-449`). -/
def varSizes (bundle : Bool) (v : AVars) (l : List Nat) : AKey → Nat :=
  (l.foldl (varStep bundle v none) {}).reqs

/-- `alloc_var_data`: sizes of the chunks and new storage of each core. -/
def allocVars (bundle : Bool) (v : AVars) (outs orig all : List Nat) : (AKey → Nat) × (Nat → Option Place) :=
  let l := sortVars outs orig all
  let sizes := varSizes bundle v l
  (sizes, (l.foldl (varStep bundle v (some sizes)) {}).store)

/-! ### Scratch vars -/

/-- What is known about the scratch vars: memory slot assigned by the compiler, storage size for the current micro-block sizes
and preferred memory. -/
structure AScratch where
  slot : Nat → Nat
  bytes : Nat → Nat
  numa : Nat → Int

/-- What sets the size of scratch vars in one domain dim: micro-block size, allowance for wave-front and temporal-block shifts
(`max(wf_shift_pts, tb_angles * num_tb_shifts) * 2`), largest write halos, fold length, and whether it is the inner dim. -/
structure SDim where
  mblk : Int
  ext : Int
  minL : Int
  minR : Int
  fold : Int := 1
  inner : Bool := false

/-- A domain dim of a new scratch var with halos `h` after the calls at `alloc.cpp:1112-1128`. -/
def SDim.dimG (d : SDim) (h : Int × Int) : Var.DimG :=
  { kind := .domain, domain := d.mblk, lExt := d.ext, rExt := d.ext, reqLPad := max 0 d.minL, reqRPad := max 0 d.minR,
    lHalo := h.1, rHalo := h.2, solnVL := d.fold, isInner := d.inner }

/-- Bytes of a scratch var with halos `hs` and `misc` points in its misc dims (`get_num_storage_bytes`, after `resize`
without storage); scratch vars use all domain dims (`src/compiler/lib/Eqs.cpp:405-414`). -/
def scratchBytes (vlenGt1 allowAddl : Bool) (elemBytes misc : Nat) (ds : List SDim) (hs : List (Int × Int)) : Nat :=
  elemBytes * misc * ((List.zipWith (fun d h => ((SDim.dimG d h).resized vlenGt1 allowAddl false).alloc) ds hs).prod).toNat

/-- State of a pass: `mem_slots_seen` and `mem_slot_data` in one table. -/
structure SState where
  reqs : AKey → Nat := fun _ => 0
  seq : Nat := 0
  slots : Nat → Nat → Option Place := fun _ _ => none
  store : Nat → Nat → Option Place := fun _ _ => none

/-- One scratch var of one thread in a pass (`alloc.cpp:1093-1176`). The requests are looked at again for a slot seen before,
but not changed. -/
def scratchStep (bundle : Bool) (v : AScratch) (s : SState) (x : Nat × Nat) : SState :=
  let (g, t) := x
  match s.slots t (v.slot g) with
  | some p => { s with store := fun g' t' => if g' = g ∧ t' = t then some p else s.store g' t' }
  | none =>
    let seq := if bundle then s.seq else s.seq + 1
    let k : AKey := (v.numa g, seq)
    let p : Place := ⟨k, s.reqs k⟩
    { reqs := addReq s.reqs k (resBytes (v.bytes g)), seq := seq,
      slots := fun t' m => if t' = t ∧ m = v.slot g then some p else s.slots t' m,
      store := fun g' t' => if g' = g ∧ t' = t then some p else s.store g' t' }

/-- The order of the loops (`alloc.cpp:1083-1093`): scratch vars, then threads. -/
def scratchOrder (nvars nthreads : Nat) : List (Nat × Nat) :=
  (List.range nvars).flatMap fun g => (List.range nthreads).map fun t => (g, t)

/-- `alloc_scratch_data` (`alloc.cpp:1036-1187`): sizes of the chunks and storage of each scratch var of each thread. Both
passes are the same, except that the pointers are set in the second. -/
def allocScratch (bundle : Bool) (v : AScratch) (nvars nthreads : Nat) : (AKey → Nat) × (Nat → Nat → Option Place) :=
  let s := (scratchOrder nvars nthreads).foldl (scratchStep bundle v) {}
  (s.reqs, s.store)

/-! ### MPI buffers -/

/-- A buffer: number of its var, number of the neighbour, direction, size in bytes, and the neighbour's rank in the
shared-memory group, if any (`src/kernel/lib/settings.hpp:440-560`). -/
structure ABuf where
  var : Nat
  nbr : Nat
  send : Bool
  bytes : Nat
  shm : Option Nat
deriving DecidableEq

/-- `_shmem_key` (`alloc.cpp:270`). -/
def shmemKey : Int := 1000

/-- `use_mine` (`alloc.cpp:951-953`): memory of this rank. -/
def ABuf.mine (b : ABuf) : Bool := b.send || b.shm.isNone

/-- The key of a buffer (`alloc.cpp:918-948`); the sequence number stays 0. -/
def ABuf.key (numaPref : Int) (b : ABuf) : AKey := (if b.shm.isSome then shmemKey else numaPref, 0)

/-- Requests, storage of the buffers so far (in order), and `sb_ofs` (var, receiving shm rank). -/
structure MState where
  reqs : AKey → Nat := fun _ => 0
  store : List (ABuf × Place) := []
  sbOfs : Nat → Nat → Nat := fun _ _ => 0

/-- One buffer in passes 0 and 1 (`alloc.cpp:932-1004`). -/
def bufStep (numaPref : Int) (s : MState) (b : ABuf) : MState :=
  if b.bytes = 0 then s
  else if b.mine then
    let k := b.key numaPref
    let ofs := s.reqs k
    { reqs := addReq s.reqs k (resBytes b.bytes), store := s.store ++ [(b, ⟨k, ofs⟩)],
      sbOfs := fun g' r' => if b.send = true ∧ b.shm = some r' ∧ g' = b.var then ofs else s.sbOfs g' r' }
  else s

/-- Allocation of the buffers of a rank in its own memory (`alloc.cpp:881-1025`, passes 0 and 1). `bufs` in the order of the
visits: vars, neighbours, directions. -/
def allocBufs (numaPref : Int) (bufs : List ABuf) : MState := bufs.foldl (bufStep numaPref) {}

/-- Storage of the receive buffer of var `g` for a sender in the same shared-memory group, on the rank with shared-memory rank
`me`: in the memory of the sender, at the offset that the sender has shared (`alloc.cpp:973-981`, `1006-1020`). -/
def recvPlace (sender : MState) (g me : Nat) : Place := ⟨(shmemKey, 0), sender.sbOfs g me⟩

end Yask.Setup
