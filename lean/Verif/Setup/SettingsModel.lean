import Verif.Common.Outcome
import Verif.Common.IdivModel

/-!
# Model of the adjustment of block sizes and thread counts

`KernelSettings::adjust_settings()` (`src/kernel/lib/settings.cpp:766-1014`) with its helper `find_num_subsets()`
(`settings.cpp:690-762`), and `KernelStateBase::get_num_comp_threads()` (`settings.cpp:1062-1085`).

CPU build (`USE_OFFLOAD` and `USE_TILING` not defined, as in the default build). Printing is left out, and so are the
numbers of inner blocks, which are only printed. `idx_t` is unbounded. Sizes are given for each domain dim `0, 1, ...`
(position `i = j + 1` in the C++ tuples, where position 0 is the step dim).
-/

namespace Yask.Setup

/-- The sizes of the nested blocks in one domain dim (`src/kernel/lib/settings.hpp:221-260`). -/
structure BlkSizes where
  mega : Int
  block : Int
  micro : Int
  nano : Int
  pico : Int
deriving DecidableEq, Repr

/-- The settings used by `adjust_settings` (`src/kernel/lib/settings.hpp:221-300`): sizes of the nested blocks in each
domain dim and in the step dim, size of the rank, default block size, number of inner threads, `bind_inner_threads`
and `_bind_posn`. -/
structure KSet where
  nd : Nat
  rank : Nat → Int
  fold : Nat → Int
  innerLoop : Nat
  blk : Nat → BlkSizes
  stepBlk : BlkSizes
  defBlk : Int
  innerThreads : Int
  bindInner : Bool
  bindPosn : Nat

/-- The body of the loop of `find_num_subsets` for one dim (`settings.cpp:702-728`): the new inner size. -/
def fitSize (inner outer mult : Int) : Int :=
  let d := if inner ≤ 0 then outer else inner
  let d := if mult > 1 then roundUp d mult else d
  if d > outer then outer else d

/-- The step-dim sizes (`settings.cpp:787-794`). -/
def adjustSteps (b : BlkSizes) : BlkSizes :=
  let rt := max b.mega 0
  let bt := max b.block 0
  let mbt := max b.micro 0
  { b with mega := if rt = 0 then bt else rt, block := bt, micro := if mbt = 0 then bt else mbt }

/-- Mega-block, block and micro-block sizes of one dim (`settings.cpp:797-806`, `814-818`, `828-832`, `843-847`). -/
def adjustOuter (defBlk rank fold : Int) (b : BlkSizes) : BlkSizes :=
  let block := if b.block = 0 then defBlk else b.block
  let mega := fitSize b.mega rank fold
  let block := fitSize block mega fold
  { b with mega := mega, block := block, micro := fitSize b.micro block fold }

/-- `_nano_block_sizes.sum()`, which includes the step dim. -/
def nanoSum (s : KSet) : Int :=
  (List.range s.nd).foldl (fun a j => a + (s.blk j).nano) s.stepBlk.nano

/-- Nano-block sizes for several inner threads (`settings.cpp:860-901`).  As in the code, the block size used to divide
a 1D block is read at position `_bind_posn - 1`, which is the step dim when `_bind_posn` is 1. -/
def defaultNano (s : KSet) : KSet :=
  if s.innerThreads > 1 ∧ nanoSum s = 0 then
    let j := ((List.range s.nd).find? fun j =>
      decide (j ≠ s.innerLoop) && decide ((s.blk j).block.tdiv (s.fold j) ≥ s.innerThreads)).getD 0
    let bsz := if j = 0 then s.stepBlk.block else (s.blk (j - 1)).block
    let sz := if s.nd ≥ 2 then s.fold j else roundUp (bsz.tdiv s.innerThreads) (s.fold j)
    { s with
      bindPosn := j + 1
      blk := fun k => if k = j then { s.blk k with nano := sz } else s.blk k }
  else s

/-- The search of the binding dim (`settings.cpp:936-957`); dividing by a zero nano-block size is undefined. -/
def findBind (s : KSet) : List Nat → Outcome Nat
  | [] => .ok s.bindPosn
  | j :: js =>
    if j = s.innerLoop then findBind s js
    else if (s.blk j).nano = 0 then .undefined
    else if ceilDiv (s.blk j).block (s.blk j).nano ≥ s.innerThreads then .ok (j + 1)
    else findBind s js

/-- `adjust_settings` (`settings.cpp:766-1014`). -/
def adjustSettings (s : KSet) : Outcome KSet := do
  let s1 := { s with
    stepBlk := adjustSteps s.stepBlk
    blk := fun j => adjustOuter s.defBlk (s.rank j) (s.fold j) (s.blk j) }
  let s2 := defaultNano s1
  let s3 := { s2 with
    blk := fun j =>
      let b := s2.blk j
      let nano := fitSize b.nano b.micro (s2.fold j)
      { b with nano := nano, pico := fitSize b.pico nano (s2.fold j) } }
  if s3.bindInner ∧ s3.innerThreads > 1 then do
    let p ← findBind s3 (List.range s3.nd)
    pure { s3 with bindPosn := p }
  else pure s3

/-- `get_num_comp_threads` (`settings.cpp:1062-1085`): outer threads, inner threads and their product, from
`max_threads`, `num_outer_threads` and `num_inner_threads`. -/
def numCompThreads (maxT outer inner : Int) : Int × Int × Int :=
  let mt := max maxT 1
  let it := min (max inner 1) mt
  let maxOt := max (mt.tdiv it) 1
  let ot := if outer ≤ 0 then maxOt else outer
  let ot := min ot maxOt
  (ot, it, it * ot)

/-! ### Words used in the statements -/

/-- Every rank has at least one point and one vector has at least one point in every dim. -/
structure KSet.Legal (s : KSet) : Prop where
  rank_pos : ∀ j < s.nd, 0 < s.rank j
  fold_pos : ∀ j < s.nd, 0 < s.fold j
  def_pos : 0 < s.defBlk

/-- The block size asked for: the default one if the user gave 0. -/
def KSet.reqBlock (s : KSet) (j : Nat) : Int := if (s.blk j).block = 0 then s.defBlk else (s.blk j).block

end Yask.Setup
