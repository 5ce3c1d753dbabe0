import Verif.Common.IdivModel
import Verif.Common.TupleModel
import Verif.Common.ComboModel
import Verif.Loops.LoopModel
import Verif.Spec.Cover

/-!
# Model of the evaluation of one nano-block (`calc_nano_block_opt`) and of one micro-block

The result of the model is the list of points written, in program order.  A point is a list of global
element indices, one per domain dimension.  `idx_t` masks are 64-bit words: the right shift of a signed
mask is arithmetic.  What is computed at a point, and the step index, are not part of this model.
-/

namespace Yask.Nano
open Spec

/-- One domain dimension of a nano-block: fold length, pico-block size, nano-block tile size, rank
offset, and the global begin and end indices (`src/kernel/lib/stencil_calc.hpp:500-508,541-551`). -/
structure NanoDim where
  fold : Int
  pico : Int
  tile : Int
  rofs : Int
  b : Int
  e : Int
deriving Repr, DecidableEq

namespace NanoDim

/-- `ebgn` (`src/kernel/lib/stencil_calc.hpp:547`). -/
def ebgn (d : NanoDim) : Int := d.b - d.rofs
/-- `eend` (`src/kernel/lib/stencil_calc.hpp:548`). -/
def eend (d : NanoDim) : Int := d.e - d.rofs
/-- `fvbgn` before the special cases (`src/kernel/lib/stencil_calc.hpp:556`). -/
def fvbgn0 (d : NanoDim) : Int := roundUpFlr d.ebgn d.fold
/-- `fvend` (`src/kernel/lib/stencil_calc.hpp:557`). -/
def fvend (d : NanoDim) : Int := roundDownFlr d.eend d.fold
/-- `ovbgn` (`src/kernel/lib/stencil_calc.hpp:563`). -/
def ovbgn (d : NanoDim) : Int := roundDownFlr d.ebgn d.fold
/-- `ovend` (`src/kernel/lib/stencil_calc.hpp:564`). -/
def ovend (d : NanoDim) : Int := roundUpFlr d.eend d.fold
/-- `do_left_pvec` before the special cases (`src/kernel/lib/stencil_calc.hpp:570`). -/
def left0 (d : NanoDim) : Bool := decide (d.ebgn < d.fvbgn0)
/-- `do_right_pvec` before the special cases (`src/kernel/lib/stencil_calc.hpp:571`). -/
def right0 (d : NanoDim) : Bool := decide (d.eend > d.fvend)
/-- Peel and remainder overlap in one vector (`src/kernel/lib/stencil_calc.hpp:637`). -/
def same (d : NanoDim) : Bool := d.left0 && d.right0 && decide (d.ovbgn = d.fvend)
/-- `do_left_pvec` after the special cases (`src/kernel/lib/stencil_calc.hpp:637-653`). -/
def left (d : NanoDim) : Bool := d.left0
/-- `do_right_pvec` after the special cases (`src/kernel/lib/stencil_calc.hpp:637-653`). -/
def right (d : NanoDim) : Bool := if d.same then false else d.right0
/-- `fvbgn` after the special cases (`src/kernel/lib/stencil_calc.hpp:637-653`). -/
def fvbgn (d : NanoDim) : Int := if d.same then d.fvbgn0 else if d.fvend ≤ d.fvbgn0 then d.fvend else d.fvbgn0
/-- This dimension clears `do_fvecs` (`src/kernel/lib/stencil_calc.hpp:643,652`). -/
def noFull (d : NanoDim) : Bool := d.same || decide (d.fvend ≤ d.fvbgn0)

/-- Stride of the nano-block loops in elements (`ScanIndices::set_strides_from_inner`,
`src/kernel/lib/indices.hpp:794-807`). -/
def strideElems (d : NanoDim) : Int :=
  let s := roundUp d.pico d.fold
  if s > d.e - d.b then s * 2 else s

/-- Division by the fold length (`normalize_indices`, `src/kernel/lib/stencil_calc.hpp:64-94`). -/
def norm (d : NanoDim) (x : Int) : Int := idivFlr x d.fold

/-- The loop variables of the generated nano-block loop over the normalized range `r`
(`norm_fvidxs` or `pv_part`, `src/kernel/lib/stencil_calc.hpp:687,769`).  The loops are generated with
`-no-align`, so the alignment fields are not used (`src/kernel/Makefile:537`). -/
def loopDim (d : NanoDim) (r : Ivl) : LoopDim :=
  ⟨r.1, r.2, d.norm d.strideElems, 1, 0, d.norm d.tile⟩

end NanoDim

/-- The pico-block loops inside one body of the nano-block loops: unit strides over `[start, stop)`, the
outer dimensions `nested` and the inner-loop dimension in its own loop
(`src/compiler/lib/YaskKernel.cpp:668-706`, `src/kernel/Makefile:555-566`).  The inner-loop dimension is
taken to be the last one.  Returns the normalized vector indices at which the stencil code runs. -/
def picoVecs (bx : Box) : Option (List (List Int)) :=
  let ds : List LoopDim := bx.map fun r => ⟨r.1, r.2, 1, 1, 0, 1⟩
  (genLoops false [({ nested := true }, ds.dropLast), ({}, ds.drop (ds.length - 1))]).map
    fun bodies => bodies.map fun b => b.2.map Prod.fst

/-- The vectors evaluated by `calc_vectors` over the normalized box `bx`: nano-block loops with
modifiers `f` (by default `serpentine`) around pico-block loops
(`src/compiler/lib/YaskKernel.cpp:657-717`, `src/kernel/Makefile:536-549`). -/
def calcVecs (f : LoopFeat) (ds : List NanoDim) (bx : Box) : Option (List (List Int)) := do
  let bodies ← genLoops false [(f, List.zipWith NanoDim.loopDim ds bx)]
  let l ← bodies.mapM fun b => picoVecs b.2
  pure l.flatten

/-- The global point at offset `o` (one per dimension) within the vector `v`: a vector starts at fold
length times its normalized index, relative to the rank. -/
def vecPoint (ds : List NanoDim) (v o : List Int) : List Int :=
  List.zipWith (fun (d : NanoDim) (x : Int × Int) => x.1 * d.fold + x.2 + d.rofs) ds (v.zip o)

/-- `calc_vectors` with a write mask: nothing if the mask is zero, otherwise in each vector element `i`
of the fold (in layout order) is written iff bit `i` of the mask is set
(`src/compiler/lib/YaskKernel.cpp:616-717`, early return at 622). -/
def calcVectors (f : LoopFeat) (firstInner : Bool) (ds : List NanoDim) (bx : Box) (mask : BitVec 64) :
    Option (List (List Int)) :=
  if mask = 0#64 then some []
  else (calcVecs f ds bx).map fun vecs => vecs.flatMap fun v =>
    (List.range (prodVals (ds.map NanoDim.fold)).toNat).filterMap fun (i : Nat) =>
      if mask.getLsbD i then some (vecPoint ds v (unlayoutVals firstInner (ds.map NanoDim.fold) i))
      else none

/-- The loop over the points of a fold that shifts a mask right and sets its top bit when the condition
holds at the point (`src/kernel/lib/stencil_calc.hpp:597-627`).  The source computes two masks in one
pass. -/
def foldMask (firstInner : Bool) (sizes : List Int) (cond : List Int → Bool) : BitVec 64 :=
  let mbit : BitVec 64 := 1#64 <<< (prodVals sizes - 1).toNat
  (visitAllPointsIndices firstInner sizes
    (fun (m : BitVec 64) pt _ =>
      let m := m.sshiftRight 1
      (if cond pt then m ||| mbit else m, true)) 0#64).1

/-- `pmask` and `rmask` of dimension `j` after the special cases
(`src/kernel/lib/stencil_calc.hpp:574-646`). -/
def dimMasks (firstInner : Bool) (sizes : List Int) (j : Nat) (d : NanoDim) : BitVec 64 × BitVec 64 :=
  let pr :=
    if d.left0 || d.right0 then
      (foldMask firstInner sizes fun pt => decide (d.ovbgn + pt.getD j 0 ≥ d.ebgn),
       foldMask firstInner sizes fun pt => decide (d.fvend + pt.getD j 0 < d.eend))
    else (0#64, 0#64)
  if d.same then (pr.1 &&& pr.2, 0#64) else pr

/-- The loop over the dimensions that sets the range and the mask of one partial-vector part, from
dimension `j` on; `nsel` counts the selected dimensions so far
(`src/kernel/lib/stencil_calc.hpp:762-812`).  Returns ranges, mask and `pv_needed`. -/
def partGo (firstInner : Bool) (sizes : List Int) (cdims lr : Nat) :
    Nat → Nat → List NanoDim → Box × BitVec 64 × Bool
  | _, _, [] => ([], BitVec.allOnes 64, true)
  | j, nsel, d :: ds =>
    if isBitSet cdims j then
      let r := partGo firstInner sizes cdims lr (j + 1) (nsel + 1) ds
      if !isBitSet lr nsel then
        ((d.norm d.ovbgn, d.norm d.fvbgn) :: r.1, r.2.1 &&& (dimMasks firstInner sizes j d).1,
          r.2.2 && d.left)
      else
        ((d.norm d.fvend, d.norm d.ovend) :: r.1, r.2.1 &&& (dimMasks firstInner sizes j d).2,
          r.2.2 && d.right)
    else
      let r := partGo firstInner sizes cdims lr (j + 1) nsel ds
      ((d.norm d.fvbgn, d.norm d.fvend) :: r.1, r.2)

/-- The writes of one partial-vector part (`src/kernel/lib/stencil_calc.hpp:755-835`). -/
def partWrites (f : LoopFeat) (firstInner : Bool) (ds : List NanoDim) (cdims lr : Nat) :
    Option (List (List Int)) :=
  let p := partGo firstInner (ds.map NanoDim.fold) cdims lr 0 0 ds
  if p.2.2 then calcVectors f firstInner ds p.1 p.2.1 else some []

/-- The loops over numbers of dimensions, combinations of dimensions, and left-right sequences
(`src/kernel/lib/stencil_calc.hpp:716-840`). -/
def allParts (f : LoopFeat) (firstInner : Bool) (ds : List NanoDim) : Option (List (List Int)) := do
  let l ← (List.range ds.length).mapM fun (k0 : Nat) => do
    let nc ← nChooseK ds.length ((k0 : Int) + 1)
    let l ← (List.range nc.toNat).mapM fun (r : Nat) => do
      let cdims ← nChooseKSet ds.length ((k0 : Int) + 1) r
      let l ← (List.range (2 ^ (k0 + 1))).mapM fun (lr : Nat) => partWrites f firstInner ds cdims lr
      pure l.flatten
    pure l.flatten
  pure l.flatten

/-- The full vectors (`src/kernel/lib/stencil_calc.hpp:686-706`). -/
def fullWrites (f : LoopFeat) (firstInner : Bool) (ds : List NanoDim) : Option (List (List Int)) :=
  if ds.any NanoDim.noFull then some []
  else calcVectors f firstInner ds (ds.map fun d => (d.norm d.fvbgn, d.norm d.fvend)) (BitVec.allOnes 64)

/-- The partial vectors (`src/kernel/lib/stencil_calc.hpp:708-842`). -/
def borderWrites (f : LoopFeat) (firstInner : Bool) (ds : List NanoDim) : Option (List (List Int)) :=
  if ds.any fun d => d.left || d.right then allParts f firstInner ds else some []

/-- `calc_nano_block_opt`: the points written, full vectors first, then the parts with partial vectors
(`src/kernel/lib/stencil_calc.hpp:444-845`).  `none` is undefined behaviour in the combination
functions. -/
def calcNanoBlock (f : LoopFeat) (firstInner : Bool) (ds : List NanoDim) : Option (List (List Int)) := do
  let full ← fullWrites f firstInner ds
  let parts ← borderWrites f firstInner ds
  pure (full ++ parts)

/-! ### Micro-blocks -/

/-- Intersection of a micro-block with one full bounding box; `none` when it is empty
(`src/kernel/lib/stencil_calc.cpp:144-168`).  `bb_num_points` of a full bounding box is its volume, so
the separate test that it is positive adds nothing. -/
def trim (mb bb : Box) : Option Box :=
  let r := List.zipWith (fun (m b : Ivl) => ((max m.1 b.1, min m.2 b.2) : Ivl)) mb bb
  if r.any fun x => decide (x.2 ≤ x.1) then none else some r

/-- Settings of the micro-block and nano-block loops in one dimension: fold, nano-block size, alignment,
alignment offset and tile size of the micro-block loops, then pico-block size, tile size of the nano-block
loops and rank offset (`src/kernel/lib/stencil_calc.cpp:40-285`, `src/kernel/lib/stencil_calc.hpp:500-551`). -/
structure MicroDim where
  fold : Int
  nano : Int
  align : Int
  alignOfs : Int
  tile : Int
  pico : Int
  nanoTile : Int
  rofs : Int
deriving Repr, DecidableEq

/-- Loop variables of the micro-block loops when threads are not bound: strides set from the nano-block
sizes. -/
def MicroDim.freeLoop (m : MicroDim) (mb r : Ivl) : LoopDim :=
  let s := roundUp m.nano m.fold
  ⟨r.1, r.2, if s > mb.2 - mb.1 then s * 2 else s, m.align, m.alignOfs, m.tile⟩

/-- Loop variables of the micro-block loops when threads are bound: slabs of the nano-block size,
aligned to it, in the binding dimension, and one piece in the others
(`src/kernel/lib/stencil_calc.cpp:180-204`). -/
def MicroDim.boundLoop (m : MicroDim) (isBind : Bool) (r : Ivl) : LoopDim :=
  if isBind then ⟨r.1, r.2, m.nano, m.nano, m.alignOfs, m.tile⟩
  else ⟨r.1, r.2, roundUp (r.2 - r.1) m.fold * 2, m.align, m.alignOfs, m.tile⟩

/-- Nano-blocks of a trimmed micro-block when threads are not bound
(`src/kernel/lib/stencil_calc.cpp:255-275`; modifiers `f`, `src/kernel/Makefile:520-528`). -/
def freeNanoBlocks (f : LoopFeat) (ms : List MicroDim) (mb bx : Box) : Option (List Box) :=
  (genLoops true [(f, List.zipWith (fun (m : MicroDim) (x : Ivl × Ivl) => m.freeLoop x.1 x.2) ms
    (mb.zip bx))]).map fun l => l.map Prod.snd

/-- Nano-blocks that every inner thread goes through when threads are bound
(`src/kernel/lib/stencil_calc.cpp:214-240`). -/
def boundNanoBlocks (f : LoopFeat) (ms : List MicroDim) (bindPosn : Nat) (bx : Box) :
    Option (List Box) :=
  (genLoops true [(f, List.zipWith (fun (m : MicroDim × Nat) (r : Ivl) =>
      m.1.boundLoop (m.2 == bindPosn) r) ms.zipIdx bx)]).map fun l => l.map Prod.snd

/-- `bind_thr`: the thread that evaluates a nano-block
(`src/kernel/lib/stencil_calc.cpp:237-240`). -/
def bindThread (slab : Int) (nbt : Nat) (start : Int) : Int :=
  imodFlr (idivFlr (start + 0x1000) slab) nbt

/-- The nano-blocks evaluated by inner thread `thr` when threads are bound
(`src/kernel/lib/stencil_calc.cpp:214-248`). -/
def threadNanoBlocks (f : LoopFeat) (ms : List MicroDim) (bindPosn : Nat) (slab : Int) (nbt : Nat)
    (bx : Box) (thr : Nat) : Option (List Box) :=
  (boundNanoBlocks f ms bindPosn bx).map fun l =>
    l.filter fun nb => decide ((thr : Int) = bindThread slab nbt (nb.getD bindPosn (0, 0)).1)

/-- Thread binding: position of the binding dimension, slab width and number of inner threads; `none`
when threads are not bound (`src/kernel/lib/stencil_calc.cpp:62-72`). -/
structure Binding where
  posn : Nat
  slab : Int
  nbt : Nat
deriving Repr, DecidableEq

/-- The nano-blocks evaluated for one trimmed micro-block.  With bound threads, thread after thread: the
order between threads is not defined, so the list is to be read as a multiset. -/
def nanoBlocks (f : LoopFeat) (ms : List MicroDim) (bind : Option Binding) (mb bx : Box) :
    Option (List Box) :=
  match bind with
  | none => freeNanoBlocks f ms mb bx
  | some b => ((List.range b.nbt).mapM fun (thr : Nat) =>
      threadNanoBlocks f ms b.posn b.slab b.nbt bx thr).map List.flatten

/-- The nano-block dimensions passed to `calc_nano_block_opt`. -/
def nanoDims (ms : List MicroDim) (nb : Box) : List NanoDim :=
  List.zipWith (fun (m : MicroDim) (r : Ivl) => ⟨m.fold, m.pico, m.nanoTile, m.rofs, r.1, r.2⟩) ms nb

/-- The points of one part written for the micro-block `mb`: for every full bounding box of the part,
trim, loop over nano-blocks, evaluate each (`src/kernel/lib/stencil_calc.cpp:136-277`). -/
def microWrites (f g : LoopFeat) (firstInner : Bool) (ms : List MicroDim) (bind : Option Binding)
    (bbs : List Box) (mb : Box) : Option (List (List Int)) := do
  let l ← (bbs.filterMap (trim mb)).mapM fun bx => do
    let nbs ← nanoBlocks f ms bind mb bx
    let ws ← nbs.mapM fun nb => calcNanoBlock g firstInner (nanoDims ms nb)
    pure ws.flatten
  pure l.flatten

end Yask.Nano
