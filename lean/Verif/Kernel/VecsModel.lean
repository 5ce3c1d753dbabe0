import Verif.Kernel.NanoModel

/-!
# Model of the vectors that are evaluated in a nano-block and in a micro-block

The functions of `NanoModel.lean` list the points that are *written*.  The stencil code computes all lanes of a vector, also those that
the write mask excludes, so it *reads* the inputs of all lanes.  Here the same loops list the vectors.
-/

namespace Yask.Nano
open Spec

/-- Full vectors (`src/kernel/lib/stencil_calc.hpp:686-706`), for an arbitrary meaning `run` of a call of `calc_vectors` with a normalized
box and a mask. -/
def nanoFull {α : Type} (run : Box → BitVec 64 → Option (List α)) (ds : List NanoDim) : Option (List α) :=
  if ds.any NanoDim.noFull then some []
  else run (ds.map fun d => (d.norm d.fvbgn, d.norm d.fvend)) (BitVec.allOnes 64)

/-- The parts with partial vectors (`src/kernel/lib/stencil_calc.hpp:708-842`). -/
def nanoBorder {α : Type} (run : Box → BitVec 64 → Option (List α)) (firstInner : Bool) (ds : List NanoDim) : Option (List α) :=
  if ds.any fun d => d.left || d.right then do
    let l ← (List.range ds.length).mapM fun (k0 : Nat) => do
      let nc ← nChooseK ds.length ((k0 : Int) + 1)
      let l ← (List.range nc.toNat).mapM fun (r : Nat) => do
        let cdims ← nChooseKSet ds.length ((k0 : Int) + 1) r
        let l ← (List.range (2 ^ (k0 + 1))).mapM fun (lr : Nat) =>
          let p := partGo firstInner (ds.map NanoDim.fold) cdims lr 0 0 ds
          if p.2.2 then run p.1 p.2.1 else some []
        pure l.flatten
      pure l.flatten
    pure l.flatten
  else some []

/-- The calls of `calc_vectors` in one nano-block: full vectors first, then the parts with partial vectors (`src/kernel/lib/stencil_calc.hpp:444-845`). -/
def nanoBlockWith {α : Type} (run : Box → BitVec 64 → Option (List α)) (firstInner : Bool) (ds : List NanoDim) : Option (List α) := do
  let full ← nanoFull run ds
  let parts ← nanoBorder run firstInner ds
  pure (full ++ parts)

/-- The points written are listed by the same calls. -/
theorem calcNanoBlock_with (f : LoopFeat) (fi : Bool) (ds : List NanoDim) :
    calcNanoBlock f fi ds = nanoBlockWith (calcVectors f fi ds) fi ds := rfl

/-- The vectors (normalized indices) on which one call of `calc_vectors` runs the stencil code: none if the mask is zero
(`src/compiler/lib/YaskKernel.cpp:616-717`). -/
def callVecs (f : LoopFeat) (ds : List NanoDim) (bx : Box) (mask : BitVec 64) : Option (List (List Int)) :=
  if mask = 0#64 then some [] else calcVecs f ds bx

/-- The vectors on which the stencil code runs in a nano-block. -/
def nanoVecs (f : LoopFeat) (firstInner : Bool) (ds : List NanoDim) : Option (List (List Int)) :=
  nanoBlockWith (callVecs f ds) firstInner ds

/-- The vectors on which the stencil code of one part runs in the micro-block `mb` (`src/kernel/lib/stencil_calc.cpp:136-277`). -/
def microVecs (f g : LoopFeat) (firstInner : Bool) (ms : List MicroDim) (bind : Option Binding) (bbs : List Box) (mb : Box) :
    Option (List (List Int)) := do
  let l ← (bbs.filterMap (trim mb)).mapM fun bx => do
    let nbs ← nanoBlocks f ms bind mb bx
    let vs ← nbs.mapM fun nb => nanoVecs g firstInner (nanoDims ms nb)
    pure vs.flatten
  pure l.flatten

end Yask.Nano
