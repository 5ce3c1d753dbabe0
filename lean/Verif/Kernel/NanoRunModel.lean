import Verif.Kernel.NanoModel
import Verif.Compiler.InnerLoopModel

/-!
# Model of the evaluation of nano-blocks by the generated code

`NanoModel.lean` models which points are written; here the inner loops of `InnerLoopModel.lean` are run, with their loads and stores, for
the vectors of a nano-block: `calc_nano_block_opt` (`src/kernel/lib/stencil_calc.hpp:444-845`) and `calc_vectors`
(`src/compiler/lib/YaskKernel.cpp:602-719`).

Simplifications: as in the two models. In particular, the inner-loop dim is the last domain dim.
-/

namespace Yask.Nano
open Spec Comp Spec.Cpp

/-- One run of the inner loop: numbers of the first vector in the domain dims, number of iterations, write mask. -/
structure InnerRun where
  first : List Int
  n : Nat
  mask : BitVec 64
deriving Repr, DecidableEq

/-- The inner loops in one body of the nano-block loops: first vector and number of iterations of each
(`src/compiler/lib/YaskKernel.cpp:668-690`, `src/kernel/Makefile:555-566`). -/
def picoRuns (bx : Box) : Option (List (List Int × Nat)) :=
  let ds : List LoopDim := bx.map fun r => ⟨r.1, r.2, 1, 1, 0, 1⟩
  (genLoops false [({ nested := true }, ds.dropLast)]).bind fun outer =>
    (genLoops false [({}, ds.drop (ds.length - 1))]).map fun inner =>
      outer.map fun b => (b.2.map Prod.fst ++ (bx.drop (bx.length - 1)).map Prod.fst, inner.length)

/-- The inner loops in one call of `calc_vectors` (`src/compiler/lib/YaskKernel.cpp:657-717`). The test for an empty mask is in
`PartLoop.run`. -/
def vectorRuns (f : LoopFeat) (ds : List NanoDim) (bx : Box) (mask : BitVec 64) : Option (List InnerRun) :=
  (genLoops false [(f, List.zipWith NanoDim.loopDim ds bx)]).bind fun bodies =>
    (bodies.mapM fun b => picoRuns b.2).map fun l => l.flatten.map fun x => ⟨x.1, x.2, mask⟩

/-- The call for one part with partial vectors, if it is needed (`src/kernel/lib/stencil_calc.hpp:755-835`). -/
def partCalls (firstInner : Bool) (ds : List NanoDim) (cdims lr : Nat) : List (Box × BitVec 64) :=
  let p := partGo firstInner (ds.map NanoDim.fold) cdims lr 0 0 ds
  if p.2.2 then [(p.1, p.2.1)] else []

/-- The calls for all parts with partial vectors (`src/kernel/lib/stencil_calc.hpp:716-840`). -/
def allCalls (firstInner : Bool) (ds : List NanoDim) : Option (List (Box × BitVec 64)) := do
  let l ← (List.range ds.length).mapM fun (k0 : Nat) => do
    let nc ← nChooseK ds.length ((k0 : Int) + 1)
    let l ← (List.range nc.toNat).mapM fun (r : Nat) => do
      let cdims ← nChooseKSet ds.length ((k0 : Int) + 1) r
      pure ((List.range (2 ^ (k0 + 1))).map fun (lr : Nat) => partCalls firstInner ds cdims lr).flatten
    pure l.flatten
  pure l.flatten

/-- The calls of `calc_vectors` for a nano-block: normalized box and mask of each
(`src/kernel/lib/stencil_calc.hpp:686-842`). -/
def nanoCalls (firstInner : Bool) (ds : List NanoDim) : Option (List (Box × BitVec 64)) := do
  let parts ← if ds.any fun d => d.left || d.right then allCalls firstInner ds else some []
  pure ((if ds.any NanoDim.noFull then []
    else [(ds.map fun d => (d.norm d.fvbgn, d.norm d.fvend), BitVec.allOnes 64)]) ++ parts)

/-- All runs of the inner loop for a nano-block, in order. -/
def nanoRuns (f : LoopFeat) (firstInner : Bool) (ds : List NanoDim) : Option (List InnerRun) :=
  (nanoCalls firstInner ds).bind fun cs =>
    (cs.mapM fun x => vectorRuns f ds x.1 x.2).map List.flatten

/-- A part in a solution: its code, the domain dims, the step dim, and the step that is evaluated. -/
structure PartAt where
  c : PartLoop
  dims : List String
  step : String
  t : Int

/-- The indices at the start of an inner loop, by dim: the step, and the numbers of the vector
(`src/compiler/lib/YaskKernel.cpp:627-629`, `672-673`). -/
def PartAt.index (p : PartAt) (v : List Int) : String → Int :=
  fun d => if d = p.step then p.t else ((p.dims.zip v).lookup d).getD 0

section
variable {V : Type}

/-- One run of the inner loop. -/
def PartAt.runInner (p : PartAt) (u : V) (A : Arith V) (r : InnerRun) (mem : Nat → Int → V) : Outcome (Nat → Int → V) :=
  { p.c with mask := r.mask.toNat }.run u A.lanes (p.index r.first) r.n mem

/-- Runs of the inner loop, one after the other. -/
def PartAt.runInners (p : PartAt) (u : V) (A : Arith V) : List InnerRun → (Nat → Int → V) → Outcome (Nat → Int → V)
  | [], mem => .ok mem
  | r :: rs, mem => do
    let m ← p.runInner u A r mem
    runInners p u A rs m

/-- `calc_nano_block_opt` (`src/kernel/lib/stencil_calc.hpp:444-845`) for the nano-block `ds`; undefined where the combination functions
are. -/
def PartAt.runNano (p : PartAt) (u : V) (A : Arith V) (f : LoopFeat) (firstInner : Bool) (ds : List NanoDim) (mem : Nat → Int → V) :
    Outcome (Nat → Int → V) :=
  match nanoRuns f firstInner ds with
  | none => .undefined
  | some rs => p.runInners u A rs mem

/-- Runs of the inner loop for all nano-blocks of a part in the micro-block `mb` (`src/kernel/lib/stencil_calc.cpp:136-277`). With several
threads, the order between nano-blocks is not defined. -/
def microRuns (f g : LoopFeat) (firstInner : Bool) (ms : List MicroDim) (bind : Option Binding) (bbs : List Box) (mb : Box) :
    Option (List InnerRun) :=
  ((bbs.filterMap (trim mb)).mapM fun bx => (nanoBlocks f ms bind mb bx).bind fun nbs =>
    (nbs.mapM fun nb => nanoRuns g firstInner (nanoDims ms nb)).map List.flatten).map List.flatten

end
end Yask.Nano
