import Verif.Common.IdivModel
import Verif.Common.TupleModel
import Verif.Spec.Cover

/-!
# Model of the generated scan loops (`utils/bin/gen_loops.pl`)

The perl script emits C++ loops that scan the region `[begin, end)` of each dimension in pieces of
`stride` points.  The model gives, for every combination of modifiers, the list of index vectors for
which the loop body runs and the `start`/`stop` range passed to the body in each dimension.

Simplifications: OpenMP pragmas only change which thread runs an iteration and in which order
iterations run, so an `omp` loop is the same list, to be read as a multiset; text generation itself
(macro names, comments) is not modelled, only the meaning of the emitted statements.
-/

namespace Yask

open Spec

/-- The inputs of a scan in one dimension: the fields of `ScanIndices` copied by `getInVars`
(`utils/bin/gen_loops.pl:206-236`, `src/kernel/lib/indices.hpp:628-680`). -/
structure LoopDim where
  begin_ : Int
  end_ : Int
  stride : Int
  align : Int
  alignOfs : Int
  tileSize : Int
deriving Repr, DecidableEq

namespace LoopDim

/-- `adj_align`: alignment limited to the stride (`utils/bin/gen_loops.pl:382`). -/
def adjAlign (d : LoopDim) : Int := min d.align d.stride

/-- `aligned_begin` (`utils/bin/gen_loops.pl:384`); with `-no-align` the scan starts at `begin`. -/
def alignedBegin (doAlign : Bool) (d : LoopDim) : Int :=
  if doAlign then roundDownFlr (d.begin_ - d.alignOfs) d.adjAlign + d.alignOfs else d.begin_

/-- `num_iters` (`utils/bin/gen_loops.pl:387,392`). -/
def numIters (doAlign : Bool) (d : LoopDim) : Int :=
  ceilIdivFlr (d.end_ - d.alignedBegin doAlign) d.stride

/-- `start` and `stop` of iteration `idx` (`addIndexVars3`, `utils/bin/gen_loops.pl:627-657`). -/
def range (doAlign : Bool) (d : LoopDim) (idx : Int) : Ivl :=
  if doAlign then
    (max (d.alignedBegin true + idx * d.stride) d.begin_,
     min (d.alignedBegin true + (idx + 1) * d.stride) d.end_)
  else
    (d.begin_ + idx * d.stride, min (d.begin_ + (idx + 1) * d.stride) d.end_)

/-- `num_iters_in_full_tile` (`utils/bin/gen_loops.pl:405`). -/
def tileIters (doAlign : Bool) (d : LoopDim) : Int :=
  min (ceilIdivFlr d.tileSize d.stride) (d.numIters doAlign)

end LoopDim

/-- Body executions of `nested` loops: `for (i0 = 0; i0 < n0; i0++) for (i1 …) …`
(`utils/bin/gen_loops.pl:687-697`).  A loop with a non-positive count runs no iteration. -/
def nestedIndices : List Int → List (List Int)
  | [] => [[]]
  | n :: ns => (List.range n.toNat).flatMap fun (i : Nat) => (nestedIndices ns).map ((i : Int) :: ·)

/-- Index of each dimension from the flattened loop index: divide by the number of iterations of the
inner dimensions and take the remainder by this one, except in the outermost dimension
(`utils/bin/gen_loops.pl:566-592`). -/
def flatIndices (outer : Bool) : List Int → Int → List Int
  | [], _ => []
  | n :: ns, li =>
    let v := li.tdiv (prodVals ns)
    (if outer then v else v.tmod n) :: flatIndices false ns li

/-- Serpentine: reverse the index when the enclosing index is odd
(`utils/bin/gen_loops.pl:613-624`).  `x & 1` is written `x % 2`. -/
def serpFlip (serp : Bool) (prev : Option Int) (r n : Int) : Int :=
  match serp, prev with
  | true, some p => if p % 2 = 1 then n - r - 1 else r
  | _, _ => r

/-- Square-wave path on the two innermost dimensions: new indices of the enclosing and the innermost
dimension (`utils/bin/gen_loops.pl:594-611`).  On the non-negative indices of a loop, `x & 1` is
`x % 2`, `(x & 2) >> 1` is `x / 2 % 2`, `x & -2` is `x - x % 2`, and the exclusive or of two bits is
their sum modulo 2. -/
def squareWave (p np r n : Int) : Int × Int :=
  if 1 < n ∧ p.tdiv 2 < np.tdiv 2 then
    let x2 := r + n * (p % 2)
    let lsb := (x2 % 2 + x2 / 2 % 2) % 2
    (p - p % 2 + lsb, x2.tdiv 2)
  else (p, r)

/-- Path adjustments of one flattened loop, outer to inner, on (raw index, number of iterations)
pairs; `prev` is the index of the enclosing dimension, if any (`utils/bin/gen_loops.pl:545-624`). -/
def pathAdjust (serp square : Bool) : Option Int → List (Int × Int) → List Int
  | _, [] => []
  | prev, [(r, n)] => [serpFlip serp prev r n]
  | prev, [(r1, n1), (r2, n2)] =>
    let p := serpFlip serp prev r1 n1
    if square then
      let pq := squareWave p n1 r2 n2
      [pq.1, if serp && decide (pq.1 / 2 % 2 = 1) then n2 - pq.2 - 1 else pq.2]
    else [p, serpFlip serp (some p) r2 n2]
  | prev, (r, n) :: rest =>
    let p := serpFlip serp prev r n
    p :: pathAdjust serp square (some p) rest

/-- Tile indices and local tile sizes, outer to inner.  `P` is the product of the local tile sizes of
the dimensions already handled, `o` the offset within the current set of tiles; the list has
(iterations, iterations in a full tile) per dimension.  Returns per dimension (tile index, local tile
iterations), and the offset within the tile (`utils/bin/gen_loops.pl:444-506`). -/
def tileGo : Int → Int → List (Int × Int) → List (Int × Int) × Int
  | _, o, [] => ([], o)
  | P, o, (n, f) :: rest =>
    let tg := P * f * prodVals (rest.map Prod.fst)
    let ti := if tg ≠ 0 then o.tdiv tg else 0
    let o' := o.tmod tg
    let nt := if f ≠ 0 then n.tdiv f else 0
    let lt := if ti ≥ nt then n - nt * f else f
    let r := tileGo (P * lt) o' rest
    ((ti, lt) :: r.1, r.2)

/-- Final indices of a tiled loop (`utils/bin/gen_loops.pl:508-541`). -/
def tiledIndices (nfs : List (Int × Int)) (li : Int) : List Int :=
  let g := tileGo 1 li nfs
  let offs := flatIndices true (g.1.map Prod.snd) g.2
  List.zipWith (fun (x : (Int × Int) × Int) d => x.1.2 * x.2 + d)
    (nfs.zip (g.1.map Prod.fst)) offs

/-- Loop modifiers that change the path (`utils/bin/gen_loops.pl:57-64`).  `omp`, `simd` do not. -/
structure LoopFeat where
  serp : Bool := false
  square : Bool := false
  tile : Bool := false
  nested : Bool := false
deriving Repr, DecidableEq

/-- `adjFeatures`: `none` when the script dies (`utils/bin/gen_loops.pl:282-329`).  The removal of
`serpentine` from an outermost one-dimensional loop has no effect on the indices and is not repeated
here: with no enclosing index `serpFlip` does nothing. -/
def adjFeatures (f : LoopFeat) (ndims : Nat) : Option LoopFeat :=
  let f1 := if ndims < 2 then { f with square := false, nested := false } else f
  let f2 := if f1.tile then
      let f' := if ndims < 2 then { f1 with tile := false } else f1
      if f1.serp || f1.square then none else some f'
    else some f1
  match f2 with
  | none => none
  | some f2 => if f2.nested && (f2.serp || f2.square || f2.tile) then none else some f2

/-- Index vectors for which the body of one `loop(…)` runs, in program order
(`beginLoop`, `utils/bin/gen_loops.pl:660-745`, without `manual`). -/
def groupIndices (f : LoopFeat) (doAlign : Bool) (ds : List LoopDim) (prev : Option Int) :
    List (List Int) :=
  let ns := ds.map (LoopDim.numIters doAlign)
  if f.nested then nestedIndices ns
  else
    (List.range (prodVals ns).toNat).map fun (li : Nat) =>
      if f.tile then tiledIndices (ns.zip (ds.map (LoopDim.tileIters doAlign))) li
      else pathAdjust f.serp f.square prev ((flatIndices true ns li).zip ns)

/-- A whole loop nest `loop(…) { loop(…) { … } }`; the enclosing index of a loop is the index of the
last dimension of the loop around it (`utils/bin/gen_loops.pl:548-554,960-1090`). -/
def nestIndices (doAlign : Bool) : List (LoopFeat × List LoopDim) → Option Int → List (List Int)
  | [], _ => [[]]
  | (f, ds) :: gs, prev =>
    (groupIndices f doAlign ds prev).flatMap fun idx =>
      (nestIndices doAlign gs (match idx.getLast? with | some l => some l | none => prev)).map (idx ++ ·)

/-- The boxes passed to the loop body: `start`/`stop` in each dimension. -/
def bodyBox (doAlign : Bool) (ds : List LoopDim) (idx : List Int) : Box :=
  List.zipWith (LoopDim.range doAlign) ds idx

/-- Everything the body sees: index vector and box, in program order. -/
def loopBodies (doAlign : Bool) (gs : List (LoopFeat × List LoopDim)) : List (List Int × Box) :=
  (nestIndices doAlign gs none).map fun idx => (idx, bodyBox doAlign (gs.flatMap Prod.snd) idx)

/-- The script applied to a loop nest: `none` if it rejects the modifiers of some loop, otherwise the
bodies executed (`processCode`, `utils/bin/gen_loops.pl:912-1170`). -/
def genLoops (doAlign : Bool) (gs : List (LoopFeat × List LoopDim)) :
    Option (List (List Int × Box)) :=
  (gs.mapM fun g => (adjFeatures g.1 g.2.length).map fun f => (f, g.2)).map (loopBodies doAlign)

/-! ### `manual` loops -/

/-- The sequential loops run by one thread of a `manual` loop.  The innermost loop advances both its
index and the flattened index; the other loops advance their index and reset the next inner one; every
loop also stops when the flattened index reaches `stop` (`utils/bin/gen_loops.pl:719-731`).
Returns the body executions, the final indices and the final flattened index.  `fuel` counts the
iterations of the current loop; it is started with the number of iterations left plus one, so it never
runs out early. -/
def manualGo (stop : Int) : List Int → List Int → Int → Nat → List (List Int) × List Int × Int
  | [], is, iv, _ => ([], is, iv)
  | _, [], iv, _ => ([], [], iv)
  | _, is, iv, 0 => ([], is, iv)
  | [n], i :: is, iv, fuel + 1 =>
    if i < n ∧ iv < stop then
      let r := manualGo stop [n] ((i + 1) :: is) (iv + 1) fuel
      ([i] :: r.1, r.2)
    else ([], i :: is, iv)
  | n :: m :: ns, i :: is, iv, fuel + 1 =>
    if i < n ∧ iv < stop then
      let inner := manualGo stop (m :: ns) is iv ((m - is.headD 0).toNat + 1)
      let r := manualGo stop (n :: m :: ns) ((i + 1) :: 0 :: inner.2.1.tail) inner.2.2 fuel
      ((inner.1.map (i :: ·)) ++ r.1, r.2)
    else ([], i :: is, iv)
termination_by ns _ _ fuel => (ns.length, fuel)

/-- Body executions of thread `thr` of `nthr` in a `manual` loop over `ns` iterations per dimension
(`utils/bin/gen_loops.pl:699-733`).  When some inner dimension has no iterations, the initial index
computation divides by zero, which is undefined: `none`. -/
def manualThread (ns : List Int) (nthr thr : Int) : Option (List (List Int)) :=
  let total := prodVals ns
  let b := divEquallyCumuSizeN total nthr (thr - 1)
  let e := divEquallyCumuSizeN total nthr thr
  let is := flatIndices true ns b
  if (ns.tail.any fun n => n = 0) then none
  else some (manualGo e ns is b ((ns.headD 0 - is.headD 0).toNat + 1)).1

end Yask
