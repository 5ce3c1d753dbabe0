import Verif.Common.TupleModel
import Verif.Common.IdivModel
import Verif.Spec.Cover

/-!
# Model of the search for the full bounding boxes of a part

Models `StencilPartBase::find_bounding_boxes` (`src/kernel/lib/setup.cpp:1235-1500`).  A point is the
list of its domain indices; the condition `cond` stands for `is_in_valid_domain`.  A bounding box is the
list of its `[begin, end)` ranges.

Simplifications: tracing and timers are left out; threads work on separate lists, so they are run one
after another; `yask_parallel_for(0, nthreads, 1, …)` calls its body once for each of `0 … nthreads-1`
(`C36`).
-/

namespace Yask.BB
open Spec

/-- `Indices::add_elements` (`src/kernel/lib/indices.hpp:212-214`). -/
def addPts (a b : List Int) : List Int := List.zipWith (· + ·) a b

/-- `BoundingBox::is_in_bb` (`src/kernel/lib/context.hpp:112-121`). -/
def isInBB (bb : Box) (p : List Int) : Bool :=
  (bb.zip p).all fun x => decide (x.1.1 ≤ x.2) && decide (x.2 < x.1.2)

/-- Lengths of a box (`bb_len`, `src/kernel/lib/setup.cpp:1509`). -/
def boxLen (bx : Box) : List Int := bx.map fun r => r.2 - r.1

/-- `bb_size` (`src/kernel/lib/setup.cpp:1510`). -/
def boxSize (bx : Box) : Int := prodVals (boxLen bx)

/-- A point is usable if it satisfies the condition and is in no box found before
(`src/kernel/lib/setup.cpp:1317-1325,1363-1371`). -/
def isFresh (cond : List Int → Bool) (cur : List Box) (p : List Int) : Bool :=
  cond p && !cur.any fun bb => isInBB bb p

/-- Reduction of the scan lengths at an invalid point with offsets `ofs`: the first dimension in which
the point is beyond the start; also says whether to scan again (`src/kernel/lib/setup.cpp:1379-1394`).
`none`: the point is the start, nothing is reduced. -/
def shrinkAt : List Int → List Int → Option (List Int × Bool)
  | l :: ls, o :: os =>
    if o > 0 then some (o :: ls, decide (ls.length ≠ 0))
    else (shrinkAt ls os).map fun r => (l :: r.1, r.2)
  | _, _ => none

/-- Stop the visits with a new state, or go on (`return false`/`return true` of the visitor,
`src/kernel/lib/setup.cpp:1393,1398`). -/
def stopWith {σ : Type} (r : Option σ) (s : σ) : σ × Bool :=
  match r with
  | some r => (r, false)
  | none => (s, true)

/-- One scan from `pt` over the lengths `lens`; the result is the new lengths and `do_scan`
(`src/kernel/lib/setup.cpp:1336-1398`).  The lengths change only just before the visits are stopped. -/
def scanOnce (fresh : List Int → Bool) (pt lens : List Int) : List Int × Bool :=
  (visitAllPointsIndices true lens
    (fun (s : List Int × Bool) ofs _ =>
      if fresh (addPts pt ofs) then (s, true)
      else stopWith (shrinkAt s.1 ofs) s) (lens, false)).1

/-- The `while (do_scan)` loop (`src/kernel/lib/setup.cpp:1334-1399`), run for at most `fuel`
iterations; `none` if it is not finished by then. -/
def scanLoop (fresh : List Int → Bool) (pt : List Int) : Nat → List Int → Option (List Int)
  | 0, _ => none
  | fuel + 1, lens =>
    let r := scanOnce fresh pt lens
    if r.2 then scanLoop fresh pt fuel r.1 else some r.1

/-- The box found from the start point `pt` in the slice `slice`, given the boxes found before
(`src/kernel/lib/setup.cpp:1328-1410`).  The sum of the lengths of the slice is more iterations than
are needed. -/
def findRect (cond : List Int → Bool) (slice : Box) (cur : List Box) (pt : List Int) : Option Box :=
  (scanLoop (isFresh cond cur) pt ((sumVals (boxLen slice)).toNat + 1)
    (List.zipWith (fun (r : Ivl) x => r.2 - x) slice pt)).map fun lens =>
      List.zipWith (fun x l => (x, x + l)) pt lens

/-- What happens at one point of a slice (`src/kernel/lib/setup.cpp:1306-1414`). -/
def slicePoint (cond : List Int → Bool) (slice : Box) (s : Option (List Box)) (pt : List Int) :
    Option (List Box) :=
  s.bind fun cur =>
    if isFresh cond cur pt then (findRect cond slice cur pt).map fun bb => cur ++ [bb] else some cur

/-- The boxes found in one slice (`src/kernel/lib/setup.cpp:1300-1417`). -/
def findInSlice (cond : List Int → Bool) (slice : Box) : Option (List Box) :=
  (visitAllPointsIndices true (boxLen slice)
    (fun s iofs _ => (slicePoint cond slice s (addPts (slice.map Prod.fst) iofs), true)) (some [])).1

/-- The slice of thread `start` (`src/kernel/lib/setup.cpp:1288-1295`), `none` if it is empty. -/
def sliceOf (bb : Box) (lenPerThr : Int) (start : Nat) : Option Box :=
  match bb with
  | [] => none
  | r :: rs =>
    let b := r.1 + start * lenPerThr
    let e := min r.2 (b + lenPerThr)
    if e ≤ b then none else some ((b, e) :: rs)

/-- The boxes found by thread `start`. -/
def threadBoxes (cond : List Int → Bool) (bb : Box) (lenPerThr : Int) (start : Nat) : Option (List Box) :=
  match sliceOf bb lenPerThr start with
  | none => some []
  | some slice => findInSlice cond slice

/-- Can `bbn` be merged with `bb`: adjacent in the outer dimension, the same in the others
(`src/kernel/lib/setup.cpp:1455-1471`). -/
def canMerge : Box → Box → Bool
  | b :: bs, n :: ns => decide (b.2 = n.1) && decide (bs = ns)
  | _, _ => true

/-- `bb` extended to the end of `bbn` in the outer dimension (`src/kernel/lib/setup.cpp:1472-1478`). -/
def extendTo : Box → Box → Box
  | b :: bs, n :: _ => (b.1, n.2) :: bs
  | bs, _ => bs

/-- Merge `bbn` into the first box it fits, or append it (`src/kernel/lib/setup.cpp:1450-1488`). -/
def mergeInto (bbn : Box) : List Box → List Box
  | [] => [bbn]
  | bb :: l => if canMerge bb bbn then extendTo bb bbn :: l else bb :: mergeInto bbn l

/-- Result: the list of full boxes (`_bb_list`), the overall box and its number of points (`_part_bb`). -/
structure PartBB where
  list : List Box
  bb : Box
  numPoints : Int
deriving Repr, DecidableEq

/-- `min_elements` and `max_elements` of the corners (`src/kernel/lib/setup.cpp:1443-1444`). -/
def hull (a b : Box) : Box :=
  List.zipWith (fun (x y : Ivl) => ((min x.1 y.1, max x.2 y.2) : Ivl)) a b

/-- Processing of one box in the merge loop (`src/kernel/lib/setup.cpp:1430-1489`). -/
def mergeStep (s : PartBB) (bbn : Box) : PartBB :=
  if boxSize bbn = 0 then s
  else
    { list := mergeInto bbn s.list
      bb := if s.numPoints = 0 then bbn else hull s.bb bbn
      numPoints := s.numPoints + boxSize bbn }

/-- `find_bounding_boxes` (`src/kernel/lib/setup.cpp:1235-1500`); `cond` is `none` for a part without a
domain condition, `maxBB` is the overall box, `maxPts` its `bb_num_points`.  `none`: a scan did not end. -/
def findBoundingBoxes (cond : Option (List Int → Bool)) (nthreads : Int) (maxBB : Box) (maxPts : Int) :
    Option PartBB :=
  if boxSize maxBB = 0 then some ⟨[], maxBB, maxPts⟩
  else match cond with
    | none => some ⟨[maxBB], maxBB, maxPts⟩
    | some cond =>
      let outerLen := (boxLen maxBB).headD 0
      let lenPerThr := ceilDiv outerLen nthreads
      ((List.range nthreads.toNat).mapM fun (start : Nat) => threadBoxes cond maxBB lenPerThr start).map
        fun ls => ls.flatten.foldl mergeStep ⟨[], maxBB, 0⟩

end Yask.BB
