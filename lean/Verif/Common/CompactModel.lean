import Verif.Common.TupleModel

/-!
# Compact factors (model)

Models `Tuple<T>::get_compact_factors` (`src/common/tuple.cpp:353-443`), which `setup_rank`
(`src/kernel/lib/setup.cpp:230`) uses to choose the numbers of ranks per dimension.

The model works on the list of values; the dimension names of every non-empty result are those of
`*this` (`tuple.cpp:389-403`).  An empty tuple is the empty list.  The asserts at the end are ignored,
as in a release build.  Simplification: the value type is unbounded.
-/

namespace Yask

/-- `facts`: the divisors of `N` in increasing order (`src/common/tuple.cpp:375-378`). -/
def factsOf (N : Int) : List Int :=
  ((List.range N.toNat).map fun (n : Nat) => (n : Int) + 1).filter fun n => decide (N.tmod n = 0)

/-- The sizes of the search space `combos` (`src/common/tuple.cpp:386-404`). -/
def comboSizes (keep : Bool) (nfacts : Nat) : List Int → List Int
  | [] => []
  | _ :: vs => 1 :: vs.map fun v => if keep && decide (v > 0) then 1 else (nfacts : Int)

/-- The candidate made from one point of the search space (`src/common/tuple.cpp:408-427`).
`facts.at` throws for a bad index; the visited indices are always in range. -/
def candidate (keep : Bool) (facts : List Int) (N : Int) (vals combo : List Int) : List Int :=
  match vals, combo with
  | v :: vs, _ :: ps =>
    let rest := List.zipWith
      (fun v p => if keep && decide (v > 0) then v else facts.getD (Int.toNat p) 0) vs ps
    (if keep && decide (v > 0) then v else N.tdiv (prodVals (1 :: rest))) :: rest
  | _, _ => []

/-- The visitor (`src/common/tuple.cpp:405-441`): the state is `best`. -/
def compactVisitor (keep : Bool) (facts : List Int) (N : Int) (vals : List Int)
    (best combo : List Int) : List Int :=
  let can := candidate keep facts N vals combo
  if prodVals can = N then
    (if best.length = 0 ∨ maxVals can < maxVals best then can else best)
  else best

/-- One pass of the search (`src/common/tuple.cpp:381-441`). -/
def compactPass (keep : Bool) (N : Int) (vals best : List Int) : List Int :=
  let facts := factsOf N
  (visitAllPointsTuple true (comboSizes keep facts.length vals)
    (fun best combo _ => (compactVisitor keep facts N vals best combo, true)) best).1

/-- `get_compact_factors(N)` (`src/common/tuple.cpp:353-446`). -/
def compactFactors (vals : List Int) (N : Int) : List Int :=
  if vals.length = 0 then []
  else if N = 0 then vals.map fun _ => 0
  else if prodVals vals = N then vals
  else
    let best := compactPass true N vals []
    if prodVals best = N then best
    else compactPass false N vals best

end Yask
