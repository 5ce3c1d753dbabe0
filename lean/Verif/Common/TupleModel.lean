import Verif.Common.ParForModel

/-!
# Tuples (model)

Models `src/common/tuple.hpp` and `src/common/tuple.cpp`, and the corresponding
functions of `Indices` in `src/kernel/lib/indices.hpp`.

A tuple is an ordered list of (dimension name, value) pairs together with the
`_first_inner` flag.  Dimension names are interned pointers in C++
(`tuple.cpp:44-67`); the model uses strings and compares them by value.
Simplification: the value type `T` (`int` or `idx_t`) is modelled by `Int`; `size_t` is
modelled by `Nat` (a negative size would fail the assertion at `tuple.cpp:210`).
-/

namespace Yask

/-- `Tuple<T>` (`src/common/tuple.hpp`): `_q` and `_first_inner`. -/
structure Tup where
  q : List (String × Int)
  firstInner : Bool := true
  deriving DecidableEq, Repr

namespace Tup

/-- `get_dim_names` (`src/common/tuple.cpp:70-75`). -/
def names (t : Tup) : List String := t.q.map Prod.fst

/-- The values in order. -/
def vals (t : Tup) : List Int := t.q.map Prod.snd

/-- `lookup` by name (`src/common/tuple.hpp:248-282`).  Simplification: looking for the
interned pointer first (lines 251-255) gives the same result as looking for the string. -/
def lookup (t : Tup) (dim : String) : Option Int :=
  (t.q.find? fun s => s.1 == dim).map Prod.snd

/-- Set the value of the first dimension called `dim` (`*lookup(dim) = val`). -/
def setQ : List (String × Int) → String → Int → List (String × Int)
  | [], _, _ => []
  | s :: q, dim, val => if s.1 = dim then (s.1, val) :: q else s :: setQ q dim val

/-- `add_dim_back` (`src/common/tuple.cpp:78-86`). -/
def addDimBack (t : Tup) (dim : String) (val : Int) : Tup :=
  match t.lookup dim with
  | some _ => { t with q := setQ t.q dim val }
  | none => { t with q := t.q ++ [(dim, val)] }

/-- `set_vals(src, add_missing)` (`src/common/tuple.cpp:101-111`). -/
def setVals (t src : Tup) (addMissing : Bool) : Tup :=
  src.q.foldl (fun acc s =>
    match acc.lookup s.1 with
    | some _ => { acc with q := setQ acc.q s.1 s.2 }
    | none => if addMissing then acc.addDimBack s.1 s.2 else acc) t

/-- `make_union_with` (`src/common/tuple.cpp:114-124`). -/
def makeUnionWith (t rhs : Tup) : Tup :=
  rhs.q.foldl (fun acc s =>
    match acc.lookup s.1 with
    | some _ => acc
    | none => acc.addDimBack s.1 s.2) t

/-- `are_dims_same` (`src/common/tuple.cpp:127-150`). -/
def areDimsSame (t rhs : Tup) (sameOrder : Bool) : Bool :=
  if t.q.length ≠ rhs.q.length then false
  else if sameOrder then
    (t.q.zip rhs.q).all fun p => p.1.1 == p.2.1
  else
    t.q.all fun s => (rhs.lookup s.1).isSome

/-- `operator==` (`src/common/tuple.cpp:154-166`). -/
def eqb (t rhs : Tup) : Bool :=
  if !t.areDimsSame rhs true then false
  else (t.q.zip rhs.q).all fun p => p.1.2 == p.2.2

/-- First loop of `operator<`: compare values (`src/common/tuple.cpp:176-183`).
`none` means the loop ended without a decision. -/
def ltVals : List (String × Int) → List (String × Int) → Option Bool
  | a :: as, b :: bs => if a.2 < b.2 then some true else if a.2 > b.2 then some false else ltVals as bs
  | _, _ => none

/-- Second loop of `operator<`: compare dimension names (`src/common/tuple.cpp:186-193`). -/
def ltNames : List (String × Int) → List (String × Int) → Option Bool
  | a :: as, b :: bs => if a.1 < b.1 then some true else if a.1 > b.1 then some false else ltNames as bs
  | _, _ => none

/-- `operator<` (`src/common/tuple.cpp:171-195`). -/
def ltb (t rhs : Tup) : Bool :=
  if t.q.length < rhs.q.length then true
  else if t.q.length > rhs.q.length then false
  else match ltVals t.q rhs.q with
    | some b => b
    | none => match ltNames t.q rhs.q with
      | some b => b
      | none => false

/-- `operator<=` (`src/common/tuple.hpp:430-432`). -/
def leb (t rhs : Tup) : Bool := t.eqb rhs || t.ltb rhs
/-- `operator>` (`src/common/tuple.hpp:433-435`). -/
def gtb (t rhs : Tup) : Bool := !t.leb rhs
/-- `operator>=` (`src/common/tuple.hpp:436-438`). -/
def geb (t rhs : Tup) : Bool := !t.ltb rhs

end Tup

/-- `reduce` with multiplication, and 1 for no elements
(`src/common/tuple.hpp:466-475,489-492`; `Indices::product`). -/
def prodVals : List Int → Int
  | [] => 1
  | v :: vs => vs.foldl (· * ·) v

/-- `max()`: 0 if no elements (`src/common/tuple.hpp:466-475,481-483`). -/
def maxVals : List Int → Int
  | [] => 0
  | v :: vs => vs.foldl max v

/-- `sum()` (`src/common/tuple.hpp:466-480`). -/
def sumVals : List Int → Int
  | [] => 0
  | v :: vs => vs.foldl (· + ·) v

/-- The order in which the loops of `layout`, `unlayout` and `next_index` go through the
dimensions: `start_dim`, `end_dim`, `step_dim` (`src/common/tuple.cpp:205-208,245-248`,
`tuple.hpp:628-629`). -/
def innerFirst {α : Type} (firstInner : Bool) (l : List α) : List α :=
  if firstInner then l else l.reverse

/-- Loop of `layout` (`src/common/tuple.cpp:201-236`) over (size, offset) pairs, in loop
order; the accumulators are `idx` and `prev_size`. -/
def layoutLoop : List (Nat × Nat) → Nat → Nat → Nat
  | [], idx, _ => idx
  | (dsize, offset) :: rest, idx, prev => layoutLoop rest (idx + offset * prev) (prev * dsize)

/-- `layout` on value lists (strict: same dimensions in same order). -/
def layoutVals (firstInner : Bool) (sizes offs : List Int) : Nat :=
  layoutLoop (innerFirst firstInner ((sizes.map Int.toNat).zip (offs.map Int.toNat))) 0 1

/-- Loop of `unlayout` (`src/common/tuple.cpp:242-265`; `indices.hpp:297-328`), in loop
order, result in loop order. `%` by zero is undefined in C++; the theorems
assume positive sizes. -/
def unlayoutLoop : List Nat → Nat → Nat → List Nat
  | [], _, _ => []
  | dsize :: rest, offset, prev => (offset / prev % dsize) :: unlayoutLoop rest offset (prev * dsize)

/-- `unlayout` on value lists. -/
def unlayoutVals (firstInner : Bool) (sizes : List Int) (offset : Nat) : List Int :=
  innerFirst firstInner
    ((unlayoutLoop (innerFirst firstInner (sizes.map Int.toNat)) offset 1).map Int.ofNat)

namespace Tup

/-- `layout(offsets, strict_rhs)` (`src/common/tuple.cpp:198-237`). -/
def layout (t offsets : Tup) (strictRhs : Bool) : Nat :=
  if strictRhs then layoutVals t.firstInner t.vals offsets.vals
  else layoutVals t.firstInner t.vals (t.q.map fun s => (offsets.lookup s.1).getD 0)

/-- `unlayout(offset)` (`src/common/tuple.cpp:240-267`): a copy of `*this` whose values
are replaced. -/
def unlayout (t : Tup) (offset : Nat) : Tup :=
  { t with q := t.names.zip (unlayoutVals t.firstInner t.vals offset) }

end Tup

/-- Increment the first entry, if there is one (`tp[inner_dim]++`, and
`if (p) (*p)++` at `src/common/tuple.hpp:632,643-645`). -/
def incHead : List Int → List Int
  | [] => []
  | i :: is => (i + 1) :: is

/-- Wrap-around loop of `next_index` (`src/common/tuple.hpp:637-649`), in loop order. -/
def carryLoop : List Int → List Int → List Int
  | d :: ds, i :: is => if i ≥ d then 0 :: carryLoop ds (incHead is) else i :: is
  | _, is => is

/-- `next_index` (`src/common/tuple.hpp:626-651`, `src/kernel/lib/indices.hpp:331-355`),
sizes and indices in loop order. -/
def nextIndexLoop (sizes idx : List Int) : List Int :=
  match sizes, incHead idx with
  | d :: ds, i :: is => if i ≥ d then carryLoop (d :: ds) (i :: is) else i :: is
  | _, is => is

/-- `next_index` in dimension order. -/
def nextIndex (firstInner : Bool) (sizes idx : List Int) : List Int :=
  innerFirst firstInner (nextIndexLoop (innerFirst firstInner sizes) (innerFirst firstInner idx))

/-- The sequential visiting loop (`src/common/tuple.hpp:680-690`, `indices.hpp:416-427`):
`n` iterations from linear index `i` and point `tp`.  The visitor is an arbitrary
state-changing function that returns whether to continue. -/
def visitLoop {σ : Type} (firstInner : Bool) (sizes : List Int)
    (visitor : σ → List Int → Nat → σ × Bool) : Nat → Nat → List Int → σ → σ × Bool
  | 0, _, _, s => (s, true)
  | n + 1, i, tp, s =>
    match visitor s tp i with
    | (s', true) => visitLoop firstInner sizes visitor n (i + 1) (nextIndex firstInner sizes tp) s'
    | (s', false) => (s', false)

/-- `Tuple::visit_all_points` (`src/common/tuple.hpp:664-691`). -/
def visitAllPointsTuple {σ : Type} (firstInner : Bool) (sizes : List Int)
    (visitor : σ → List Int → Nat → σ × Bool) (s : σ) : σ × Bool :=
  let tp := sizes.map fun _ => (0 : Int)
  let ne := prodVals sizes
  if ne ≤ 1 then visitor s tp 0
  else visitLoop firstInner sizes visitor ne.toNat 0 tp s

/-- `Indices::visit_all_points` (`src/kernel/lib/indices.hpp:399-428`). -/
def visitAllPointsIndices {σ : Type} (firstInner : Bool) (sizes : List Int)
    (visitor : σ → List Int → Nat → σ × Bool) (s : σ) : σ × Bool :=
  let tp := sizes.map fun _ => (0 : Int)
  let ne := prodVals sizes
  if ne < 1 then (s, true)
  else if ne = 1 then visitor s tp 0
  else visitLoop firstInner sizes visitor ne.toNat 0 tp s

/-- The visits made by one thread of the parallel version: `n` points from linear index `i`
and point `tp` (`src/common/tuple.hpp:736-743`, `indices.hpp:475-482`). -/
def threadVisits (firstInner : Bool) (sizes : List Int) : Nat → Nat → List Int → List (List Int × Nat)
  | 0, _, _ => []
  | n + 1, i, tp => (tp, i) :: threadVisits firstInner sizes n (i + 1) (nextIndex firstInner sizes tp)

/-- `visit_all_points_in_parallel` (`src/kernel/lib/indices.hpp:432-489`; the
`Tuple` version `tuple.hpp:698-750` differs only for `product() ≤ 0`): the (point, linear index)
pairs passed to the visitor.  The list is in thread order; actual execution order is any
permutation. `env` is the OpenMP environment consulted by `yask_parallel_for`; `nthr` is the
result of `yask_get_num_threads()`. -/
def parallelVisitsIndices (env : ParForEnv) (nthr : Int) (firstInner : Bool) (sizes : List Int) :
    List (List Int × Nat) :=
  let tp := sizes.map fun _ => (0 : Int)
  let ne := prodVals sizes
  if ne < 1 then []
  else if ne = 1 then [(tp, 0)]
  else
    (parallelFor env 0 nthr 1).flatMap fun r =>
      let start := divEquallyCumuSizeN ne nthr (r.1 - 1)
      let stop := divEquallyCumuSizeN ne nthr r.1
      if stop ≤ start then []
      else threadVisits firstInner sizes (stop - start).toNat start.toNat
        (unlayoutVals firstInner sizes start.toNat)

/-- `Tuple::visit_all_points_in_parallel` (`src/common/tuple.hpp:698-750`). -/
def parallelVisitsTuple (env : ParForEnv) (nthr : Int) (firstInner : Bool) (sizes : List Int) :
    List (List Int × Nat) :=
  let tp := sizes.map fun _ => (0 : Int)
  let ne := prodVals sizes
  if ne ≤ 1 then [(tp, 0)]
  else
    (parallelFor env 0 nthr 1).flatMap fun r =>
      let start := divEquallyCumuSizeN ne nthr (r.1 - 1)
      let stop := divEquallyCumuSizeN ne nthr r.1
      if stop ≤ start then []
      else threadVisits firstInner sizes (stop - start).toNat start.toNat
        (unlayoutVals firstInner sizes start.toNat)

end Yask
