import Verif.Common.Outcome
import Mathlib.Logic.Function.Basic

/-!
# Model of the prefetch distances of a stencil solution

`get_prefetch_dist()` and `set_prefetch_dist()` (`src/compiler/lib/Solution.cpp:70-86`), the options `-l1-prefetch-dist` and
`-l2-prefetch-dist` (`src/compiler/lib/Settings.cpp:509-522`), and `print_prefetches` (`src/compiler/lib/Cpp.cpp:603-666`).
-/

namespace Yask.Prefetch

/-- `_prefetch_dists`, a map (`src/compiler/lib/Settings.hpp:47`). -/
abbrev Dists := Int → Option Int

/-- `get_prefetch_dist` (`src/compiler/lib/Solution.cpp:70-77`). -/
def get (d : Dists) (level : Int) : Outcome Int :=
  if level < 1 ∨ level > 2 then .throws
  else
    match d level with
    | some v => .ok v
    | none => .ok 0

/-- `_prefetch_dists[level]` as a reference makes an element with value 0 if there is none (`src/compiler/lib/Settings.cpp:515,522`). -/
def touch (d : Dists) (level : Int) : Dists := Function.update d level (some ((d level).getD 0))

/-- A call that may change the distances. -/
inductive Op
  /-- `set_prefetch_dist(level, dist)` -/
  | set (level dist : Int)
  /-- `apply_command_line_options()`, with the integers given last for the two options, if any -/
  | options (l1 l2 : Option Int)

/-- Assignment by an option, if it is given. -/
def assign (d : Dists) (level : Int) : Option Int → Dists
  | none => d
  | some v => Function.update d level (some v)

/-- The distances after a call, and whether it threw (`src/compiler/lib/Solution.cpp:78-86,174-185`). -/
def Op.apply (d : Dists) : Op → Dists × Bool
  | .set level dist =>
    match get d level with
    | .ok _ => if dist < 0 then (d, true) else (Function.update d level (some dist), false)
    | _ => (d, true)
  | .options l1 l2 => (assign (assign (touch (touch d 1) 2) 1 l1) 2 l2, false)

/-- The distances after calls on a new solution; exceptions are caught by the caller. -/
def run (ops : List Op) : Dists := ops.foldl (fun d o => (o.apply d).1) fun _ => none

/-- The prefetches in the inner loop for reads of which the furthest is `hi` vectors ahead: the cache level, and how many vectors
ahead (`src/compiler/lib/Cpp.cpp:612-635`). Simplified: only the loop over levels and the offset of the one prefetch. -/
def prefetches (d : Dists) (hi : Int) : List (Int × Int) :=
  ([1, 2] : List Int).filterMap fun level =>
    match d level with
    | none => none
    | some pfd => if pfd < 1 then none else some (level, hi + (pfd - 1) + 1)

end Yask.Prefetch
