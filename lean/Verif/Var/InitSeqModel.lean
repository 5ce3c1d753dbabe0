import Verif.Var.ResizeModel
import Verif.Common.ParForModel

/-!
# Model of the functions that set all elements of vars

`set_all_elements_same()` and `set_all_elements_in_seq()` (`src/kernel/lib/yk_var.hpp:1537-1551,1785-1806`), the loops in
`GenericVarTyped<T>::set_elems_same` and `set_elems_in_seq` (`src/kernel/lib/generic_var.cpp:135-199`), and
`init_values()`, `init_same()` and `init_diff()` (`src/kernel/lib/setup.cpp:1022-1040`, `src/kernel/lib/context.hpp:474-490`).

Simplifications.
* `V` has the operations of `real_t`, with or without rounding; the seeds of lanes are computed in `V`, not in `double`.
* The dirty flags and the state of coherency are in other models (`Verif/Kernel/CohModel.lean`, `Verif/Mpi/WinModel.lean`); the
  loop on the device writes the same values.
* The iterations of the parallel loop are done in any order.
-/

namespace Yask.Var
open Spec

variable {V : Type}

/-- `get_num_elems()` of the storage: scalars or vectors (`src/kernel/lib/generic_var.hpp:170-172`). -/
def Geom.storageElems (g : Geom) : Int := prodVals g.vecAllocs

/-- `e[i] = v`, where `v` has one or more reals; outside of the storage is undefined. -/
def wrElem (g : Geom) (val : Int → V) (i : Int) (m : Int → V) : Outcome (Int → V) :=
  if 0 ≤ i ∧ i < g.storageElems then
    .ok fun a => if i * g.elemReals ≤ a ∧ a < (i + 1) * g.elemReals then val (a - i * g.elemReals) else m a
  else .undefined

/-- `for (idx_t i = start; i < stop; i++)`. -/
def intRange (r : Ivl) : List Int := (List.range (r.2 - r.1).toNat).map fun (n : Nat) => r.1 + (n : Int)

/-- The iterations of the parallel loop: `_init_blk_size` is 1024 (`src/kernel/lib/generic_var.hpp:260`). -/
def fillWrites (env : ParForEnv) (g : Geom) : List Int := (parallelFor env 0 g.storageElems 1024).flatMap intRange

/-- The loop, with the iterations in a given order. -/
def fill (g : Geom) (val : Int → Int → V) : List Int → (Int → V) → Outcome (Int → V)
  | [], m => .ok m
  | i :: is, m => do
    let m ← wrElem g (val i) i m
    fill g val is m

/-- The value of a lane of an element in `set_elems_in_seq` (`src/kernel/lib/generic_var.cpp:171,181-183`); the seed of a lane
(`src/kernel/lib/yk_var.hpp:1797-1802`). -/
def seqVal [Mul V] [IntCast V] (g : Geom) (seed : V) (i lane : Int) : V :=
  (if g.isVec then seed * ((g.elemReals - lane : Int) : V) else seed) * ((imodFlr i 31 + 1 : Int) : V)

/-- `set_all_elements_same()`. -/
def setAllSameLoop (order : List Int) (v : YVar V) (val : V) : Outcome (YVar V) :=
  match v.mem with
  | none => .ok v
  | some m => do
    let m ← fill v.g (fun _ _ => val) order m
    .ok ⟨v.g, some m⟩

/-- `set_all_elements_in_seq()`. -/
def setAllInSeq [Mul V] [IntCast V] (order : List Int) (v : YVar V) (seed : V) : Outcome (YVar V) :=
  match v.mem with
  | none => .ok v
  | some m => do
    let m ← fill v.g (seqVal v.g seed) order m
    .ok ⟨v.g, some m⟩

/-- `init_diff()`: a loop over the vars, each in any order of the iterations of its loop. -/
inductive InitDiff [Add V] [Mul V] [IntCast V] (env : ParForEnv) (seed0 : V) : V → List (YVar V) → List (YVar V) → Prop
  | nil (seed) : InitDiff env seed0 seed [] []
  | cons (seed v vs v' vs' order) : order.Perm (fillWrites env v.g) → setAllInSeq order v seed = .ok v' →
      InitDiff env seed0 (seed + seed0) vs vs' → InitDiff env seed0 seed (v :: vs) (v' :: vs')

end Yask.Var
