import Verif.Common.Outcome
import Verif.Spec.RegistrySpec

/-!
# Model of the registry of stencil solutions

The constructors of `yc_solution_base` (`src/compiler/lib/Solution.cpp:87-112`), its destructor (`include/aux/yc_solution_api.hpp:98`) and the
search of the utility `yask_compiler` (`src/compiler/compiler_main.cpp:176-183`).

Simplifications. Objects are numbers, never used twice. Objects that share a solution (`Solution.cpp:109-112`) are not registered and are
left out, as is the solution itself. The map is a function from names.
-/

namespace Yask.Registry
open Spec

/-- The static map, the objects that exist, and the next number. -/
structure World where
  reg : String → Option Nat
  live : List Nat
  next : Nat

/-- Before any object is created. -/
def World.init : World := ⟨fun _ => none, [], 0⟩

/-- What a program does. -/
inductive Op
  /-- create an object of a derived class, whose constructor returns -/
  | create (name : String)
  /-- the same, but the constructor of the derived class throws after that of `yc_solution_base` -/
  | createThrows (name : String)
  /-- `delete` of an object that exists -/
  | delete (obj : Nat)
  deriving DecidableEq, Repr

/-- `yc_solution_base(name)` (`src/compiler/lib/Solution.cpp:97-108`): `none` for an exception, else the map with the new object. -/
def World.construct (w : World) (name : String) : Option World :=
  if (w.reg name).isSome then none
  else some { w with reg := fun n => if n = name then some w.next else w.reg n, next := w.next + 1 }

/-- One operation, and what is seen of it. Deleting an object that does not exist is left out. -/
def World.step (w : World) : Op → World × List RegEv
  | .create name =>
    match w.construct name with
    | none => (w, [.refused name])
    | some w' => ({ w' with live := w.next :: w.live }, [.created name w.next])
  | .createThrows name =>
    match w.construct name with
    | none => (w, [.refused name])
    | some w' => (w', [.unfinished name])
  /- the destructor (`include/aux/yc_solution_api.hpp:98`) is empty -/
  | .delete obj => if obj ∈ w.live then ({ w with live := w.live.filter fun o => decide (o ≠ obj) }, [.deleted obj]) else (w, [])

/-- A program. -/
def World.run (w : World) : List Op → World × List RegEv
  | [] => (w, [])
  | op :: ops => (((w.step op).1.run ops).1, (w.step op).2 ++ ((w.step op).1.run ops).2)

/-- `stencils.find(name)` and the use of what is found (`src/compiler/compiler_main.cpp:177-183`): undefined if the object does not exist any
more. -/
def World.find (w : World) (name : String) : Outcome (Option Nat) :=
  match w.reg name with
  | none => .ok none
  | some o => if o ∈ w.live then .ok (some o) else .undefined

end Yask.Registry
