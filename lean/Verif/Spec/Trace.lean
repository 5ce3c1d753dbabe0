import Mathlib.Data.List.Basic
import Mathlib.Data.List.Perm.Basic

/-!
# Specification vocabulary: executions of concurrent programs and independent actions

Nothing here mentions YASK.  A piece of a program is described by the set of *traces* it can produce: a
trace is the list of its atomic actions in the order in which they take effect.  Sequential composition
concatenates traces; parallel composition interleaves them arbitrarily, so a statement about all traces
holds for every number of threads and every scheduling of the threads.
-/

namespace Yask.Spec

/-- A set of possible executions. -/
abbrev Traces (α : Type*) := List α → Prop

/-- `t` is an interleaving of `l` and `r`. -/
inductive Interleave {α : Type*} : List α → List α → List α → Prop
  | nil : Interleave [] [] []
  | left {a l r t} : Interleave l r t → Interleave (a :: l) r (a :: t)
  | right {a l r t} : Interleave l r t → Interleave l (a :: r) (a :: t)

/-- Does nothing. -/
def doNothing {α : Type*} : Traces α := fun t => t = []

/-- One atomic action. -/
def doOne {α : Type*} (a : α) : Traces α := fun t => t = [a]

/-- Undefined behaviour: anything can happen. -/
def undefinedBehaviour {α : Type*} : Traces α := fun _ => True

/-- Runs the pieces one after another. -/
def doSeq {α : Type*} : List (Traces α) → Traces α
  | [] => fun t => t = []
  | L :: Ls => fun t => ∃ u v, L u ∧ doSeq Ls v ∧ t = u ++ v

/-- Runs the pieces concurrently and waits for all of them. -/
def doPar {α : Type*} : List (Traces α) → Traces α
  | [] => fun t => t = []
  | L :: Ls => fun t => ∃ u v, L u ∧ doPar Ls v ∧ Interleave u v t

/-! ## Actions on a memory -/

/-- A semantics of actions: each action transforms a memory, changes only the locations it writes, and
what it writes depends only on the locations it reads. -/
structure ActionSem (Act Loc Val : Type*) where
  run : Act → (Loc → Val) → (Loc → Val)
  reads : Act → Loc → Prop
  writes : Act → Loc → Prop
  frame : ∀ a m l, ¬ writes a l → run a m l = m l
  local_ : ∀ a m m' l, writes a l → (∀ l', reads a l' → m l' = m' l') → run a m l = run a m' l

/-- Final memory of a trace. -/
def ActionSem.exec {Act Loc Val : Type*} (S : ActionSem Act Loc Val) (t : List Act)
    (m : Loc → Val) : Loc → Val := t.foldl (fun m a => S.run a m) m

/-- Two actions conflict if one writes a location that the other reads or writes. -/
def ActionSem.Conflict {Act Loc Val : Type*} (S : ActionSem Act Loc Val) (a b : Act) : Prop :=
  ∃ l, (S.writes a l ∧ (S.reads b l ∨ S.writes b l)) ∨ (S.writes b l ∧ (S.reads a l ∨ S.writes a l))

end Yask.Spec
