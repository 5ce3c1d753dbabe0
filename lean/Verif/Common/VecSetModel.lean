import Mathlib.Data.List.Nodup
import Mathlib.Logic.Function.Basic

/-!
# Insertion-ordered set (model)

Models `vector_set` (`src/common/common_utils.hpp:356-446`): a vector of items and a map from item to
position.  The map is a partial function.  Erasing at a position outside the vector, or indexing outside it,
is undefined behaviour: the outcome `none`.  The `assert`s are not modelled (release builds drop them).
-/

namespace Yask

/-- The two members of `vector_set` (`src/common/common_utils.hpp:358-359`). -/
structure VecSet (T : Type*) where
  items : List T
  posn : T → Option Nat

namespace VecSet
variable {T : Type*} [DecidableEq T]

/-- Default constructor (`src/common/common_utils.hpp:362`). -/
def empty : VecSet T := ⟨[], fun _ => none⟩

/-- `count` (`src/common/common_utils.hpp:398-401`). -/
def count (s : VecSet T) (x : T) : Nat := if (s.posn x).isSome then 1 else 0

/-- `size` (`src/common/common_utils.hpp:391-394`). -/
def size (s : VecSet T) : Nat := s.items.length

/-- `operator[]`/`at` (`src/common/common_utils.hpp:379-384`). -/
def at? (s : VecSet T) (i : Nat) : Option T := s.items[i]?

/-- `insert`, also `push_back` (`src/common/common_utils.hpp:402-412`). -/
def insert (s : VecSet T) (x : T) : VecSet T :=
  if s.count x = 0 then ⟨s.items ++ [x], Function.update s.posn x (some s.items.length)⟩ else s

/-- The loop meant to repair positions (`src/common/common_utils.hpp:419-423`).  It is written
`for (auto pi : _posn)`, so `pi` is a copy of each entry and the map keeps its old values. -/
def repair (posn : T → Option Nat) (_op : Nat) : T → Option Nat := posn

/-- `erase` (`src/common/common_utils.hpp:413-427`). -/
def erase (s : VecSet T) (x : T) : Option (VecSet T) :=
  match s.posn x with
  | none => some s
  | some op =>
    if op < s.items.length then
      some ⟨s.items.eraseIdx op, Function.update (repair s.posn op) x none⟩
    else none

/-- `clear` (`src/common/common_utils.hpp:428-431`). -/
def clear (_ : VecSet T) : VecSet T := empty

/-- `swap` (`src/common/common_utils.hpp:434-445`). -/
def swap (s : VecSet T) (i j : Nat) : Option (VecSet T) :=
  if i = j then some s
  else match s.items[i]?, s.items[j]? with
    | some a, some b =>
      some ⟨(s.items.set i b).set j a, Function.update (Function.update s.posn b (some i)) a (some j)⟩
    | _, _ => none

end VecSet

/-- The operations of the class. -/
inductive VecSetOp (T : Type*)
  | insert (x : T)
  | erase (x : T)
  | clear
  | swap (i j : Nat)

/-- Executes one operation. -/
def VecSet.apply {T : Type*} [DecidableEq T] (s : VecSet T) : VecSetOp T → Option (VecSet T)
  | .insert x => some (s.insert x)
  | .erase x => s.erase x
  | .clear => some s.clear
  | .swap i j => s.swap i j

/-- Executes a sequence of operations on an empty set. -/
def VecSet.run {T : Type*} [DecidableEq T] (ops : List (VecSetOp T)) : Option (VecSet T) :=
  ops.foldlM VecSet.apply VecSet.empty

end Yask
