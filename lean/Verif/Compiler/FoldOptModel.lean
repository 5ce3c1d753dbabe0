import Verif.Common.OptModel

/-!
# Model of the requests for fold lengths

`IntTupleOption` (`src/compiler/lib/Settings.cpp:362-415`), registered for `-fold`
(`src/compiler/lib/Settings.cpp:612-620`), `set_fold_len()` (`src/compiler/lib/Solution.cpp:65-69`),
`is_folding_set()` and `clear_folding()` (`src/compiler/lib/Solution.hpp:216-224`).

The tuple `_fold_options` is a list of names and values.  `long` has 64 bits, as `long long`, so that `strtol` is
`strtoll` of the model of options.
-/

namespace Yask.FoldOpt
open Args (Str)
open Options (idxVal toInt32 splitComma)

/-- `_fold_options`. -/
abbrev Tup := List (Str × Int)

/-- `Tuple::lookup` (`src/common/tuple.hpp:230-260`). -/
def lookup (l : Tup) (d : Str) : Option Int := (l.find? fun e => decide (e.1 = d)).map Prod.snd

/-- `Tuple::add_dim_back` (`src/common/tuple.cpp:78-86`). -/
def addBack (l : Tup) (d : Str) (v : Int) : Tup :=
  match l with
  | [] => [(d, v)]
  | e :: l => if e.1 = d then (d, v) :: l else e :: addBack l d v

/-- One string of the list (`src/compiler/lib/Settings.cpp:388-405`): the dim and the value, or `none` where it throws.
The value is converted to `int` when it is passed to `add_dim_back`. -/
def piece (s : Str) : Option (Str × Int) :=
  match s.dropWhile (· ≠ '=') with
  | [] => none
  | _ :: sval =>
    let key := s.takeWhile (· ≠ '=')
    if key.length = 0 then none
    else if sval.length = 0 then none
    else (idxVal sval).map fun n => (key, toInt32 n)

/-- The loop over the strings (`src/compiler/lib/Settings.cpp:386-407`): the tuple, and whether it threw. -/
def pieces (l : Tup) : List Str → Tup × Bool
  | [] => (l, false)
  | s :: ss =>
    match piece s with
    | none => (l, true)
    | some (d, v) => pieces (addBack l d v) ss

/-- A request. -/
inductive Op
  /-- the option `-fold` with this argument, also in `apply_command_line_options()` -/
  | option (arg : Str)
  /-- `set_fold_len()` -/
  | set (d : Str) (n : Int)
  /-- `clear_folding()` -/
  | clear

/-- The tuple after a request, and whether the request threw. -/
def Op.apply (l : Tup) : Op → Tup × Bool
  | .option arg => pieces l (splitComma [] arg)
  | .set d n => (addBack l d n, false)
  | .clear => ([], false)

/-- A list of requests; the first that throws ends it. -/
def applyAll (l : Tup) : List Op → Tup × Bool
  | [] => (l, false)
  | o :: os =>
    match o.apply l with
    | (l', true) => (l', true)
    | (l', false) => applyAll l' os

/-- `is_folding_set()`. -/
def isSet (l : Tup) : Bool := decide (0 < l.length)

end Yask.FoldOpt
