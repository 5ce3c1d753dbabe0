import Verif.Common.ArgsModel
import Verif.Common.OptModel
import Verif.Compiler.FoldOptModel

/-!
# Model of the main program of the stencil compiler

`MySettings` and `main` (`src/compiler/compiler_main.cpp:42-234`), with the options of the library
(`src/compiler/lib/Settings.cpp:420-622`).

A program that ends with exit status 1 is the outcome `none`. Left out: what is printed; `-h` and `-fus`, which are second names of
`-help` and `-first-inner`. `-fold`, whose value is changed and not
replaced, is modelled apart from the other options (`foldRun`).
-/

namespace Yask.CcMain
open Args (Str Opt Vals parseArgs setArgs)
open Options (idxVal toInt32 splitComma)

/-- The value of an option. -/
inductive OptVal
  | bool (b : Bool)
  | int (n : Int)
  | str (s : Str)
  | list (l : List Str)
  deriving DecidableEq

/-- A `bool_option` (`src/common/common_utils.cpp:388-400`). -/
def boolOpt (n : String) : Opt OptVal := ⟨n.toList, true, fun _ => none⟩

/-- An `int_option` (`src/common/common_utils.cpp:426-434`). -/
def intOpt (n : String) : Opt OptVal := ⟨n.toList, false, fun s => (idxVal s).map fun v => .int (toInt32 v)⟩

/-- A `string_option` (`src/common/common_utils.cpp:460-468`). -/
def strOpt (n : String) : Opt OptVal := ⟨n.toList, false, fun s => some (.str s)⟩

/-- A `string_list_option` without a list of allowed strings (`src/common/common_utils.cpp:476-505`). -/
def listOpt (n : String) : Opt OptVal := ⟨n.toList, false, fun s => some (.list (splitComma [] s))⟩

/-- The options of the program (`src/compiler/compiler_main.cpp:53-78`). -/
def progOpts : List (Opt OptVal) := [boolOpt "help", strOpt "p", intOpt "radius", strOpt "stencil"]

/-- The options of the library (`src/compiler/lib/Settings.cpp:420-622`). -/
def libOpts : List (Opt OptVal) :=
  [strOpt "target", intOpt "elem-bytes", strOpt "step-dim", listOpt "domain-dims", strOpt "inner-loop-dim",
   intOpt "min-buffer-len", boolOpt "inner-misc-layout", boolOpt "outer-domain-layout", boolOpt "first-inner",
   intOpt "l1-prefetch-dist", intOpt "l2-prefetch-dist", strOpt "vars", boolOpt "bundle", boolOpt "bundle-scratch",
   intOpt "halo", intOpt "step-alloc", boolOpt "ul", boolOpt "opt-comb", boolOpt "opt-reorder", boolOpt "opt-cse",
   boolOpt "opt-pair", intOpt "max-es", intOpt "min-es", boolOpt "use-ptrs", boolOpt "use-safe-ptrs",
   boolOpt "early-loads"]

/-- The values in a new `MySettings` (`src/compiler/compiler_main.cpp:43-49`). -/
def progInit : Vals OptVal := fun n =>
  if n = "help".toList then .bool false else if n = "radius".toList then .int (-1) else .str []

/-- `MySettings::parse` (`src/compiler/compiler_main.cpp:82-154`) for the settings `m` of the program and `c` of a solution, with
`apply_command_line_options` (`src/compiler/lib/Solution.cpp:163-185`). -/
def parse (m c : Vals OptVal) (args : List Str) : Option (Vals OptVal × Vals OptVal) :=
  match parseArgs (.bool true) (.bool false) progOpts m args with
  | none => none
  | some (m', rem) =>
    match setArgs rem with
    | none => none
    | some args' =>
      match parseArgs (.bool true) (.bool false) libOpts c args' with
      | none => none
      | some (c', rem') =>
        if m' "help".toList = .bool true then none
        else if m' "stencil".toList = .str [] then none
        else if m' "p".toList ≠ .str [] ∧ c' "target".toList = .str [] then none
        else if rem' ≠ [] then none
        else some (m', c')

/-- A registered stencil: the settings its constructor leaves, its radius and which radii it accepts if it has one, and what
`define()` does to the settings for a radius, `none` if it throws (`include/aux/yc_solution_api.hpp`). -/
structure Stencil where
  init : Vals OptVal
  radius : Int
  accepts : Option (Int → Bool)
  define : Int → Vals OptVal → Option (Vals OptVal)

/-- The radius used (`src/compiler/compiler_main.cpp:186-198`). -/
def Stencil.setRadius (s : Stencil) : OptVal → Option Int
  | .int r =>
    match s.accepts with
    | none => some s.radius
    | some f => if 0 ≤ r then (if f r then some r else none) else some s.radius
  | _ => none

/-- `main` (`src/compiler/compiler_main.cpp:158-234`) up to the output, for the settings `dflt` of a new solution and a registry:
the radius and the settings with which the output is made. -/
def main (dflt : Vals OptVal) (reg : Str → Option Stencil) (args : List Str) : Option (Int × Vals OptVal) :=
  match parse progInit dflt args with
  | none => none
  | some (m, _) =>
    match m "stencil".toList with
    | .str name =>
      match reg name with
      | none => none
      | some s =>
        match s.setRadius (m "radius".toList) with
        | none => none
        | some r =>
          match parse m s.init args with
          | none => none
          | some (m, c) =>
            match s.define r c with
            | none => none
            | some c =>
              match parse m c args with
              | none => none
              | some (_, c) => some (r, c)
    | _ => none

/-- The part of `main` for the fold lengths of the solution (`src/compiler/compiler_main.cpp:200-207`): `pre` are the requests of the
constructor of the stencil, `args` the arguments of the options `-fold` on the command line, and `define` the requests of `define()`. -/
def foldRun (pre : List FoldOpt.Op) (args : List Str) (define : List FoldOpt.Op) : FoldOpt.Tup × Bool :=
  FoldOpt.applyAll [] (pre ++ args.map .option ++ define ++ args.map .option)

end Yask.CcMain
