import Mathlib.Data.List.Basic
import Mathlib.Logic.Function.Basic

/-!
# Command-line parsing (model)

Models `quote_whitespace` and `command_line_parser` (`src/common/common_utils.cpp:158-176,318-615`).
Strings are lists of characters (the C locale; bytes above 127 are not whitespace).  A thrown
`yask_exception` is the outcome `none`.  The conversion of a value string to a number is a parameter.
-/

namespace Yask.Args

abbrev Str := List Char

/-- `isspace` in the C locale (`src/common/common_utils.cpp:588`). -/
def isSpace (c : Char) : Bool :=
  c == ' ' || c == '\t' || c == '\n' || c == '\x0b' || c == '\x0c' || c == '\r'

/-- State of the tokenizer (`src/common/common_utils.cpp:568-571`). -/
structure Tok where
  tmp : Str
  isOk : Bool
  inQuote : Option Char
  args : List Str

/-- Body of the loop over characters (`src/common/common_utils.cpp:572-606`). -/
def tokStep (s : Tok) (c : Char) : Tok :=
  match s.inQuote with
  | some q => if q = c then { s with isOk := true, inQuote := none } else { s with tmp := s.tmp ++ [c] }
  | none =>
    if isSpace c then
      { s with args := if s.isOk then s.args ++ [s.tmp] else s.args, tmp := [], isOk := false }
    else if c = '"' ∨ c = '\'' then { s with inQuote := some c }
    else { s with tmp := s.tmp ++ [c], isOk := true }

/-- `set_args` (`src/common/common_utils.cpp:567-615`). -/
def setArgs (s : Str) : Option (List Str) :=
  let t := s.foldl tokStep ⟨[], false, none, []⟩
  if t.inQuote.isSome then none
  else some (if t.isOk then t.args ++ [t.tmp] else t.args)

/-- The characters searched for by `quote_whitespace` (`src/common/common_utils.cpp:159`). -/
def isQuotedSpace (c : Char) : Bool := c == ' ' || c == '\t' || c == '\r' || c == '\n'

/-- `regex_replace(r, regex("'"), "\\'")` (`src/common/common_utils.cpp:171`). -/
def escapeApos (s : Str) : Str := s.flatMap fun c => if c = '\'' then ['\\', '\''] else [c]

/-- `quote_whitespace` (`src/common/common_utils.cpp:158-176`). -/
def quoteWs (s : Str) : Str :=
  if s.any isQuotedSpace then
    if '\'' ∉ s then '"' :: s ++ ['"']
    else if '"' ∉ s then '\'' :: s ++ ['\'']
    else '\'' :: escapeApos s ++ ['\'']
  else s

/-- A registered option: its name, and whether it is a boolean (`-name`, `-no-name`) or takes a value
(`include/yask_common_api.hpp:388-600`).  `parse` is the conversion of the value string, `none` where the code
throws. -/
structure Opt (V : Type*) where
  name : Str
  isBool : Bool
  parse : Str → Option V

/-- Values of the options, by name. -/
abbrev Vals (V : Type*) := Str → V

/-- What `check_arg` does with one argument string (`src/common/common_utils.cpp:318-328,388-475`): no match, a
boolean match, or a match that consumes the next argument. -/
inductive Match (V : Type*)
  | no
  | bool (name : Str) (b : Bool)
  | value (o : Opt V)

/-- `check_arg` of one option (`src/common/common_utils.cpp:388-400` for booleans, `:410-475` for the others). -/
def checkOpt {V : Type*} (o : Opt V) (a : Str) : Match V :=
  if o.isBool then
    if a = '-' :: o.name then .bool o.name true
    else if a = '-' :: 'n' :: 'o' :: '-' :: o.name then .bool o.name false
    else .no
  else if a = '-' :: o.name then .value o
  else .no

/-- The loop over the options, stopping at the first match (`src/common/common_utils.cpp:532-544`). -/
def findOpt {V : Type*} : List (Opt V) → Str → Match V
  | [], _ => .no
  | o :: os, a =>
    match checkOpt o a with
    | .no => findOpt os a
    | m => m

/-- The loop over the arguments (`src/common/common_utils.cpp:528-552`): the option values afterwards and the
unused arguments; `none` if a value is missing or invalid. -/
def parseLoop {V : Type*} (tr fa : V) (opts : List (Opt V)) : Vals V → List Str → Option (Vals V × List Str)
  | st, [] => some (st, [])
  | st, a :: rest =>
    match findOpt opts a with
    | .no => (parseLoop tr fa opts st rest).map fun r => (r.1, a :: r.2)
    | .bool n b => parseLoop tr fa opts (Function.update st n (if b then tr else fa)) rest
    | .value o =>
      match rest with
      | [] => none
      | v :: rest' =>
        match o.parse v with
        | none => none
        | some x => parseLoop tr fa opts (Function.update st o.name x) rest'

/-- Joining the left-over strings (`src/common/common_utils.cpp:554-564`). -/
def joinRem (l : List Str) : Str :=
  l.foldl (fun rem r => (if rem.length ≠ 0 then rem ++ [' '] else rem) ++ quoteWs r) []

/-- `parse_args` (`src/common/common_utils.cpp:524-565`). -/
def parseArgs {V : Type*} (tr fa : V) (opts : List (Opt V)) (st : Vals V) (args : List Str) :
    Option (Vals V × Str) :=
  (parseLoop tr fa opts st args).map fun r => (r.1, joinRem r.2)

end Yask.Args
