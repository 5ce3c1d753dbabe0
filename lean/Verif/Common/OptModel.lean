import Verif.Common.ArgsModel

/-!
# Options of a solution (model)

Models the kinds of options of `command_line_parser` (`include/yask_common_api.hpp:334-665`,
`src/common/common_utils.cpp:318-565`), the options registered by `KernelSettings::add_options()`
(`src/kernel/lib/settings.cpp:204-520`) and `apply_command_line_options()` (`src/kernel/lib/soln_apis.cpp:285-313`).
Splitting of strings and quoting of left-over strings are those of `Verif.Common.ArgsModel`.

Simplifications: a build without offloading (`USE_OFFLOAD`) and without tiles (`USE_TILING`).  `strtod` is a parameter.
The global `is_suffix_print_enabled` is kept with the settings.  Help texts are not modelled.
-/

namespace Yask.Options

open Args (Str)

/-! ### Integers -/

/-- The digits recognised by `strtoll` (ISO C 7.22.1.4) up to base 16. -/
def digit (c : Char) : Option Nat :=
  if 48 ≤ c.toNat ∧ c.toNat ≤ 57 then some (c.toNat - 48)
  else if 97 ≤ c.toNat ∧ c.toNat ≤ 102 then some (c.toNat - 87)
  else if 65 ≤ c.toNat ∧ c.toNat ≤ 70 then some (c.toNat - 55)
  else none

/-- Whether a character is a digit in a base. -/
def isDigit (base : Nat) (c : Char) : Bool :=
  match digit c with
  | some v => decide (v < base)
  | none => false

/-- `LLONG_MAX`. -/
def llongMax : Int := 9223372036854775807

/-- `LLONG_MIN`. -/
def llongMin : Int := -9223372036854775808

/-- The sign read by `strtoll`, and what follows it. -/
def readSign : Str → Bool × Str
  | '-' :: u => (true, u)
  | '+' :: u => (false, u)
  | u => (false, u)

/-- The base chosen by `strtoll` if its argument is 0, and what follows the prefix: `0x` counts only if a digit
follows. -/
def readBase : Str → Nat × Str
  | '0' :: x :: d :: w => if (x = 'x' ∨ x = 'X') ∧ isDigit 16 d then (16, d :: w) else (8, '0' :: x :: d :: w)
  | '0' :: w => (8, '0' :: w)
  | u => (10, u)

/-- The value of digits, most significant first. -/
def horner (base : Nat) (ds : Str) : Nat := ds.foldl (fun acc c => acc * base + (digit c).getD 0) 0

/-- The result of `strtoll` for a sign and an absolute value: out-of-range values saturate. -/
def saturate (neg : Bool) (v : Nat) : Int :=
  if neg then (if -(v : Int) < llongMin then llongMin else -(v : Int))
  else (if (v : Int) > llongMax then llongMax else (v : Int))

/-- `strtoll(s, &end, 0)` (ISO C 7.22.1.4; called at `src/common/common_utils.cpp:361`): the value, and the string at
`end`. -/
def strtoll (s : Str) : Int × Str :=
  let (neg, u) := readSign (s.dropWhile Args.isSpace)
  let (base, w) := readBase u
  let ds := w.takeWhile (isDigit base)
  if ds = [] then (0, s)
  else (saturate neg (horner base ds), w.dropWhile (isDigit base))

/-- `c_str()`: what C functions see of a string. -/
def cStr (s : Str) : Str := s.takeWhile (· ≠ '\x00')

/-- `_idx_val` on an existing argument (`src/common/common_utils.cpp:352-368`); `none` where it throws. -/
def idxVal (s : Str) : Option Int :=
  if s.length = 0 then none
  else
    let r := strtoll (cStr s)
    if r.1 = llongMin ∨ r.1 = llongMax ∨ r.2 ≠ [] then none else some r.1

/-- The conversion `(int)` of a 64-bit value (`src/common/common_utils.cpp:430`): modulo 2^32. -/
def toInt32 (n : Int) : Int := (n + 2147483648) % 4294967296 - 2147483648

/-- `getline(ss, str, ',')` in a loop (`src/common/common_utils.cpp:491-493`): the pieces between commas; nothing
follows a final comma. -/
def splitComma : Str → Str → List Str
  | cur, [] => if cur = [] then [] else [cur]
  | cur, c :: s => if c = ',' then cur :: splitComma [] s else splitComma (cur ++ [c]) s

/-! ### Settings -/

/-- The size tuples of `KernelSettings` that have options (`src/kernel/lib/settings.cpp:311-344`). -/
inductive SizeKind
  | global | rank | megaBlock | block | microBlock | nanoBlock | picoBlock | minPad | extraPad | numRanks | rankIndex
  deriving DecidableEq

/-- Boolean settings. -/
inductive Flag
  | printSuffixes | verbose | roundUp | addlPad | overlap | exchangeHalos | useShm | scalarExchange | scalar
  | bindInner | bundle | initScratch | autoTune
  deriving DecidableEq

/-- Settings of type `int`. -/
inductive IntSetting
  | maxThreads | outerThreads | innerThreads | numa | radius
  deriving DecidableEq

/-- A setting of a solution. -/
inductive Key
  | size (k : SizeKind) (d : Str)
  | flag (f : Flag)
  | int (i : IntSetting)
  | minExterior
  | trialSecs
  | targets
  deriving DecidableEq

/-- The value of a setting; `D` stands for the type `double`. -/
inductive Val (D : Type)
  | bool (b : Bool)
  | int (n : Int)
  | dbl (x : D)
  | strs (l : List Str)
  deriving DecidableEq

/-- The settings of a solution (`KernelSettings`). -/
abbrev Settings (D : Type) := Key → Val D

/-- Assignment to a setting. -/
def assign {D : Type} (st : Settings D) (k : Key) (v : Val D) : Settings D := fun k' => if k' = k then v else st k'

/-! ### Options -/

/-- The kinds of options (`include/yask_common_api.hpp:431-600`) and `mult_idx_option`
(`src/kernel/lib/settings.cpp:246-283`), with the settings they refer to.  An `idx_option` is a `sizes` option with one
setting. -/
inductive OptKind
  | flag (k : Key)
  | int (k : Key)
  | dbl (k : Key)
  | sizes (ks : List Key)
  | strs (k : Key) (allowed : List Str)
  deriving DecidableEq

/-- A registered option. -/
structure CliOption where
  name : Str
  kind : OptKind
  deriving DecidableEq

/-- What `check_arg` did: no match; a match, with the new settings and the number of arguments consumed after the
option itself; or an exception, with the settings at that time. -/
inductive Chk (D : Type)
  | no
  | done (st : Settings D) (used : Nat)
  | throws (st : Settings D)

/-- The loop over the pieces of a string list (`src/common/common_utils.cpp:493-499`): the value, and whether an
exception is thrown. -/
def pushAll (allowed : List Str) : List Str → List Str → List Str × Bool
  | val, [] => (val, false)
  | val, s :: rest => if allowed.length ≠ 0 ∧ s ∉ allowed then (val, true) else pushAll allowed (val ++ [s]) rest

/-- `check_arg` of one option on the argument `a`, followed by the arguments `rest`
(`src/common/common_utils.cpp:318-328,388-503`, `src/kernel/lib/settings.cpp:264-272`). -/
def checkArg {D : Type} (strtod : Str → Option D) (o : CliOption) (st : Settings D) (a : Str) (rest : List Str) : Chk D :=
  match o.kind with
  | .flag k =>
    if a = '-' :: o.name then .done (assign st k (.bool true)) 0
    else if a = '-' :: ("no-".toList ++ o.name) then .done (assign st k (.bool false)) 0
    else .no
  | .int k =>
    if a = '-' :: o.name then
      match rest.head? with
      | none => .throws st
      | some v =>
        match idxVal v with
        | none => .throws st
        | some n => .done (assign st k (.int (toInt32 n))) 1
    else .no
  | .dbl k =>
    if a = '-' :: o.name then
      match rest.head? with
      | none => .throws st
      | some v =>
        match strtod v with
        | none => .throws st
        | some x => .done (assign st k (.dbl x)) 1
    else .no
  | .sizes ks =>
    if a = '-' :: o.name then
      match rest.head? with
      | none => .throws st
      | some v =>
        match idxVal v with
        | none => .throws st
        | some n => .done (ks.foldl (fun s k => assign s k (.int n)) st) 1
    else .no
  | .strs k allowed =>
    if a = '-' :: o.name then
      match rest.head? with
      | none => .throws (assign st k (.strs []))
      | some v =>
        let r := pushAll allowed [] (splitComma [] v)
        if r.2 then .throws (assign st k (.strs r.1)) else .done (assign st k (.strs r.1)) 1
    else .no

/-- The loop over the registered options (`src/common/common_utils.cpp:534-544`). -/
def checkAny {D : Type} (strtod : Str → Option D) (st : Settings D) (a : Str) (rest : List Str) :
    List CliOption → Chk D
  | [] => .no
  | o :: os =>
    match checkArg strtod o st a rest with
    | .no => checkAny strtod st a rest os
    | c => c

/-- The loop over the arguments (`src/common/common_utils.cpp:528-552`): the settings afterwards, and the unused
arguments unless an exception is thrown.  The first number counts the arguments to pass over. -/
def parseLoop {D : Type} (strtod : Str → Option D) (opts : List CliOption) :
    Nat → Settings D → List Str → Settings D × Option (List Str)
  | _, st, [] => (st, some [])
  | n + 1, st, _ :: rest => parseLoop strtod opts n st rest
  | 0, st, a :: rest =>
    match checkAny strtod st a rest opts with
    | .no =>
      let r := parseLoop strtod opts 0 st rest
      (r.1, r.2.map (a :: ·))
    | .done st' n => parseLoop strtod opts n st' rest
    | .throws st' => (st', none)

/-! ### The options of a solution -/

/-- Order of the keys of `_opts`, a `std::map` with strings as keys (`include/yask_common_api.hpp:603`). -/
def strLt : Str → Str → Bool
  | _, [] => false
  | [], _ :: _ => true
  | c :: s, d :: t => if c.toNat < d.toNat then true else if d.toNat < c.toNat then false else strLt s t

/-- `add_option`: `_opts[name] = opt` (`include/yask_common_api.hpp:627-629`). -/
def addOption (o : CliOption) : List CliOption → List CliOption
  | [] => [o]
  | p :: ps =>
    if o.name = p.name then o :: ps
    else if strLt o.name p.name then o :: p :: ps
    else p :: addOption o ps

/-- `_add_domain_option` (`src/kernel/lib/settings.cpp:286-323`) for a tuple with dims `vdims`: the options in the order
in which they are registered.  No prefix ends with an underscore. -/
def domainOption (step : Str) (dom vdims : List Str) (pre : Str) (k : SizeKind) (allowStep : Bool) : List CliOption :=
  ((vdims.filter fun d => allowStep || d ≠ step).map fun d => ⟨pre ++ d, .sizes [.size k d]⟩) ++
    [⟨pre, .sizes (((vdims.filter fun d => allowStep || d ≠ step).filter fun d => d ∈ dom).map (.size k ·))⟩]

/-- The options that do not depend on the names of the dims (`src/kernel/lib/settings.cpp:330-520`).  Those with `true`
are registered only with `USE_MPI`. -/
def fixedOptions : List (Bool × CliOption) := [
  (false, ⟨"print_suffixes".toList, .flag (.flag .printSuffixes)⟩),
  (false, ⟨"verbose".toList, .flag (.flag .verbose)⟩),
  (false, ⟨"round_up_temporal_angles".toList, .flag (.flag .roundUp)⟩),
  (false, ⟨"allow_addl_padding".toList, .flag (.flag .addlPad)⟩),
  (true, ⟨"overlap_comms".toList, .flag (.flag .overlap)⟩),
  (true, ⟨"min_exterior".toList, .sizes [.minExterior]⟩),
  (true, ⟨"exchange_halos".toList, .flag (.flag .exchangeHalos)⟩),
  (true, ⟨"use_shm".toList, .flag (.flag .useShm)⟩),
  (true, ⟨"force_scalar_exchange".toList, .flag (.flag .scalarExchange)⟩),
  (false, ⟨"force_scalar".toList, .flag (.flag .scalar)⟩),
  (false, ⟨"max_threads".toList, .int (.int .maxThreads)⟩),
  (false, ⟨"outer_threads".toList, .int (.int .outerThreads)⟩),
  (false, ⟨"inner_threads".toList, .int (.int .innerThreads)⟩),
  (false, ⟨"block_threads".toList, .int (.int .innerThreads)⟩),
  (false, ⟨"bind_inner_threads".toList, .flag (.flag .bindInner)⟩),
  (false, ⟨"bundle_allocs".toList, .flag (.flag .bundle)⟩),
  (false, ⟨"init_scratch_vars".toList, .flag (.flag .initScratch)⟩),
  (false, ⟨"numa_pref".toList, .int (.int .numa)⟩),
  (false, ⟨"auto_tune".toList, .flag (.flag .autoTune)⟩),
  (false, ⟨"auto_tune_trial_secs".toList, .dbl .trialSecs⟩),
  (false, ⟨"auto_tune_radius".toList, .int (.int .radius)⟩),
  (false, ⟨"auto_tune_targets".toList,
    .strs .targets ["Mb".toList, "b".toList, "mb".toList, "nb".toList, "pb".toList]⟩)]

/-- The tuples with options (`src/kernel/lib/settings.cpp:341-373`): whether `USE_MPI` is needed, the prefix, the tuple, and
whether the step dim is allowed. -/
def domainOptions : List (Bool × Str × SizeKind × Bool) := [
  (false, "g".toList, .global, false),
  (false, "l".toList, .rank, false),
  (false, "Mb".toList, .megaBlock, true),
  (false, "b".toList, .block, true),
  (false, "mb".toList, .microBlock, false),
  (false, "nb".toList, .nanoBlock, false),
  (false, "pb".toList, .picoBlock, false),
  (false, "d".toList, .rank, false),
  (false, "mp".toList, .minPad, false),
  (false, "ep".toList, .extraPad, false),
  (true, "nr".toList, .numRanks, false),
  (true, "ri".toList, .rankIndex, false)]

/-- The dims of a tuple (`src/kernel/lib/settings.cpp:183-240`): the tuples of ranks have only the domain dims. -/
def tupleDims (step : Str) (dom : List Str) : SizeKind → List Str
  | .numRanks => dom
  | .rankIndex => dom
  | _ => step :: dom

/-- All calls of `add_option` in `add_options` (`src/kernel/lib/settings.cpp:326-520`).  Simplification: options for tuples
come first; the order matters only if two options have the same name, and then the fixed ones follow those for tuples
except `print_suffixes`, `verbose`, `round_up_temporal_angles` and `allow_addl_padding`, which no prefix begins. -/
def registered (mpi : Bool) (step : Str) (dom : List Str) : List CliOption :=
  ((domainOptions.filter fun e => mpi || !e.1).flatMap fun e =>
    domainOption step dom (tupleDims step dom e.2.2.1) e.2.1 e.2.2.1 e.2.2.2) ++
  (fixedOptions.filter fun e => mpi || !e.1).map (·.2)

/-- The parser after `add_options`. -/
def optTable (mpi : Bool) (step : Str) (dom : List Str) : List CliOption :=
  (registered mpi step dom).foldl (fun t o => addOption o t) []

/-- The settings in use and the requested settings (`src/kernel/lib/settings.hpp:624-625`). -/
structure Opts (D : Type) where
  actl : Settings D
  req : Settings D

/-- `apply_command_line_options` (`src/kernel/lib/soln_apis.cpp:297-313`): both settings afterwards, and the string of
unused arguments unless an exception is thrown. -/
def applyOptions {D : Type} (strtod : Str → Option D) (mpi : Bool) (step : Str) (dom : List Str) (o : Opts D)
    (args : List Str) : Opts D × Option Str :=
  let t := optTable mpi step dom
  let r1 := parseLoop strtod t 0 o.actl args
  match r1.2 with
  | none => (⟨r1.1, o.req⟩, none)
  | some _ =>
    let r2 := parseLoop strtod t 0 o.req args
    (⟨r1.1, r2.1⟩, r2.2.map Args.joinRem)

end Yask.Options
