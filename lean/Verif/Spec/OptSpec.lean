import Verif.Common.OptModel
import Mathlib.Data.Nat.Digits.Defs

/-!
# Options of a solution (specification)

What the words on a command line mean: integers are written as in C (decimal, octal after `0`, hexadecimal after `0x`),
and every option sets the settings listed in the documentation (`add_options`, `src/kernel/lib/settings.cpp:326-520`).
-/

namespace Yask.Options

open Args (Str)

/-! ### Integers -/

/-- The digit `c` stands for `v`. -/
def DigitOf (c : Char) (v : Nat) : Prop :=
  ("0123456789abcdef".toList)[v]? = some c ∨ ("0123456789ABCDEF".toList)[v]? = some c

/-- `ds` are the digits, least significant first, of a string in a base. -/
def DigitsOf (base : Nat) (s : Str) (ds : List Nat) : Prop :=
  List.Forall₂ (fun c v => DigitOf c v ∧ v < base) s.reverse ds

/-- The unsigned integers of C: octal if they begin with `0`, hexadecimal if they begin with `0x`. -/
inductive Unsigned : Str → Nat → Prop
  | dec (s : Str) (ds : List Nat) (h0 : s ≠ []) (hz : s.head? ≠ some '0') (h : DigitsOf 10 s ds) :
      Unsigned s (Nat.ofDigits 10 ds)
  | oct (s : Str) (ds : List Nat) (h : DigitsOf 8 s ds) : Unsigned ('0' :: s) (Nat.ofDigits 8 ds)
  | hex (x : Char) (s : Str) (ds : List Nat) (hx : x = 'x' ∨ x = 'X') (h0 : s ≠ []) (h : DigitsOf 16 s ds) :
      Unsigned ('0' :: x :: s) (Nat.ofDigits 16 ds)

/-- Integers, possibly after white space and a sign. -/
inductive Numeral : Str → Int → Prop
  | plain (w u : Str) (n : Nat) (hw : ∀ c ∈ w, Args.isSpace c) (hu : Unsigned u n) : Numeral (w ++ u) n
  | plus (w u : Str) (n : Nat) (hw : ∀ c ∈ w, Args.isSpace c) (hu : Unsigned u n) : Numeral (w ++ '+' :: u) n
  | minus (w u : Str) (n : Nat) (hw : ∀ c ∈ w, Args.isSpace c) (hu : Unsigned u n) : Numeral (w ++ '-' :: u) (-n)

/-- A C string: without null characters. -/
def NoNull (s : Str) : Prop := '\x00' ∉ s

/-- Values of type `idx_t` other than the least and the greatest. -/
def IdxRange (n : Int) : Prop := -(2 ^ 63) < n ∧ n < 2 ^ 63 - 1

/-- Values of type `int`. -/
def IntRange (n : Int) : Prop := -(2 ^ 31) ≤ n ∧ n < 2 ^ 31

/-! ### Options -/

/-- The prefixes of the options for sizes. -/
def SizePrefix (mpi : Bool) : SizeKind → Str → Prop
  | .global, p => p = "g".toList
  | .rank, p => p = "l".toList ∨ p = "d".toList
  | .megaBlock, p => p = "Mb".toList
  | .block, p => p = "b".toList
  | .microBlock, p => p = "mb".toList
  | .nanoBlock, p => p = "nb".toList
  | .picoBlock, p => p = "pb".toList
  | .minPad, p => p = "mp".toList
  | .extraPad, p => p = "ep".toList
  | .numRanks, p => mpi = true ∧ p = "nr".toList
  | .rankIndex, p => mpi = true ∧ p = "ri".toList

/-- The dims for which a size may be given: the step dim only for mega-blocks and blocks. -/
def SizeDim (step : Str) (dom : List Str) (k : SizeKind) (d : Str) : Prop :=
  d ∈ dom ∨ d = step ∧ (k = .megaBlock ∨ k = .block)

/-- Names of boolean options. -/
def flagName : Flag → Str
  | .printSuffixes => "print_suffixes".toList
  | .verbose => "verbose".toList
  | .roundUp => "round_up_temporal_angles".toList
  | .addlPad => "allow_addl_padding".toList
  | .overlap => "overlap_comms".toList
  | .exchangeHalos => "exchange_halos".toList
  | .useShm => "use_shm".toList
  | .scalarExchange => "force_scalar_exchange".toList
  | .scalar => "force_scalar".toList
  | .bindInner => "bind_inner_threads".toList
  | .bundle => "bundle_allocs".toList
  | .initScratch => "init_scratch_vars".toList
  | .autoTune => "auto_tune".toList

/-- Boolean options that exist only in builds with MPI. -/
def NeedsMpi (f : Flag) : Prop := f = .overlap ∨ f = .exchangeHalos ∨ f = .useShm ∨ f = .scalarExchange

/-- Names of options of type `int`. -/
def IntName : IntSetting → Str → Prop
  | .maxThreads, s => s = "max_threads".toList
  | .outerThreads, s => s = "outer_threads".toList
  | .innerThreads, s => s = "inner_threads".toList ∨ s = "block_threads".toList
  | .numa, s => s = "numa_pref".toList
  | .radius, s => s = "auto_tune_radius".toList

/-- What the auto-tuner can tune. -/
def tunable : List Str := ["Mb".toList, "b".toList, "mb".toList, "nb".toList, "pb".toList]

/-- A word that is an option of the solution. -/
inductive IsOption (mpi : Bool) (step : Str) (dom : List Str) : Str → Prop
  | size (k : SizeKind) (p d : Str) (hp : SizePrefix mpi k p) (hd : SizeDim step dom k d) :
      IsOption mpi step dom ('-' :: (p ++ d))
  | sizes (k : SizeKind) (p : Str) (hp : SizePrefix mpi k p) : IsOption mpi step dom ('-' :: p)
  | on (f : Flag) (hf : NeedsMpi f → mpi = true) : IsOption mpi step dom ('-' :: flagName f)
  | off (f : Flag) (hf : NeedsMpi f → mpi = true) : IsOption mpi step dom ("-no-".toList ++ flagName f)
  | int (i : IntSetting) (s : Str) (hs : IntName i s) : IsOption mpi step dom ('-' :: s)
  | minExterior (hm : mpi = true) : IsOption mpi step dom "-min_exterior".toList
  | trialSecs : IsOption mpi step dom "-auto_tune_trial_secs".toList
  | targets : IsOption mpi step dom "-auto_tune_targets".toList

/-- One option with its value, or one word that is not an option: the words, the settings they give and the words left
over. -/
inductive Item {D : Type} (strtod : Str → Option D) (mpi : Bool) (step : Str) (dom : List Str) :
    List Str → List (Key × Val D) → List Str → Prop
  | size (k : SizeKind) (p d t : Str) (n : Int) (hp : SizePrefix mpi k p) (hd : SizeDim step dom k d)
      (hz : NoNull t) (ht : Numeral t n) (hn : IdxRange n) :
      Item strtod mpi step dom ['-' :: (p ++ d), t] [(.size k d, .int n)] []
  | sizes (k : SizeKind) (p t : Str) (n : Int) (hp : SizePrefix mpi k p)
      (hz : NoNull t) (ht : Numeral t n) (hn : IdxRange n) :
      Item strtod mpi step dom ['-' :: p, t] (dom.map fun d => (.size k d, .int n)) []
  | on (f : Flag) (hf : NeedsMpi f → mpi = true) :
      Item strtod mpi step dom ['-' :: flagName f] [(.flag f, .bool true)] []
  | off (f : Flag) (hf : NeedsMpi f → mpi = true) :
      Item strtod mpi step dom ["-no-".toList ++ flagName f] [(.flag f, .bool false)] []
  | int (i : IntSetting) (s t : Str) (n : Int) (hs : IntName i s) (hz : NoNull t) (ht : Numeral t n)
      (hn : IntRange n) : Item strtod mpi step dom ['-' :: s, t] [(.int i, .int n)] []
  | minExterior (t : Str) (n : Int) (hm : mpi = true) (hz : NoNull t) (ht : Numeral t n) (hn : IdxRange n) :
      Item strtod mpi step dom ["-min_exterior".toList, t] [(.minExterior, .int n)] []
  | trialSecs (t : Str) (x : D) (ht : strtod t = some x) :
      Item strtod mpi step dom ["-auto_tune_trial_secs".toList, t] [(.trialSecs, .dbl x)] []
  | targets (l : List Str) (hl : ∀ s ∈ l, s ∈ tunable) :
      Item strtod mpi step dom ["-auto_tune_targets".toList, List.intercalate [','] l] [(.targets, .strs l)] []
  | other (s : Str) (hs : ¬ IsOption mpi step dom s) : Item strtod mpi step dom [s] [] [s]

/-- A command line: its words, the settings it gives, in order, and the words left over. -/
inductive Line {D : Type} (strtod : Str → Option D) (mpi : Bool) (step : Str) (dom : List Str) :
    List Str → List (Key × Val D) → List Str → Prop
  | nil : Line strtod mpi step dom [] [] []
  | cons {w w' : List Str} {e e' : List (Key × Val D)} {r r' : List Str} (h : Item strtod mpi step dom w e r)
      (t : Line strtod mpi step dom w' e' r') : Line strtod mpi step dom (w ++ w') (e ++ e') (r ++ r')

/-- The settings after a line: the last value given to a setting, or the old one. -/
def after {D : Type} (st : Settings D) (es : List (Key × Val D)) : Settings D := fun k =>
  match es.reverse.find? (fun e => e.1 = k) with
  | some e => e.2
  | none => st k

/-- Names of dims with which no two options have the same name. -/
structure GoodDims (step : Str) (dom : List Str) : Prop where
  nodup : (step :: dom).Nodup
  named : ∀ d ∈ step :: dom, d ≠ []
  noClash : ∀ d ∈ step :: dom, d ≠ "lock_threads".toList ∧ d ≠ "ind_inner_threads".toList ∧ d ≠ "undle_allocs".toList

end Yask.Options
