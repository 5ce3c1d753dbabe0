import Verif.Compiler.CcMainModel
import Verif.Props.Args

/-!
# What the options of the stencil compiler mean
-/

namespace Yask.CcMain
open Args (Str Opt Vals)

/-- One thing the user wrote on the command line: an option of the program, or of the library, with its value. -/
inductive Word
  | prog (i : CmdItem OptVal)
  | lib (i : CmdItem OptVal)

/-- Its strings. -/
def Word.strings : Word → List Str
  | .prog i => i.strings
  | .lib i => i.strings

/-- The value which an option written so gives to the option of this name. -/
def itemGives : CmdItem OptVal → Str → OptVal → Prop
  | .flag o b, n, v => o.name = n ∧ v = .bool b
  | .value o _ x, n, v => o.name = n ∧ v = x
  | .other _, _, _ => False

/-- An option of the given list, with a value if it needs one. -/
def itemFor (opts : List (Opt OptVal)) : CmdItem OptVal → Prop
  | .flag o _ => o ∈ opts ∧ o.isBool = true
  | .value o text v => o ∈ opts ∧ o.isBool = false ∧ o.parse text = some v
  | .other _ => False

/-- The words that are understood: options with values. A value of an option of the library must not read like an option of the
program, and have no quotes or control characters (`Quotable`). -/
def Word.Legal : Word → Prop
  | .prog i => itemFor progOpts i
  | .lib i => itemFor libOpts i ∧ ∀ s ∈ i.strings, Quotable s ∧ ∀ o ∈ progOpts, s ∉ o.spellings

/-- As `Word.Legal`, but also strings that are no option (`.lib (.other s)`). -/
def Word.Readable : Word → Prop
  | .prog i => itemFor progOpts i
  | .lib i => i.Valid libOpts ∧ ∀ s ∈ i.strings, Quotable s ∧ ∀ o ∈ progOpts, s ∉ o.spellings

/-- The option of the program with name `n` was last given with value `v`. -/
def ProgGiven (ws : List Word) (n : Str) (v : OptVal) : Prop :=
  ∃ pre i post, ws = pre ++ .prog i :: post ∧ itemGives i n v ∧ ∀ j, .prog j ∈ post → ∀ u, ¬ itemGives j n u

/-- The option of the library with name `n` was last given with value `v`. -/
def LibGiven (ws : List Word) (n : Str) (v : OptVal) : Prop :=
  ∃ pre i post, ws = pre ++ .lib i :: post ∧ itemGives i n v ∧ ∀ j, .lib j ∈ post → ∀ u, ¬ itemGives j n u

/-- The value of an option of the program: the last one given, or else `d`. -/
def ProgVal (ws : List Word) (n : Str) (d v : OptVal) : Prop :=
  ProgGiven ws n v ∨ (∀ u, ¬ ProgGiven ws n u) ∧ v = d

/-- The value of an option of the library: the last one given, or else `d`. -/
def LibVal (ws : List Word) (n : Str) (d v : OptVal) : Prop :=
  LibGiven ws n v ∨ (∀ u, ¬ LibGiven ws n u) ∧ v = d

/-- The radius of a stencil: that given with `-radius`, if it is not negative, or else its own. A stencil must accept the one given;
one without radius ignores the option. -/
def RadiusUsed (ws : List Word) (s : Stencil) (r : Int) : Prop :=
  ∃ x : Int, ProgVal ws "radius".toList (.int (-1)) (.int x) ∧
    match s.accepts with
    | none => r = s.radius
    | some f => (0 ≤ x ∧ f x = true ∧ r = x) ∨ (x < 0 ∧ r = s.radius)

/-- What an option is given with, by the message printed with `-help`. -/
inductive Kind
  | flag | integer | string | strings

/-- The options listed by `-help` for the program, without `-h`. -/
def progListed : List (String × Kind) := [("help", .flag), ("p", .string), ("radius", .integer), ("stencil", .string)]

/-- The options listed by `-help` for the library, without `-fold` and `-fus`. -/
def libListed : List (String × Kind) :=
  [("bundle", .flag), ("bundle-scratch", .flag), ("domain-dims", .strings), ("early-loads", .flag), ("elem-bytes", .integer),
   ("first-inner", .flag), ("halo", .integer), ("inner-loop-dim", .string), ("inner-misc-layout", .flag),
   ("l1-prefetch-dist", .integer), ("l2-prefetch-dist", .integer), ("max-es", .integer), ("min-buffer-len", .integer),
   ("min-es", .integer), ("opt-comb", .flag), ("opt-cse", .flag), ("opt-pair", .flag), ("opt-reorder", .flag),
   ("outer-domain-layout", .flag), ("step-alloc", .integer), ("step-dim", .string), ("target", .string), ("ul", .flag),
   ("use-ptrs", .flag), ("use-safe-ptrs", .flag), ("vars", .string)]

/-- An option is registered under its name and for its kind of values; integers are those of type `int` (see `C76_number_iff` for how
they are written). -/
def Known (opts : List (Opt OptVal)) (n : String) : Kind → Prop
  | .flag => ∃ o ∈ opts, o.name = n.toList ∧ o.isBool = true
  | .integer => ∃ o ∈ opts, o.name = n.toList ∧ o.isBool = false ∧
      ∀ s v, Options.idxVal s = some v → -2 ^ 31 ≤ v → v < 2 ^ 31 → o.parse s = some (.int v)
  | .string => ∃ o ∈ opts, o.name = n.toList ∧ o.isBool = false ∧ ∀ s, o.parse s = some (.str s)
  | .strings => ∃ o ∈ opts, o.name = n.toList ∧ o.isBool = false ∧
      ∀ l : List Str, (∀ s ∈ l, s ≠ [] ∧ ',' ∉ s) → o.parse (List.intercalate [','] l) = some (.list l)

end Yask.CcMain
