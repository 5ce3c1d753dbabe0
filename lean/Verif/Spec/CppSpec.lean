import Mathlib.Algebra.Order.Field.Rat
import Mathlib.Algebra.Order.AbsoluteValue.Basic
import Verif.Common.Outcome

/-!
# Specification: what C++ text computes

A small part of C++: the expressions and statements that occur in generated stencil code. Text is a list of pieces: names and
literals (which are never printed next to each other), punctuation characters and blanks. It is split into tokens by the rule of the
longest match (so that two adjacent `-` are one decrement operator), parsed with the precedences of C++, and evaluated with the types
of C++: an operator whose operands are all integers is an integer operator, otherwise the integers are converted.

The arithmetic of the real type (`real_t` or `real_vec_t`) is arbitrary; it has one real type, so differences between `double` and
`float` intermediate results are not part of this.

Also here: the expressions that a user builds, and their values.
-/

namespace Yask.Spec.Cpp

/-- Binary operators. -/
inductive Op
  | add | sub | mul | div | mod
deriving DecidableEq

/-- Arithmetic on values of type `R`: value of a decimal literal or integer, negation, binary operators (not `%`), functions. -/
structure Arith (R : Type) where
  lit : ℚ → R
  neg : R → R
  bin : Op → R → R → R
  fn : String → List R → R

/-- Name of a local variable: a prefix and a number. -/
structure Name where
  pre : String
  num : Nat
deriving DecidableEq

/-- Punctuation characters. -/
inductive Sym
  | minus | plus | star | slash | percent | lpar | rpar | comma
deriving DecidableEq

/-- Pieces of text: name of a variable, name of a function, decimal integer, decimal number with fraction or exponent, punctuation
character, blank. -/
inductive Piece
  | word (x : Name)
  | fn (f : String)
  | intLit (n : Nat)
  | realLit (q : ℚ)
  | sym (s : Sym)
  | blank
deriving DecidableEq

/-- Tokens; `--` and `++` are single tokens. -/
inductive Tok
  | id (x : Name)
  | fn (f : String)
  | int (n : Nat)
  | real (q : ℚ)
  | sym (s : Sym)
  | dec | inc
deriving DecidableEq

/-- Splitting of text into tokens. -/
def lex : List Piece → List Tok
  | [] => []
  | .word x :: r => .id x :: lex r
  | .fn f :: r => .fn f :: lex r
  | .intLit n :: r => .int n :: lex r
  | .realLit q :: r => .real q :: lex r
  | .blank :: r => lex r
  | .sym .minus :: .sym .minus :: r => .dec :: lex r
  | .sym .plus :: .sym .plus :: r => .inc :: lex r
  | .sym s :: r => .sym s :: lex r

/-- C++ expressions. -/
inductive CE
  | int (n : Nat)
  | real (q : ℚ)
  | var (x : Name)
  | neg (a : CE)
  | bin (op : Op) (a b : CE)
  | call (f : String) (args : List CE)

mutual
/-- A name, a number, a call or an expression in parentheses. -/
def parsePrim : Nat → List Tok → Option (CE × List Tok)
  | 0, _ => none
  | _ + 1, .int n :: r => some (.int n, r)
  | _ + 1, .real q :: r => some (.real q, r)
  | _ + 1, .id x :: r => some (.var x, r)
  | k + 1, .fn f :: .sym .lpar :: r => (parseArgs k r).map fun a => (.call f a.1, a.2)
  | k + 1, .sym .lpar :: r => match parseAdd k r with
    | some (a, .sym .rpar :: r') => some (a, r')
    | _ => none
  | _ + 1, _ => none
/-- Arguments and closing parenthesis. -/
def parseArgs : Nat → List Tok → Option (List CE × List Tok)
  | 0, _ => none
  | k + 1, r => match parseAdd k r with
    | some (a, .sym .rpar :: r') => some ([a], r')
    | some (a, .sym .comma :: r') => (parseArgs k r').map fun b => (a :: b.1, b.2)
    | _ => none
/-- Unary minus. (`--` and `++` need a variable that is changed; no statement here may do that.) -/
def parseUnary : Nat → List Tok → Option (CE × List Tok)
  | 0, _ => none
  | k + 1, .sym .minus :: r => (parseUnary k r).map fun a => (.neg a.1, a.2)
  | k + 1, r => parsePrim k r
/-- `*`, `/` and `%`, from the left. -/
def parseMul : Nat → List Tok → Option (CE × List Tok)
  | 0, _ => none
  | k + 1, r => match parseUnary k r with
    | some (a, r') => mulLoop k a r'
    | none => none
/-- Further factors. -/
def mulLoop : Nat → CE → List Tok → Option (CE × List Tok)
  | 0, _, _ => none
  | k + 1, a, .sym .star :: r => match parseUnary k r with
    | some (b, r') => mulLoop k (.bin .mul a b) r'
    | none => none
  | k + 1, a, .sym .slash :: r => match parseUnary k r with
    | some (b, r') => mulLoop k (.bin .div a b) r'
    | none => none
  | k + 1, a, .sym .percent :: r => match parseUnary k r with
    | some (b, r') => mulLoop k (.bin .mod a b) r'
    | none => none
  | _ + 1, a, r => some (a, r)
/-- `+` and `-`, from the left. -/
def parseAdd : Nat → List Tok → Option (CE × List Tok)
  | 0, _ => none
  | k + 1, r => match parseMul k r with
    | some (a, r') => addLoop k a r'
    | none => none
/-- Further terms. -/
def addLoop : Nat → CE → List Tok → Option (CE × List Tok)
  | 0, _, _ => none
  | k + 1, a, .sym .plus :: r => match parseMul k r with
    | some (b, r') => addLoop k (.bin .add a b) r'
    | none => none
  | k + 1, a, .sym .minus :: r => match parseMul k r with
    | some (b, r') => addLoop k (.bin .sub a b) r'
    | none => none
  | _ + 1, a, r => some (a, r)
end

/-- Parsing of a whole text (the first argument bounds the depth of the recursion and is large enough). -/
def parse (t : List Piece) : Option CE :=
  match parseAdd (4 * (lex t).length + 4) (lex t) with
  | some (a, []) => some a
  | _ => none

/-- Values: of type `int` (`long` if the flag is set), or real. -/
inductive Val (R : Type)
  | int (long : Bool) (n : Int)
  | real (r : R)

section
variable {R : Type}

/-- Conversion to the real type. -/
def Val.toReal (A : Arith R) : Val R → R
  | .int _ n => A.lit n
  | .real r => r

/-- Range of `int` and of `long`. -/
def InRange (long : Bool) (n : Int) : Prop := if long then -(2 ^ 63) ≤ n ∧ n < 2 ^ 63 else -(2 ^ 31) ≤ n ∧ n < 2 ^ 31

instance (l : Bool) (n : Int) : Decidable (InRange l n) := by unfold InRange; infer_instance

/-- Result of an integer operator: overflow is undefined. -/
def mkInt (long : Bool) (n : Int) : Outcome (Val R) := if InRange long n then .ok (.int long n) else .undefined

/-- Integer operators: division truncates, division by zero is undefined. -/
def intBin : Op → Int → Int → Outcome Int
  | .add, a, b => .ok (a + b)
  | .sub, a, b => .ok (a - b)
  | .mul, a, b => .ok (a * b)
  | .div, a, b => if b = 0 then .undefined else .ok (a.tdiv b)
  | .mod, a, b => if b = 0 then .undefined else .ok (a.tmod b)

/-- A binary operator; real values have no `%` (the program is not accepted: `throws`). -/
def binVal (A : Arith R) (op : Op) : Val R → Val R → Outcome (Val R)
  | .int l a, .int l' b => do
    let n ← intBin op a b
    mkInt (l || l') n
  | a, b => if op = .mod then .throws else .ok (.real (A.bin op (a.toReal A) (b.toReal A)))

/-- Unary minus. -/
def negVal (A : Arith R) : Val R → Outcome (Val R)
  | .int l n => mkInt l (-n)
  | .real r => .ok (.real (A.neg r))

mutual
/-- Evaluation of an expression, given the values of the local variables (all are real). -/
def CE.eval (A : Arith R) (env : Name → Option R) : CE → Outcome (Val R)
  | .int n => if n < 2 ^ 31 then .ok (.int false n) else if n < 2 ^ 63 then .ok (.int true n) else .throws
  | .real q => .ok (.real (A.lit q))
  | .var x => match env x with
    | some r => .ok (.real r)
    | none => .throws
  | .neg a => do
    let v ← a.eval A env
    negVal A v
  | .bin op a b => do
    let v ← a.eval A env
    let w ← b.eval A env
    binVal A op v w
  | .call f args => do
    let vs ← CE.evalAll A env args
    .ok (.real (A.fn f (vs.map (Val.toReal A))))
/-- Evaluation of the arguments of a call. -/
def CE.evalAll (A : Arith R) (env : Name → Option R) : List CE → Outcome (List (Val R))
  | [] => .ok []
  | a :: as => do
    let v ← a.eval A env
    let vs ← CE.evalAll A env as
    .ok (v :: vs)
end

/-- Value of a text converted to the real type. Text that cannot be parsed is not accepted. -/
def textVal (A : Arith R) (env : Name → Option R) (t : List Piece) : Outcome R :=
  match parse t with
  | some a => do
    let v ← a.eval A env
    .ok (v.toReal A)
  | none => .throws

/-- Values of several texts. -/
def textVals (A : Arith R) (env : Name → Option R) : List (List Piece) → Outcome (List R)
  | [] => .ok []
  | t :: ts => do
    let v ← textVal A env t
    let vs ← textVals A env ts
    .ok (v :: vs)

variable {π : Type}

/-- Statements of generated code: declaration of a real variable with an initial value, declaration of a variable with the value
of a point of a var, store of a variable to a point of a var, and call of a function that sets two variables. -/
inductive Stmt (π : Type)
  | decl (x : Name) (t : List Piece)
  | load (x : Name) (p : π)
  | store (p : π) (x : Name)
  | pair (f g : String) (x y : Name) (args : List (List Piece))

/-- Change of a function at one argument. -/
def upd {α β : Type} [DecidableEq α] (f : α → β) (a : α) (b : β) : α → β := fun c => if c = a then b else f c

/-- Execution of a statement: local variables and data of vars. A variable may be declared only once. Only `sin` and `cos` can be
computed together. -/
def Stmt.exec [DecidableEq π] (A : Arith R) : Stmt π → (Name → Option R) × (π → R) → Outcome ((Name → Option R) × (π → R))
  | .decl x t, (env, m) => do
    let v ← textVal A env t
    if env x = none then .ok (upd env x (some v), m) else .throws
  | .load x p, (env, m) => if env x = none then .ok (upd env x (some (m p)), m) else .throws
  | .store p x, (env, m) => match env x with
    | some v => .ok (env, upd m p v)
    | none => .throws
  | .pair f g x y args, (env, m) => do
    let vs ← textVals A env args
    if (f = "sin" ∧ g = "cos" ∨ f = "cos" ∧ g = "sin") ∧ env x ≠ none ∧ env y ≠ none ∧ x ≠ y then
      .ok (upd (upd env x (some (A.fn f vs))) y (some (A.fn g vs)), m)
    else .throws

/-- Execution of statements. -/
def execAll [DecidableEq π] (A : Arith R) : List (Stmt π) → (Name → Option R) × (π → R) → Outcome ((Name → Option R) × (π → R))
  | [], s => .ok s
  | c :: cs, s => do
    let s' ← c.exec A s
    execAll A cs s'

/-- The expressions that a user builds: constants, points of vars, and operators. Sums and products have any number of operands.
Every node has an identity (`id`), since a node can be used in several places. A function can be paired with another function node
of the same arguments (given by its id and function). -/
inductive Ex (π : Type)
  | const (id : Nat) (q : ℚ)
  | read (id : Nat) (p : π)
  | neg (id : Nat) (a : Ex π)
  | bin (id : Nat) (op : Op) (l r : Ex π)
  | comm (id : Nat) (op : Op) (as : List (Ex π))
  | func (id : Nat) (f : String) (partner : Option (Nat × String)) (as : List (Ex π))

/-- The identity of a node. -/
def Ex.id : Ex π → Nat
  | .const i _ => i
  | .read i _ => i
  | .neg i _ => i
  | .bin i _ _ _ => i
  | .comm i _ _ => i
  | .func i _ _ _ => i

mutual
/-- The value of an expression: `m` is the data of the vars. -/
def Ex.value (A : Arith R) (m : π → R) : Ex π → R
  | .const _ q => A.lit q
  | .read _ p => m p
  | .neg _ a => A.neg (a.value A m)
  | .bin _ op l r => A.bin op (l.value A m) (r.value A m)
  | .comm _ _ [] => A.lit 0
  | .comm _ op (a :: as) => Ex.foldValue A m op (a.value A m) as
  | .func _ f _ as => A.fn f (Ex.values A m as)
/-- Operands of sums and products are combined from the left. -/
def Ex.foldValue (A : Arith R) (m : π → R) (op : Op) : R → List (Ex π) → R
  | v, [] => v
  | v, a :: as => Ex.foldValue A m op (A.bin op v (a.value A m)) as
/-- Values of several expressions. -/
def Ex.values (A : Arith R) (m : π → R) : List (Ex π) → List R
  | [] => []
  | a :: as => a.value A m :: Ex.values A m as
end

/-- Application of an operator to integers, if both are given. -/
def intApply (op : Op) : Option (Bool × Int) → Option (Bool × Int) → Option (Bool × Int)
  | some (l, n), some (l', n') => match intBin op n n' with
    | .ok k => some (l || l', k)
    | _ => none
  | _, _ => none

/-- Negation of an integer, if it is given. -/
def intNeg : Option (Bool × Int) → Option (Bool × Int)
  | some (l, n) => some (l, -n)
  | none => none

mutual
/-- If an expression only consists of constants that are integers of type `int`: its value in integer arithmetic, and whether it has
type `long` (the literal of the smallest `int` does, since it is written as a negated literal). -/
def Ex.intOf : Ex π → Option (Bool × Int)
  | .const _ q => if q.den = 1 ∧ -(2 ^ 31) ≤ q.num ∧ q.num < 2 ^ 31 then some (decide (q.num = -(2 ^ 31)), q.num) else none
  | .read _ _ => none
  | .neg _ a => intNeg a.intOf
  | .bin _ op l r => intApply op l.intOf r.intOf
  | .comm _ _ [] => none
  | .comm _ op (a :: as) => Ex.intFold op a.intOf as
  | .func _ _ _ _ => none
/-- Operands of sums and products. -/
def Ex.intFold (op : Op) : Option (Bool × Int) → List (Ex π) → Option (Bool × Int)
  | x, [] => x
  | x, a :: as => Ex.intFold op (intApply op x a.intOf) as
end

/-- If both operands are integers, the integer operator is defined and its result is that of the real operator. -/
def IntOk (A : Arith R) (op : Op) (x y : Option (Bool × Int)) : Prop :=
  ∀ l n l' n', x = some (l, n) → y = some (l', n') →
    ∃ k, intBin op n n' = .ok k ∧ InRange (l || l') k ∧ A.lit k = A.bin op (A.lit n) (A.lit n')

/-- `d` is a decimal number with 16 digits nearest to `q`. -/
def IsDec16 (q d : ℚ) : Prop :=
  ∃ e m : ℤ, 10 ^ 15 ≤ m ∧ m ≤ 10 ^ 16 ∧ d = m * (10 : ℚ) ^ (e - 15) ∧ |q - d| ≤ (10 : ℚ) ^ (e - 15) / 2

/-- The constant can be written as a decimal number with 16 digits: reading it gives the same real number. -/
def LitOk (A : Arith R) (q : ℚ) : Prop :=
  (0 < q → ∀ d, IsDec16 q d → A.lit d = A.lit q) ∧ (q < 0 → ∀ d, IsDec16 (-q) d → A.neg (A.lit d) = A.lit q)

/-- The expression is a negation or a negative constant. -/
def Ex.Minus : Ex π → Prop
  | .const _ q => q < 0
  | .neg _ _ => True
  | _ => False

mutual
/-- Expressions without the cases that are not translated correctly: constants are in the range of `int`, and other constants than
integers can be written with 16 digits; nothing that starts with a minus is negated; operators on integer constants give the same
result in integer arithmetic; there is no `%`; sums and products have at least two operands. -/
def Ex.Plain (A : Arith R) : Ex π → Prop
  | .const _ q => -(2 ^ 31) - 1 < q ∧ q < 2 ^ 31 ∧ (q.den ≠ 1 → LitOk A q)
  | .read _ _ => True
  | .neg _ a => a.Plain A ∧ ¬ a.Minus ∧ ∀ l n, a.intOf = some (l, n) → InRange l (-n) ∧ A.lit ((-n : Int) : ℚ) = A.neg (A.lit n)
  | .bin _ op l r => l.Plain A ∧ r.Plain A ∧ op ≠ .mod ∧ IntOk A op l.intOf r.intOf
  | .comm _ _ [] => False
  | .comm _ op (a :: as) => a.Plain A ∧ op ≠ .mod ∧ Ex.PlainFold A op a.intOf as ∧ as ≠ []
  | .func _ _ _ as => as ≠ [] ∧ Ex.Plains A as
/-- Operands of sums and products. -/
def Ex.PlainFold (A : Arith R) (op : Op) : Option (Bool × Int) → List (Ex π) → Prop
  | _, [] => True
  | x, a :: as => a.Plain A ∧ IntOk A op x a.intOf ∧ Ex.PlainFold A op (intApply op x a.intOf) as
/-- Arguments. -/
def Ex.Plains (A : Arith R) : List (Ex π) → Prop
  | [] => True
  | a :: as => a.Plain A ∧ Ex.Plains A as
end

mutual
/-- All nodes of an expression have a property. -/
def Ex.All (P : Ex π → Prop) : Ex π → Prop
  | .const i q => P (.const i q)
  | .read i p => P (.read i p)
  | .neg i a => P (.neg i a) ∧ a.All P
  | .bin i op l r => P (.bin i op l r) ∧ l.All P ∧ r.All P
  | .comm i op as => P (.comm i op as) ∧ Ex.Alls P as
  | .func i f pr as => P (.func i f pr as) ∧ Ex.Alls P as
/-- All nodes of several expressions. -/
def Ex.Alls (P : Ex π → Prop) : List (Ex π) → Prop
  | [] => True
  | a :: as => a.All P ∧ Ex.Alls P as
end

/-- The points that are read are not in `ws`; `node` gives the node of each identity; the partner of a function is another
node, one is the sine and one the cosine, and their arguments have the same values. -/
def Ex.NodeOk (A : Arith R) (m : π → R) (node : Nat → Ex π) (ws : List π) (e : Ex π) : Prop :=
  node e.id = e ∧
  match e with
  | .read _ p => p ∉ ws
  | .func i f (some (j, g)) as => i ≠ j ∧ (f = "sin" ∧ g = "cos" ∨ f = "cos" ∧ g = "sin") ∧
      ∃ pr as', node j = .func j g pr as' ∧ Ex.values A m as' = Ex.values A m as
  | _ => True

end
end Yask.Spec.Cpp
