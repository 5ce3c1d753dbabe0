import Mathlib.Data.Rat.Floor
import Verif.Spec.CppSpec

/-!
# Specification: conditions of equations, and what C++ conditions compute

First the conditions that a user builds for an equation (`IF_DOMAIN`, `IF_STEP`) and when they hold. Then a part of C++: integer and
boolean expressions over local variables of type `long`, with the rules of C++ for splitting text into tokens (two adjacent `-` are one
operator that changes a variable), precedence, types, integer division, and order of evaluation.

Numbers of type `double` are rational numbers; `rnd` rounds a rational number to a `double` and is arbitrary.
-/

namespace Yask.Spec.Cond
open Spec.Cpp (Op InRange intBin)

/-- Comparisons. -/
inductive Cmp
  | eq | ne | lt | ge | gt | le
deriving DecidableEq

/-- Comparison of numbers. -/
def Cmp.holds : Cmp → ℚ → ℚ → Bool
  | .eq, a, b => decide (a = b)
  | .ne, a, b => decide (a ≠ b)
  | .lt, a, b => decide (a < b)
  | .ge, a, b => decide (b ≤ a)
  | .gt, a, b => decide (b < a)
  | .le, a, b => decide (a ≤ b)

section
variable {π : Type}

/-- Numbers in conditions: constants, the index in a dimension, the first and the last index of the overall problem in a dimension,
the value of a point of a var, and operators. Sums and products have any number of operands. -/
inductive Num (π : Type)
  | const (q : ℚ)
  | idx (d : Nat)
  | first (d : Nat)
  | last (d : Nat)
  | read (p : π)
  | neg (a : Num π)
  | bin (op : Op) (l r : Num π)
  | comm (op : Op) (as : List (Num π))

/-- Conditions. -/
inductive Cd (π : Type)
  | cmp (o : Cmp) (l r : Num π)
  | not (a : Cd π)
  | and (a b : Cd π)
  | or (a b : Cd π)

/-- What a condition depends on: the indices (of those dimensions in which there is one), the sizes of the overall problem (indices
start at zero), the values of points. -/
structure Env (π : Type) where
  idx : Nat → Option Int
  size : Nat → Int
  data : π → ℚ

/-- Conversion of a number to an integer. -/
def toInt (q : ℚ) : Int := if 0 ≤ q then ⌊q⌋ else ⌈q⌉

/-- Operators on numbers. `%` converts both operands to integers; its pattern repeats also for negative numbers. -/
def opVal : Op → ℚ → ℚ → Option ℚ
  | .add, a, b => some (a + b)
  | .sub, a, b => some (a - b)
  | .mul, a, b => some (a * b)
  | .div, a, b => if b = 0 then none else some (a / b)
  | .mod, a, b => if toInt b = 0 then none else some ((toInt a).fmod (toInt b) : Int)

mutual
/-- The value of a number; none if there is a division by zero or an index in a dimension that has none. -/
def Num.value (E : Env π) : Num π → Option ℚ
  | .const q => some q
  | .idx d => (E.idx d).map fun n => (n : ℚ)
  | .first _ => some 0
  | .last d => some ((E.size d - 1 : Int) : ℚ)
  | .read p => some (E.data p)
  | .neg a => (a.value E).map fun v => -v
  | .bin op l r => match l.value E, r.value E with
    | some a, some b => opVal op a b
    | _, _ => none
  | .comm _ [] => none
  | .comm op (a :: as) => match a.value E with
    | some v => Num.foldValue E op v as
    | none => none
/-- Operands of sums and products are combined from the left. -/
def Num.foldValue (E : Env π) (op : Op) : ℚ → List (Num π) → Option ℚ
  | v, [] => some v
  | v, a :: as => match a.value E with
    | some w => match opVal op v w with
      | some u => Num.foldValue E op u as
      | none => none
    | none => none
end

/-- Whether a condition holds. The right operand of `&&` and `||` matters only if the left one does not decide. -/
def Cd.holds (E : Env π) : Cd π → Option Bool
  | .cmp o l r => match l.value E, r.value E with
    | some a, some b => some (o.holds a b)
    | _, _ => none
  | .not a => (a.holds E).map fun b => !b
  | .and a b => match a.holds E with
    | some true => b.holds E
    | x => x
  | .or a b => match a.holds E with
    | some false => b.holds E
    | x => x

/-! ## Conditions that are translated correctly -/

/-- Type of the result of an operator: if both operands are integers, `long` if one of them is. -/
def joinTy : Option Bool → Option Bool → Option Bool
  | some x, some y => some (x || y)
  | _, _ => none

mutual
/-- The type of a number: `some false` is `int`, `some true` is `long`, none is a real type. A constant that is an integer is an `int`
(the smallest one is not, since it is written as a negated literal); indices are `long`. -/
def Num.ty : Num π → Option Bool
  | .const q => if q.den = 1 then some (decide (q = -(2 ^ 31))) else none
  | .idx _ => some true
  | .first _ => some false
  | .last _ => some true
  | .read _ => none
  | .neg a => a.ty
  | .bin _ l r => joinTy l.ty r.ty
  | .comm _ [] => none
  | .comm _ (a :: as) => Num.tyFold a.ty as
/-- Operands of sums and products. -/
def Num.tyFold : Option Bool → List (Num π) → Option Bool
  | x, [] => x
  | x, a :: as => Num.tyFold (joinTy x a.ty) as
end

/-- `d` is a decimal number with `n + 1` digits nearest to `q`. -/
def IsDec (n : Nat) (q d : ℚ) : Prop :=
  ∃ e m : ℤ, 10 ^ n ≤ m ∧ m ≤ 10 ^ (n + 1) ∧ d = m * (10 : ℚ) ^ (e - n) ∧ |q - d| ≤ (10 : ℚ) ^ (e - n) / 2

/-- `d` is a number with 6 digits after the decimal point nearest to `q`. -/
def IsFixed6 (q d : ℚ) : Prop := ∃ m : ℤ, d = m / 10 ^ 6 ∧ |q - d| ≤ 1 / (2 * 10 ^ 6)

/-- The constant can be written in the code of a condition of a sub-domain (if `dom`) or of a step: with 6 digits after the decimal
point or with 7 digits for a sub-domain, with 16 digits for a step; reading the number gives the same `double`. -/
def LitOk (dom : Bool) (rnd : ℚ → ℚ) (q : ℚ) : Prop :=
  ∀ d, (if dom then (if q < 1 / 10 ^ 4 ∨ 10 ^ 5 ≤ q then IsDec 6 |q| d else IsFixed6 q d) else IsDec 15 |q| d) → rnd d = |q|

/-- The number is a negation or a negative constant. -/
def Num.Minus : Num π → Prop
  | .const q => q < 0
  | .neg _ => True
  | _ => False

/-- An operator with operands `a`, `b` of types `x`, `y` and result `c`: for integers, `%` has no negative operand, the quotient is an
integer, and the result is in the range of the type; else the numbers are `double`s. -/
def OpOk (rnd : ℚ → ℚ) (op : Op) (x y : Option Bool) (a b c : ℚ) : Prop :=
  match x, y with
  | some l, some l' => (op = .mod → 0 ≤ a ∧ 0 < b) ∧ (op = .div → c.den = 1) ∧ InRange (l || l') c.num
  | _, _ => op ≠ .mod ∧ rnd a = a ∧ rnd b = b ∧ rnd c = c

mutual
/-- Numbers without the cases that are not translated correctly: constants are in the range of `int`, and other constants than integers
can be written; nothing that starts with a minus is negated; there are no points of vars in a condition of a sub-domain; operators as
above. -/
def Num.Plain (dom : Bool) (rnd : ℚ → ℚ) (E : Env π) : Num π → Prop
  | .const q => -(2 ^ 31) - 1 < q ∧ q < 2 ^ 31 ∧ (q.den ≠ 1 → LitOk dom rnd q)
  | .idx d => ∃ n, E.idx d = some n ∧ InRange true n
  | .first _ => True
  | .last d => InRange true (E.size d) ∧ InRange true (E.size d - 1)
  | .read _ => dom = false
  | .neg a => a.Plain dom rnd E ∧ ¬ a.Minus ∧ ∀ l v, a.ty = some l → a.value E = some v → InRange l (-v.num)
  | .bin op l r => l.Plain dom rnd E ∧ r.Plain dom rnd E ∧
      ∃ a b c, l.value E = some a ∧ r.value E = some b ∧ opVal op a b = some c ∧ OpOk rnd op l.ty r.ty a b c
  | .comm _ [] => False
  | .comm op (a :: as) => a.Plain dom rnd E ∧ ∃ v, a.value E = some v ∧ Num.PlainFold dom rnd E op a.ty v as
/-- Operands of sums and products. -/
def Num.PlainFold (dom : Bool) (rnd : ℚ → ℚ) (E : Env π) (op : Op) : Option Bool → ℚ → List (Num π) → Prop
  | _, _, [] => True
  | x, v, a :: as => a.Plain dom rnd E ∧ ∃ w u, a.value E = some w ∧ opVal op v w = some u ∧ OpOk rnd op x a.ty v w u ∧
      Num.PlainFold dom rnd E op (joinTy x a.ty) u as
end

/-- Conditions without the cases that are not translated correctly: if one side of a comparison is a real number, both sides are
`double`s. -/
def Cd.Plain (dom : Bool) (rnd : ℚ → ℚ) (E : Env π) : Cd π → Prop
  | .cmp _ l r => l.Plain dom rnd E ∧ r.Plain dom rnd E ∧
      ((l.ty = none ∨ r.ty = none) → ∀ v, l.value E = some v ∨ r.value E = some v → rnd v = v)
  | .not a => a.Plain dom rnd E
  | .and a b => a.Plain dom rnd E ∧ b.Plain dom rnd E
  | .or a b => a.Plain dom rnd E ∧ b.Plain dom rnd E

/-! ## C++ -/

/-- Binary operators of C++. -/
inductive BOp
  | ar (o : Op)
  | cmp (o : Cmp)
  | and
  | or
deriving DecidableEq

/-- Precedence: larger numbers bind more tightly. -/
def BOp.level : BOp → Nat
  | .or => 0
  | .and => 1
  | .cmp .eq => 2
  | .cmp .ne => 2
  | .cmp _ => 3
  | .ar .add => 4
  | .ar .sub => 4
  | .ar _ => 5

/-- Pieces of text: a local variable, the size of the overall problem in a dimension (an element of an array of `long`), the value of a
point of a var (a call), a name that is not declared, decimal integer, other decimal number, binary operator, other punctuation,
blank. -/
inductive Piece (π : Type)
  | word (d : Nat)
  | size (d : Nat)
  | read (p : π)
  | unknown
  | intLit (n : Nat)
  | realLit (q : ℚ)
  | op (o : BOp)
  | bang | lpar | rpar | blank

/-- Tokens; `--` is a single token. -/
inductive Tok (π : Type)
  | id (d : Nat)
  | size (d : Nat)
  | read (p : π)
  | unknown
  | int (n : Nat)
  | real (q : ℚ)
  | op (o : BOp)
  | bang | lpar | rpar | dec

/-- Splitting of text into tokens. -/
def lex : List (Piece π) → List (Tok π)
  | [] => []
  | .word d :: r => .id d :: lex r
  | .size d :: r => .size d :: lex r
  | .read p :: r => .read p :: lex r
  | .unknown :: r => .unknown :: lex r
  | .intLit n :: r => .int n :: lex r
  | .realLit q :: r => .real q :: lex r
  | .op (.ar .sub) :: .op (.ar .sub) :: r => .dec :: lex r
  | .op o :: r => .op o :: lex r
  | .bang :: r => .bang :: lex r
  | .lpar :: r => .lpar :: lex r
  | .rpar :: r => .rpar :: lex r
  | .blank :: r => lex r

/-- C++ expressions; `dec d` is `--x`. -/
inductive CE (π : Type)
  | int (n : Nat)
  | real (q : ℚ)
  | var (d : Nat)
  | size (d : Nat)
  | read (p : π)
  | dec (d : Nat)
  | neg (a : CE π)
  | not (a : CE π)
  | bin (o : BOp) (a b : CE π)

mutual
/-- Unary operators, names, numbers, and expressions in parentheses. -/
def parseUnary : Nat → List (Tok π) → Option (CE π × List (Tok π))
  | 0, _ => none
  | k + 1, .op (.ar .sub) :: r => (parseUnary k r).map fun a => (.neg a.1, a.2)
  | k + 1, .bang :: r => (parseUnary k r).map fun a => (.not a.1, a.2)
  | _ + 1, .dec :: .id d :: r => some (.dec d, r)
  | _ + 1, .int n :: r => some (.int n, r)
  | _ + 1, .real q :: r => some (.real q, r)
  | _ + 1, .id d :: r => some (.var d, r)
  | _ + 1, .size d :: r => some (.size d, r)
  | _ + 1, .read p :: r => some (.read p, r)
  | k + 1, .lpar :: r => match parseLvl k 0 r with
    | some (a, .rpar :: r') => some (a, r')
    | _ => none
  | _ + 1, _ => none
/-- Binary operators of a precedence or higher ones. -/
def parseLvl : Nat → Nat → List (Tok π) → Option (CE π × List (Tok π))
  | 0, _, _ => none
  | k + 1, l, r =>
    if l < 6 then
      match parseLvl k (l + 1) r with
      | some (a, r') => parseLoop k l a r'
      | none => none
    else parseUnary k r
/-- Further operands, from the left. -/
def parseLoop : Nat → Nat → CE π → List (Tok π) → Option (CE π × List (Tok π))
  | 0, _, _, _ => none
  | k + 1, l, a, .op o :: r =>
    if o.level = l then
      match parseLvl k (l + 1) r with
      | some (b, r') => parseLoop k l (.bin o a b) r'
      | none => none
    else some (a, .op o :: r)
  | _ + 1, _, a, r => some (a, r)
end

/-- Parsing of a whole text (the first argument bounds the depth of the recursion and is large enough). -/
def parse (t : List (Piece π)) : Option (CE π) :=
  match parseLvl (16 * (lex t).length + 16) 0 (lex t) with
  | some (a, []) => some a
  | _ => none

/-- Values: of type `int` (`long` if the flag is set), real, or boolean. -/
inductive Val
  | int (long : Bool) (n : Int)
  | real (q : ℚ)
  | bool (b : Bool)
deriving DecidableEq

/-- A boolean is converted to `int` where a number is needed. -/
def Val.num : Val → Val
  | .bool b => .int false (if b then 1 else 0)
  | v => v

/-- Conversion to `double`. -/
def Val.real? (rnd : ℚ → ℚ) : Val → ℚ
  | .int _ n => rnd n
  | .real q => q
  | .bool b => if b then 1 else 0

/-- Conversion to `bool`. -/
def Val.truth : Val → Bool
  | .int _ n => decide (n ≠ 0)
  | .real q => decide (q ≠ 0)
  | .bool b => b

/-- Result of an integer operator: overflow is undefined. -/
def mkInt (long : Bool) (n : Int) : Outcome Val := if InRange long n then .ok (.int long n) else .undefined

/-- Operators on reals: rounded. A division by zero is not a number here; `%` is not accepted. -/
def realBin (rnd : ℚ → ℚ) : Op → ℚ → ℚ → Outcome Val
  | .add, a, b => .ok (.real (rnd (a + b)))
  | .sub, a, b => .ok (.real (rnd (a - b)))
  | .mul, a, b => .ok (.real (rnd (a * b)))
  | .div, a, b => if b = 0 then .undefined else .ok (.real (rnd (a / b)))
  | .mod, _, _ => .throws

/-- Arithmetic operators. -/
def arVal (rnd : ℚ → ℚ) (op : Op) (v w : Val) : Outcome Val :=
  match v.num, w.num with
  | .int l a, .int l' b => do
    let n ← intBin op a b
    mkInt (l || l') n
  | v, w => realBin rnd op (v.real? rnd) (w.real? rnd)

/-- Comparisons. -/
def cmpVal (rnd : ℚ → ℚ) (o : Cmp) (v w : Val) : Val :=
  match v.num, w.num with
  | .int _ a, .int _ b => .bool (o.holds a b)
  | v, w => .bool (o.holds (v.real? rnd) (w.real? rnd))

/-- Unary minus. -/
def negVal (v : Val) : Outcome Val :=
  match v.num with
  | .int l n => mkInt l (-n)
  | .real q => .ok (.real (-q))
  | .bool _ => .throws

/-- Variables that an expression changes. -/
def CE.mods : CE π → List Nat
  | .dec d => [d]
  | .neg a => a.mods
  | .not a => a.mods
  | .bin _ a b => a.mods ++ b.mods
  | _ => []

/-- Variables that an expression uses or changes. -/
def CE.uses : CE π → List Nat
  | .var d => [d]
  | .dec d => [d]
  | .neg a => a.uses
  | .not a => a.uses
  | .bin _ a b => a.uses ++ b.uses
  | _ => []

/-- One expression changes a variable that the other one uses. -/
def conflict (a b : CE π) : Bool := a.mods.any (b.uses.contains ·) || b.mods.any (a.uses.contains ·)

/-- Evaluation of an expression: value and new values of the local variables. The operands of other operators than `&&` and `||` are
not evaluated in a certain order, so a conflict is undefined. A name that is not declared is not accepted. -/
def CE.eval (rnd : ℚ → ℚ) (E : Env π) : CE π → (Nat → Option Int) → Outcome (Val × (Nat → Option Int))
  | .int n, s => if n < 2 ^ 31 then .ok (.int false n, s) else if n < 2 ^ 63 then .ok (.int true n, s) else .throws
  | .real q, s => .ok (.real (rnd q), s)
  | .var d, s => match s d with
    | some n => .ok (.int true n, s)
    | none => .throws
  | .size d, s => .ok (.int true (E.size d), s)
  | .read p, s => .ok (.real (E.data p), s)
  | .dec d, s => match s d with
    | some n => if InRange true (n - 1) then .ok (.int true (n - 1), fun e => if e = d then some (n - 1) else s e) else .undefined
    | none => .throws
  | .neg a, s => do
    let x ← a.eval rnd E s
    let v ← negVal x.1
    .ok (v, x.2)
  | .not a, s => do
    let x ← a.eval rnd E s
    .ok (.bool (!x.1.truth), x.2)
  | .bin .and a b, s => do
    let x ← a.eval rnd E s
    if x.1.truth then do
      let y ← b.eval rnd E x.2
      .ok (.bool y.1.truth, y.2)
    else .ok (.bool false, x.2)
  | .bin .or a b, s => do
    let x ← a.eval rnd E s
    if x.1.truth then .ok (.bool true, x.2)
    else do
      let y ← b.eval rnd E x.2
      .ok (.bool y.1.truth, y.2)
  | .bin (.ar op) a b, s =>
    if conflict a b then .undefined else do
      let x ← a.eval rnd E s
      let y ← b.eval rnd E x.2
      let v ← arVal rnd op x.1 y.1
      .ok (v, y.2)
  | .bin (.cmp o) a b, s =>
    if conflict a b then .undefined else do
      let x ← a.eval rnd E s
      let y ← b.eval rnd E x.2
      .ok (cmpVal rnd o x.1 y.1, y.2)

/-- Value of a text, where the local variables have the values of the indices. Text that cannot be parsed is not accepted. -/
def textVal (rnd : ℚ → ℚ) (E : Env π) (t : List (Piece π)) : Outcome Val :=
  match parse t with
  | some a => do
    let x ← a.eval rnd E E.idx
    .ok x.1
  | none => .throws

end
end Yask.Spec.Cond
