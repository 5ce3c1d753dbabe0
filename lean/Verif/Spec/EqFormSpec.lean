import Verif.Spec.ExprSpec
import Verif.Compiler.EqFormModel

/-!
# What an accepted equation means

An index expression is judged by its value, for all values of the indices, var points and functions in it.
-/

namespace Yask
open Comp

variable {π : Type}

/-- The expression has the value `f idx` whenever the step and domain indices have the values `idx`, whatever the rest is. -/
def Denotes (a : NExpr π) (f : (String → ℚ) → ℚ) : Prop :=
  ∀ (I : Interp π ℚ) (idx : String → ℚ), I.Usual → (∀ d, I.index d .step = idx d ∧ I.index d .domain = idx d) → a.val I = f idx

/-- The dims of a var have different names. -/
def DimNames (v : EqVar) : Prop := (v.dims.map Prod.fst).Nodup

/-- The dims of a var have the kinds they have in the solution. -/
def Kinds (D : CDims) (v : EqVar) : Prop :=
  ∀ x ∈ v.dims, (x.2 = .step ∧ x.1 = D.step) ∨ (x.2 = .domain ∧ x.1 ∈ D.domain ∧ x.1 ≠ D.step) ∨
    (x.2 = .misc ∧ x.1 ∉ D.domain ∧ x.1 ≠ D.step)

/-- A var that is read: in each step and domain dim at a fixed distance from the current index, in each other dim at a fixed index.
`p` is the point as the rest of the compiler sees it, which is to have recorded these numbers. -/
def ReadMeans (D : CDims) (v : EqVar) (args : List (NExpr π)) (p : CPt π) : Prop :=
  p.var = v ∧ args.length = v.dims.length ∧ ∀ x ∈ v.dims.zip args, ∃ k : ℤ,
    if x.1.1 = D.step ∨ x.1.1 ∈ D.domain then Denotes x.2 (fun idx => idx x.1.1 + k) ∧ p.offsets.lookup x.1.1 = some k
    else Denotes x.2 (fun _ => k) ∧ p.consts.lookup x.1.1 = some k

/-- A var that is written, in the direction `dir` of the steps: at the current index in every domain dim of the solution, at the next
step unless it is a scratch var, which has no step dim, and at fixed indices in the other dims. -/
def WriteMeans (D : CDims) (dir : ℤ) (v : EqVar) (args : List (NExpr π)) (p : CPt π) : Prop :=
  p.var = v ∧ args.length = v.dims.length ∧ (∀ d ∈ D.domain, d ∈ v.dims.map Prod.fst) ∧
    (D.step ∈ v.dims.map Prod.fst ↔ v.scratch = false) ∧ ∀ x ∈ v.dims.zip args,
    if x.1.1 = D.step then Denotes x.2 (fun idx => idx x.1.1 + dir) ∧ p.offsets.lookup x.1.1 = some dir
    else if x.1.1 ∈ D.domain then Denotes x.2 (fun idx => idx x.1.1)
    else ∃ k : ℤ, Denotes x.2 (fun _ => k) ∧ p.consts.lookup x.1.1 = some k

/-- An equation: one write and several reads, no step beyond the one that is written being read by a forward equation of a var that is
not a scratch var. -/
def EqMeans (D : CDims) (dir : ℤ) (e : SrcEq π) (c : CEq π) : Prop :=
  WriteMeans D dir e.lhs.1 e.lhs.2 c.lhs ∧ List.Forall₂ (fun q p => ReadMeans D q.1 q.2 p) e.rhs c.rhs ∧
    (e.lhs.1.scratch = false → dir = 1 → ∀ q ∈ e.rhs, ∀ x ∈ q.1.dims.zip q.2, x.1.1 = D.step →
      ∃ k : ℤ, k ≤ 1 ∧ Denotes x.2 (fun idx => idx x.1.1 + k))

/-- A number the compiler can store as an offset, and its negation. -/
def SmallInt (k : ℤ) : Prop := -2147483647 ≤ k ∧ k ≤ 2147483647

/-- `d`, `d + k`, `k + d` or `d - (-k)`. -/
def PlainOffset (d : String) (ty : IndexType) (k : ℤ) (a : NExpr π) : Prop :=
  SmallInt k ∧ ((k = 0 ∧ a = .index d ty) ∨ a = .comm .add [.index d ty, .const k] ∨ a = .comm .add [.const k, .index d ty] ∨
    a = .bin .sub (.index d ty) (.const (-k : ℤ)))

/-- A read in the plain way. -/
def PlainRead (D : CDims) (late : ℤ → Prop) (q : EqVar × List (NExpr π)) : Prop :=
  DimNames q.1 ∧ Kinds D q.1 ∧ q.2.length = q.1.dims.length ∧ ∀ x ∈ q.1.dims.zip q.2, ∃ k : ℤ,
    if x.1.2 = .misc then SmallInt k ∧ x.2 = .const k
    else PlainOffset x.1.1 x.1.2 k x.2 ∧ (x.1.2 = .step → ¬ late k)

/-- A write in the plain way. -/
def PlainWrite (D : CDims) (dir : ℤ) (q : EqVar × List (NExpr π)) : Prop :=
  DimNames q.1 ∧ Kinds D q.1 ∧ q.2.length = q.1.dims.length ∧ (∀ d ∈ D.domain, d ∈ q.1.dims.map Prod.fst) ∧
    (D.step ∈ q.1.dims.map Prod.fst ↔ q.1.scratch = false) ∧ ∀ x ∈ q.1.dims.zip q.2,
    match x.1.2 with
    | .step => PlainOffset x.1.1 .step dir x.2
    | .domain => PlainOffset x.1.1 .domain 0 x.2
    | _ => ∃ k : ℤ, SmallInt k ∧ x.2 = .const k

/-- A plain equation: the next step is computed, in the direction `dir`, from steps that are not beyond it. -/
def PlainEq (D : CDims) (dir : ℤ) (e : SrcEq π) : Prop :=
  PlainWrite D dir e.lhs ∧ ∀ q ∈ e.rhs, PlainRead D (fun k => e.lhs.1.scratch = false ∧ dir * k > 1) q

end Yask
