import Verif.Spec.SrcSpec
import Verif.Spec.CodeNetSpec
import Verif.Compiler.MiscModel

/-!
# Specification: storage of the ranks that holds values of the equations of the source

Elements are those that the source accesses, with the indices in the order of the dims of the var. `kv` gives the number of a var in the
kernel.
-/

namespace Yask
open Spec Mpi Var Comp

variable {π V : Type}

/-- The element with indices `a` of the var of the access `q` is the one at step `s` and point `x` of the domain; in other dims, its
indices are those of the access. -/
def Spec.ElemIs (D : CDims) (q : EqVar × List (NExpr π)) (s : ℤ) (x a : List ℤ) : Prop :=
  a.length = q.1.dims.length ∧ ∀ (i : Nat) (d : String) (ty : IndexType), q.1.dims[i]? = some (d, ty) →
    (ty = .step → a[i]? = some s) ∧ (ty = .domain → a[i]? = some (x.getD (D.domain.idxOf d) 0)) ∧
    (ty ≠ .step → ty ≠ .domain → ∃ (e : NExpr π) (k : ℤ), q.2[i]? = some e ∧ Denotes e (fun _ => k) ∧ a[i]? = some k)

/-- An access in one of the equations. -/
def Spec.Access (es : List (SEq π V)) (q : EqVar × List (NExpr π)) : Prop := ∃ e ∈ es, q ∈ e.src.lhs :: e.src.rhs

/-- Step index `s` of var `v` is stored when step `t` has been reached. -/
def Spec.StepStored (D : CDims) (dir : ℤ) (sz : EqVar → Nat) (v : EqVar) (t s : ℤ) : Prop :=
  (D.step, .step) ∈ v.dims → ∃ j : Nat, j < sz v ∧ s = t - dir * j

/-- The storage of rank `r` holds the value of `W` for the element of access `q` at step index `s` and point `x`, if it is there. -/
def SrcHolds (X : CodeNet) (kv : EqVar → Nat) (D : CDims) (W : SrcHistory V) (c : CState V) (r : Nat) (q : EqVar × List (NExpr π)) (s : ℤ)
    (x : List ℤ) : Prop :=
  ∀ a, ElemIs D q s x a → InRangeButStep (X.geo r (kv q.1)).api a → readAt (X.geo r (kv q.1)) (c.mem r (kv q.1)) a = .ok (W q.1 a)

/-- Every rank holds the values of `W` of the steps that are stored at step `t`, at its own points. -/
def SrcOwn (X : CodeNet) (kv : EqVar → Nat) (D : CDims) (dir : ℤ) (es : List (SEq π V)) (sz : EqVar → Nat) (shape : Nat → VarShape)
    (W : SrcHistory V) (t : ℤ) (c : CState V) : Prop :=
  ∀ r < X.P.n, ∀ q, Access es q → ∀ s, StepStored D dir sz q.1 t s → ∀ x, x.length = D.domain.length → OwnPoint X.P shape r (kv q.1) x →
    SrcHolds X kv D W c r q s x

/-- Every rank holds the values of `W` of the steps that are stored at step `t`, at the points that it receives from rank `nb`, if the
flag `dirty nb` of the var and slot is not set. -/
def SrcHalos (X : CodeNet) (kv : EqVar → Nat) (D : CDims) (dir : ℤ) (es : List (SEq π V)) (sz : EqVar → Nat) (W : SrcHistory V) (t : ℤ)
    (dirty : Nat → Slot → Bool) (c : CState V) : Prop :=
  ∀ r < X.P.n, ∀ nb ∈ X.P.nbrs r, ∀ q, Access es q → ∀ s, StepStored D dir sz q.1 t s → ∀ x, x.length = D.domain.length →
    X.net.box r nb (kv q.1) x = true →
    dirty nb (kv q.1, if (D.step, .step) ∈ q.1.dims then (s % (sz q.1 : ℤ)).toNat else 0) = false → SrcHolds X kv D W c r q s x

end Yask
