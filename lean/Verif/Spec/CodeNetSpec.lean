import Verif.Mpi.CodeNetModel
import Verif.Spec.CodeSolnSpec

/-!
# Specification: storage of the ranks that holds values of the equations

As in `Spec/CodeSolnSpec.lean`, a var of the kernel with misc dims counts as several vars of the equations.
-/

namespace Yask
open Spec Mpi Var Nano Comp Spec.Cpp

/-- Where the vars of the equations are stored on rank `r`. -/
def Mpi.CodeNet.slices (X : CodeNet) (S : Slices) (r : Nat) : Slices := { S with geo := X.geo r, names := X.names }

/-- What `prepare_solution()` sets up, with the vars of the equations instead of those of the kernel. -/
def Mpi.Prep.sliced (P : Prep) (S : Slices) : Prep := { P with nvars := S.nv, var := fun v => P.var (S.var v) }

/-- The ranks run with what `prepare_solution()` has set up: the settings of each rank are those of `X.P`; each var of the kernel holds
vars of the equations; dims of a var are the same on all ranks, with the geometry that the buffers are made for; vars without the step dim
have one slot; and what a part sets is announced. -/
structure Mpi.CodeNet.Fits {V : Type} (X : CodeNet) (U : USoln V) (L : List (List (List (Fin U.eqs.length)))) (S : Slices) (sz : Nat → Nat)
    (shape : Nat → VarShape) : Prop where
  cfg : ∀ r < X.P.n, (X.code r).cfg = X.P.full r
  var : ∀ v < S.nv, S.var v < X.P.nvars
  onto : ∀ k < X.P.nvars, ∃ v < S.nv, S.var v = k
  kinds : ∀ r < X.P.n, ∀ k < X.P.nvars, (X.geo r k).dims.map DimG.kind = (X.geo 0 k).dims.map DimG.kind
  misc : ∀ r < X.P.n, ∀ k < X.P.nvars, ∀ (i : Nat) (d d' : DimG), (X.geo r k).dims[i]? = some d → (X.geo 0 k).dims[i]? = some d' → d.kind = .misc →
    d.firstLocal = d'.firstLocal ∧ d.lastLocal = d'.lastLocal
  dom : ∀ r < X.P.n, ∀ k < X.P.nvars, ∀ (i : Nat) (d : DimG), (X.geo r k).dims[i]? = some d → d.kind = .domain →
    d = ((X.P.var k).rank r).dim (U.dims.idxOf ((X.names k).getD i ""))
  used : ∀ k < X.P.nvars, ∀ j < U.dims.length, (shape k).used j = true ↔
    ∃ (i : Nat) (d : DimG), (X.geo 0 k).dims[i]? = some d ∧ d.kind = .domain ∧ (X.names k).getD i "" = U.dims.getD j ""
  oneSlot : ∀ v < S.nv, U.hasStep v = false → sz v = 1
  outs : ∀ st p e, e ∈ (L.getD st []).getD p [] → ∀ t, X.outs st p t (S.var U.eqs[e].lhs.var, (ptSlot U sz U.eqs[e].lhs t).2) = true

/-- Each rank has storage for the misc indices of the vars of the equations (see C77). -/
def Mpi.CodeNet.MiscStored (X : CodeNet) (S : Slices) : Prop :=
  ∀ r < X.P.n, ∀ v < S.nv, ∀ (i : Nat) (d : DimG), (X.geo r (S.var v)).dims[i]? = some d → d.kind = .misc →
    d.firstLocal ≤ (S.misc v).getD i 0 ∧ (S.misc v).getD i 0 ≤ d.lastLocal

/-- The storage of rank `r` holds the value of `W` for var `v` at step index `s` and point `x`, if there is an element for it. -/
def Holds {V : Type} (X : CodeNet) (U : USoln V) (S : Slices) (W : History V) (c : CState V) (r v : Nat) (s : Int) (x : List Int) : Prop :=
  InRangeButStep (X.geo r (S.var v)).api ((X.slices S r).elem U.dims v s x) →
    readAt (X.geo r (S.var v)) (c.mem r (S.var v)) ((X.slices S r).elem U.dims v s x) = .ok (W v s x)

/-- Every rank holds the values of `W` of the steps that are stored at step `t`, at its own points. -/
def OwnStored {V : Type} (X : CodeNet) (U : USoln V) (S : Slices) (sz : Nat → Nat) (shape : Nat → VarShape) (W : History V) (t : Int)
    (c : CState V) : Prop :=
  ∀ r < X.P.n, ∀ v < S.nv, ∀ s, StoredAt U sz v t s → ∀ x, x.length = U.dims.length → OwnPoint X.P shape r (S.var v) x →
    Holds X U S W c r v s x

/-- Every rank holds the values of `W` of the steps that are stored at step `t`, at the points that it receives from rank `nb`, if the
flag `dirty nb` of the var and slot is not set. -/
def HalosStored {V : Type} (X : CodeNet) (U : USoln V) (S : Slices) (sz : Nat → Nat) (W : History V) (t : Int)
    (dirty : Nat → Slot → Bool) (c : CState V) : Prop :=
  ∀ r < X.P.n, ∀ nb ∈ X.P.nbrs r, ∀ v < S.nv, ∀ s, StoredAt U sz v t s → ∀ x, x.length = U.dims.length →
    X.net.box r nb (S.var v) x = true → dirty nb (S.var v, (stepSlot U sz v s).2) = false → Holds X U S W c r v s x

end Yask
