import Verif.Spec.SolnSpec
import Verif.Compiler.PartsModel
import Verif.Sched.SchedSpec
import Mathlib.Data.List.FinRange

/-!
# Model: from the equations of a solution to the tasks of the kernel

What the parts of a stage evaluate at a point (`Part::calc_*` as printed by `src/compiler/lib/YaskKernel.cpp:616-717`: each equation of
the part, at one point and step), with step indices wrapped to slots (`_wrap_step`, `src/kernel/lib/yk_var.hpp:444-470`).
Equations are identified by their positions in the solution.
-/

namespace Yask
open Spec Comp

variable {Val : Type}

/-- What the analysis sees of the solution: `find_var_slice` is the var with its step offset (no misc dims); conditions are compared
by an arbitrary `key`. `bundle`, `compat` and `clash` as in `EqSys`. -/
structure SolnOpts (n : Nat) (κ : Type) where
  key : Fin n → κ
  clash : Fin n → Fin n → Bool
  compat : Fin n → Fin n → Bool
  bundle : Bool
  user : List (Fin n × Fin n)

/-- The input of the analysis (`Eqs.cpp:364-735`) for a solution without scratch vars and filter. -/
def Spec.USoln.sys {κ : Type} (U : USoln Val) (o : SolnOpts U.eqs.length κ) : EqSys (Fin U.eqs.length) (Nat × Option Int) κ Nat where
  eqs := List.finRange U.eqs.length
  lhs i := (U.eqs[i].lhs.var, U.eqs[i].lhs.step)
  rhs i := U.eqs[i].rhs.map fun p => (p.var, p.step)
  var i := U.eqs[i].lhs.var
  scr _ := false
  lvScr _ := false
  key := o.key
  clash := o.clash
  compat := o.compat
  wanted _ := true
  findDeps := true
  bundle := o.bundle
  user := o.user

/-- Equations in the stages, as input of the halo analysis. -/
def Spec.USoln.stages (U : USoln Val) (L : List (List (List (Fin U.eqs.length)))) : HSys where
  stages := (List.range L.length).map fun i =>
    ⟨i, false, (L.getD i []).map fun part => part.map fun e => ⟨U.eqs[e].lhs, U.eqs[e].rhs⟩⟩
  scrDeps _ := []

/-- The equations of the part that a task evaluates. -/
def partOf {ε : Type} (L : List (List (List ε))) (a : Task) : List ε := (L.getD a.stage []).getD a.part []

/-- The slot that a point is in at step `t`. -/
def ptSlot (U : USoln Val) (sz : Nat → Nat) (p : Pt) (t : Int) : Nat × Nat := stepSlot U sz p.var (stepAt p t)

/-- The task writes the slot: some equation of the part does, and its conditions hold (the kernel evaluates a part only there,
see C10). -/
def Spec.USoln.writes (U : USoln Val) (L : List (List (List (Fin U.eqs.length)))) (sz : Nat → Nat) (a : Task) (β : Nat × Nat) : Prop :=
  ∃ e ∈ partOf L a, β = ptSlot U sz U.eqs[e].lhs a.step ∧ U.eqs[e].domIf a.pt = true ∧ U.eqs[e].stepIf a.step = true

/-- The task reads the slot at a point. -/
def Spec.USoln.reads (U : USoln Val) (L : List (List (List (Fin U.eqs.length)))) (sz : Nat → Nat) (a : Task) (γ : Nat × Nat) (q : List Int) :
    Prop :=
  a.pt.length = U.dims.length ∧ ∃ e ∈ partOf L a, U.eqs[e].domIf a.pt = true ∧ U.eqs[e].stepIf a.step = true ∧
    ∃ p ∈ U.eqs[e].rhs, γ = ptSlot U sz p a.step ∧ q = shiftPt U.dims a.pt p

/-- The value that the task writes, if it writes the slot. -/
def Spec.USoln.value [Inhabited Val] (U : USoln Val) (L : List (List (List (Fin U.eqs.length)))) (sz : Nat → Nat) (a : Task)
    (m : (Nat × Nat) × List Int → Val) (β : Nat × Nat) : Val :=
  match (partOf L a).find? fun e => decide (β = ptSlot U sz U.eqs[e].lhs a.step) with
  | some e =>
    if a.pt.length = U.dims.length ∧ U.eqs[e].domIf a.pt = true ∧ U.eqs[e].stepIf a.step = true then
      U.eqs[e].f a.step a.pt (U.eqs[e].rhs.map fun p => m (ptSlot U sz p a.step, shiftPt U.dims a.pt p))
    else default
  | none => default

end Yask
