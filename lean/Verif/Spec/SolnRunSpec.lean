import Verif.Compiler.SolnModel
import Verif.Spec.PrepSpec

/-!
# Specification: a kernel that runs a solution
-/

namespace Yask
open Spec Comp Mpi

/-- Points of the whole domain. -/
def InWhole (G : RunCfg) (x : List Int) : Prop :=
  x.length = G.nd ∧ ∀ j < G.nd, InIvl (x.getD j 0) ((G.dim j).rankBeg, (G.dim j).rankBeg + (G.dim j).rankSize)

/-- The kernel configuration `G` runs the stages `L` of solution `U`: same dims, stages and parts; a part is valid where its
conditions hold; and the halos cover all offsets. -/
structure Runs {Val : Type} (G : RunCfg) (U : USoln Val) (L : List (List (List (Fin U.eqs.length)))) : Prop where
  nd : G.nd = U.dims.length
  nst : G.nst = L.length
  nparts : ∀ st < G.nst, G.nparts st = (L.getD st []).length
  dom : ∀ st < G.nst, ∀ p < G.nparts st, ∀ x, x.length = G.nd → (G.dom st p x = true ↔ (∀ j < G.nd, InIvl (x.getD j 0) ((G.dim j).rankBeg, (G.dim j).rankBeg + (G.dim j).rankSize)) ∧
    ∀ e ∈ (L.getD st []).getD p [], U.eqs[e].domIf x = true)
  stepOk : ∀ st < G.nst, ∀ p < G.nparts st, ∀ t, G.stepOk st p t = true ↔ ∀ e ∈ (L.getD st []).getD p [], U.eqs[e].stepIf t = true
  halo : ∀ e ∈ U.eqs, ∀ p ∈ e.rhs, ∀ j < G.nd, -(G.dim j).maxHalo ≤ p.at (U.dims.getD j "") ∧ p.at (U.dims.getD j "") ≤ (G.dim j).maxHalo

/-- The vars of the kernel are as the compiler announces them: `sz v` step slots, the domain dims of the var, at least the halos
and the exchange distance computed by the compiler; the outputs of a stage are what its equations write.  Written vars have all
domain dims. -/
structure Announced {Val : Type} (G : RunCfg) (U : USoln Val) (L : List (List (List (Fin U.eqs.length)))) (vdims : Nat → List String)
    (sz : Nat → Nat) (P : Prep) (shape : Nat → VarShape) (outs : Nat → Int → Slot → Bool) : Prop where
  vars : ∀ e ∈ U.eqs, ∀ p ∈ e.lhs :: e.rhs, p.var < P.nvars
  slots : ∀ v < P.nvars, (P.var v).slots = sz v
  used : ∀ v < P.nvars, ∀ j < G.nd, (shape v).used j = decide (U.dims.getD j "" ∈ vdims v)
  lh : ∀ v < P.nvars, ∀ j < G.nd, ((U.stages L).calcHalos v).size (U.dims.getD j "") true ≤ (shape v).lh j
  rh : ∀ v < P.nvars, ∀ j < G.nd, ((U.stages L).calcHalos v).size (U.dims.getD j "") false ≤ (shape v).rh j
  dist : ∀ v < P.nvars, ((U.stages L).calcHalos v).l1 ≤ (P.var v).maxDist
  outs : ∀ st p e, e ∈ (L.getD st []).getD p [] → ∀ t, outs st t (ptSlot U sz U.eqs[e].lhs t) = true
  full : ∀ e ∈ U.eqs, ∀ n ∈ U.dims, n ∈ vdims e.lhs.var

end Yask
