import Verif.Compiler.ScrLinkModel
import Verif.Spec.PrepSpec

/-!
# Specification: ranks set up for a solution with scratch vars
-/

namespace Yask
open Spec Comp Mpi

/-- Each rank `r` of the prepared solution `R` has the scratch parts that the compiler made, in `C r`: as `SetUp`; scratch part `k` is valid
in some points where its conditions hold, including all that are in the extended domain of the rank extended by its write halo
(`src/kernel/lib/setup.cpp:1096-1109`). -/
structure SetUpRanks {Val κ : Type} (G : RunCfg) (R : Prep) (C : Nat → ScrCfg) (X : XSoln Val) (P : Lots X.Idx κ) (Q : Lots Nat Unit) : Prop where
  children : ∀ r < R.n, (C r).children = kernelChildren P Q
  empty : ∀ r < R.n, ∀ st p, (C r).empty st p = true → ∀ x, (R.cfg r).dom st p x = false
  sdom : ∀ r < R.n, ∀ k y, (C r).sdom k y = true → ∀ e ∈ (kernelScr P Q).getD k [], (X.eqn e).domIf y = true
  sbox : ∀ r < R.n, ∀ k y, (∀ j < G.nd, InIvl (y.getD j 0) ((R.cfg r).extBeg j - (C r).wl k j, (R.cfg r).extEnd j + (C r).wr k j)) →
    (∀ e ∈ (kernelScr P Q).getD k [], (X.eqn e).domIf y = true) → (C r).sdom k y = true
  sstep : ∀ r < R.n, ∀ k t, (C r).sstep k t = true ↔ ∀ e ∈ (kernelScr P Q).getD k [], (X.eqn e).stepIf t = true
  wl : ∀ r < R.n, ∀ k j, (C r).wl k j = writeHalo (X.hsys P Q).calcHalos (((kernelScr P Q).getD k []).map X.hpeq) (X.dims.getD j "") true
  wr : ∀ r < R.n, ∀ k j, (C r).wr k j = writeHalo (X.hsys P Q).calcHalos (((kernelScr P Q).getD k []).map X.hpeq) (X.dims.getD j "") false

/-- As `Announced`, for the vars that are not scratch vars. -/
structure XAnnounced {Val κ : Type} (G : RunCfg) (X : XSoln Val) (P : Lots X.Idx κ) (Q : Lots Nat Unit) (vdims : Nat → List String)
    (sz : Nat → Nat) (R : Prep) (shape : Nat → VarShape) (outs : Nat → Int → Slot → Bool) : Prop where
  vars : ∀ e ∈ X.eqs ++ X.scr, ∀ p ∈ e.lhs :: e.rhs, X.isScr p.var = false → p.var < R.nvars
  slots : ∀ v < R.nvars, (R.var v).slots = sz v
  used : ∀ v < R.nvars, ∀ j < G.nd, (shape v).used j = decide (X.dims.getD j "" ∈ vdims v)
  lh : ∀ v < R.nvars, ∀ j < G.nd, ((X.hsys P Q).calcHalos v).size (X.dims.getD j "") true ≤ (shape v).lh j
  rh : ∀ v < R.nvars, ∀ j < G.nd, ((X.hsys P Q).calcHalos v).size (X.dims.getD j "") false ≤ (shape v).rh j
  dist : ∀ v < R.nvars, ((X.hsys P Q).calcHalos v).l1 ≤ (R.var v).maxDist
  outs : ∀ st p e, .inl e ∈ ((kernelStages P Q).getD st []).getD p [] → ∀ t, outs st t (ptSlot X.toUSoln sz X.eqs[e].lhs t) = true
  full : ∀ e ∈ X.eqs, ∀ n ∈ X.dims, n ∈ vdims e.lhs.var

/-- What is read directly or through scratch vars lies on one side in all dims, or is away in no more dims than vars are exchanged
(otherwise see `C56_corner_wrong`). -/
def Reached {Val : Type} (X : XSoln Val) (R : Prep) : Prop :=
  ∀ e ∈ X.eqs, ∀ p, X.Leads e p → X.isScr p.var = false →
    (∀ n, p.at n ≤ 0) ∨ (∀ n, 0 ≤ p.at n) ∨ (rankDist X.dims p.at : Int) ≤ (R.var p.var).maxDist

end Yask
