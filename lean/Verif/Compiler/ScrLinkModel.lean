import Verif.Compiler.ScrSolnModel
import Verif.Compiler.PartsModel

/-!
# Model: stages, parts and scratch parts as passed to the kernel

The end of the kernel generator (`src/compiler/lib/YaskKernel.cpp:1010-1058`): the non-scratch stages with their parts, and for each of these
parts the scratch parts that it requires.  Parts and stages are identified by numbers, as in `PartsModel`.
-/

namespace Yask
open Spec Comp

section
variable {ε Λ κ ν : Type} [DecidableEq ε] [DecidableEq Λ] [DecidableEq κ] [DecidableEq ν]

/-- Analysis of the equations, parts and stages (`src/compiler/lib/Solution.cpp:142-152`): the parts and the stages. -/
def Comp.EqSys.compileAll (S : EqSys ε Λ κ ν) (ordL : List Λ → List Λ) (ordE : List ε → List ε) (ordP ordS : List Nat → List Nat) :
    Outcome (Lots ε κ × Lots Nat Unit) := do
  let E ← S.analyze ordL ordE
  let P ← S.makeParts E ordP
  let Q ← S.makeStages P ordS
  .ok (P, Q)
end

section
variable {ε κ : Type} (P : Lots ε κ) (Q : Lots Nat Unit)

/-- The non-scratch stages, in order (`YaskKernel.cpp:1012-1024`). -/
def mainIds : List Nat := Q.g.all.filter fun s => !Q.scr s

/-- The equations of the parts of the non-scratch stages (`YaskKernel.cpp:1026-1033`). -/
def kernelStages : List (List (List ε)) := (mainIds Q).map fun s => (Q.items s).map P.items

/-- The scratch parts: for each scratch stage in order, its parts in the order of all parts (`YaskKernel.cpp:1037-1050`). -/
def scrIds : List Nat := (Q.g.all.filter Q.scr).flatMap fun s => P.g.all.filter fun p => decide (p ∈ Q.items s)

/-- The equations of the scratch parts. -/
def kernelScr : List (List ε) := (scrIds P Q).map P.items

/-- The scratch parts that part `p` of stage `i` requires, in the order of the calls of `add_scratch_child`, as positions in `scrIds`
(`YaskKernel.cpp:1045-1054`). -/
def kernelChildren (i p : Nat) : List Nat :=
  (List.range (scrIds P Q).length).filter fun k =>
    P.g.scr.isDepOn ((Q.items ((mainIds Q).getD i 0)).getD p 0) ((scrIds P Q).getD k 0)

end

namespace Spec.XSoln
variable {Val : Type} (X : XSoln Val)

/-- Equations are identified by their positions among those of scratch vars and those of other vars. -/
abbrev Idx : Type := Fin X.eqs.length ⊕ Fin X.scr.length

/-- The equation. -/
def eqn : X.Idx → UEq Val
  | .inl e => X.eqs[e]
  | .inr e => X.scr[e]

/-- What the analysis sees of the equations, as in `SolnOpts`; `order`: the order of their definition. -/
structure Opts (κ : Type) where
  order : List X.Idx
  key : X.Idx → κ
  clash : X.Idx → X.Idx → Bool
  compat : X.Idx → X.Idx → Bool
  bundle : Bool
  user : List (X.Idx × X.Idx)

/-- The input of the analysis (`Eqs.cpp:364-735`) for a solution without filter. -/
def sys {κ : Type} (o : X.Opts κ) : EqSys X.Idx (Nat × Option Int) κ Nat where
  eqs := o.order
  lhs i := ((X.eqn i).lhs.var, (X.eqn i).lhs.step)
  rhs i := (X.eqn i).rhs.map fun p => (p.var, p.step)
  var i := (X.eqn i).lhs.var
  scr i := X.isScr (X.eqn i).lhs.var
  lvScr l := X.isScr l.1
  key := o.key
  clash := o.clash
  compat := o.compat
  wanted _ := true
  findDeps := true
  bundle := o.bundle
  user := o.user

variable {κ : Type} (P : Lots X.Idx κ) (Q : Lots Nat Unit)

/-- The stages of the kernel. -/
def mainL : List (List (List (Fin X.eqs.length))) := (kernelStages P Q).map fun st => st.map fun part => part.filterMap Sum.getLeft?

/-- The scratch parts of the kernel. -/
def scrK : List (List (Fin X.scr.length)) := (kernelScr P Q).map fun part => part.filterMap Sum.getRight?

/-- The equation as the halo analysis sees it. -/
def hpeq (i : X.Idx) : PEq := ⟨(X.eqn i).lhs, (X.eqn i).rhs⟩

/-- The input of the halo analysis (`Eqs.cpp:1614-1903`). -/
def hsys : HSys where
  stages := Q.g.all.map fun s => ⟨s, Q.scr s, (Q.items s).map fun p => (P.items p).map X.hpeq⟩
  scrDeps s := Q.g.all.filter fun r => Q.g.scr.isDepOn s r

end Spec.XSoln

/-- The kernel configuration `G` with scratch parts `C` is set up for the parts `P` and stages `Q` of solution `X`: as `Runs`; scratch part `k` is
valid in some points where its conditions hold, including all that are in the domain of the rank extended by its write halo; its write
halo is the largest halo of the scratch vars it updates (`find_scratch_write_halos`, `src/kernel/lib/setup.cpp:1184-1228`); `maxHalo` is at
least the halo of each var that is read (`src/kernel/lib/setup.cpp:676-712`). -/
structure SetUp {Val κ : Type} (G : RunCfg) (C : ScrCfg) (X : XSoln Val) (P : Lots X.Idx κ) (Q : Lots Nat Unit) : Prop where
  nd : G.nd = X.dims.length
  nst : G.nst = (kernelStages P Q).length
  nparts : ∀ st < G.nst, G.nparts st = ((kernelStages P Q).getD st []).length
  dom : ∀ st p x, G.dom st p x = true ↔ (∀ j < G.nd, InIvl (x.getD j 0) ((G.dim j).rankBeg, (G.dim j).rankBeg + (G.dim j).rankSize)) ∧
    ∀ e ∈ ((kernelStages P Q).getD st []).getD p [], (X.eqn e).domIf x = true
  stepOk : ∀ st p t, G.stepOk st p t = true ↔ ∀ e ∈ ((kernelStages P Q).getD st []).getD p [], (X.eqn e).stepIf t = true
  children : C.children = kernelChildren P Q
  empty : ∀ st p, C.empty st p = true → ∀ x, G.dom st p x = false
  sdom : ∀ k y, C.sdom k y = true → ∀ e ∈ (kernelScr P Q).getD k [], (X.eqn e).domIf y = true
  sbox : ∀ k y, (∀ j < G.nd, InIvl (y.getD j 0) ((G.dim j).rankBeg - C.wl k j, (G.dim j).rankBeg + (G.dim j).rankSize + C.wr k j)) →
    (∀ e ∈ (kernelScr P Q).getD k [], (X.eqn e).domIf y = true) → C.sdom k y = true
  sstep : ∀ k t, C.sstep k t = true ↔ ∀ e ∈ (kernelScr P Q).getD k [], (X.eqn e).stepIf t = true
  wl : ∀ k j, C.wl k j = writeHalo (X.hsys P Q).calcHalos (((kernelScr P Q).getD k []).map X.hpeq) (X.dims.getD j "") true
  wr : ∀ k j, C.wr k j = writeHalo (X.hsys P Q).calcHalos (((kernelScr P Q).getD k []).map X.hpeq) (X.dims.getD j "") false
  halo : ∀ e ∈ X.eqs ++ X.scr, ∀ p ∈ e.rhs, X.isScr p.var = false → ∀ j < G.nd, ∀ left,
    ((X.hsys P Q).calcHalos p.var).size (X.dims.getD j "") left ≤ (G.dim j).maxHalo

end Yask
