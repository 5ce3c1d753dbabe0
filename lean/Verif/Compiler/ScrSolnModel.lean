import Verif.Spec.ScrSolnSpec
import Verif.Compiler.SolnModel
import Verif.Sched.ScratchRun

/-!
# Model: from equations with scratch vars to the tasks of the kernel

As `SolnModel`; scratch parts evaluate the equations of scratch vars at one point and step (`src/compiler/lib/YaskKernel.cpp:616-717`,
`src/compiler/lib/Cpp.cpp` for reads and writes), parts read scratch vars of the thread.
-/

namespace Yask
open Spec Comp

namespace Spec.XSoln
variable {Val : Type} [Inhabited Val] (X : XSoln Val)

/-- The value at a point, from the memory of the vars and of the scratch vars. -/
def load (sz : Nat → Nat) (t : Int) (x : List Int) (m : (Nat × Nat) × List Int → Val) (f : Nat × List Int → Val) (p : Pt) : Val :=
  if X.isScr p.var then f (p.var, shiftPt X.dims x p) else m (ptSlot X.toUSoln sz p t, shiftPt X.dims x p)

/-- The part that a task evaluates, as in `USoln.writes` and `USoln.value`, and scratch part `k`, a list of scratch equations in `K`. -/
def kernel (L : List (List (List (Fin X.eqs.length)))) (K : List (List (Fin X.scr.length))) (sz : Nat → Nat) (C : ScrCfg) :
    Scr (Nat × Nat) Nat Val where
  toScrCfg := C
  outs k v := ∃ e ∈ K.getD k [], X.scr[e].lhs.var = v
  sreadsB k t y v β q := y.length = X.dims.length ∧ ∃ e ∈ K.getD k [], X.scr[e].lhs.var = v ∧ ∃ p ∈ X.scr[e].rhs, X.isScr p.var = false ∧
    β = ptSlot X.toUSoln sz p t ∧ q = shiftPt X.dims y p
  sreadsS k _ y v w q := y.length = X.dims.length ∧ ∃ e ∈ K.getD k [], X.scr[e].lhs.var = v ∧ ∃ p ∈ X.scr[e].rhs, X.isScr p.var = true ∧ w = p.var ∧
    q = shiftPt X.dims y p
  sval k t y m f v := match (K.getD k []).find? fun e => decide (X.scr[e].lhs.var = v) with
    | some e => if y.length = X.dims.length then X.scr[e].f t y (X.scr[e].rhs.map (X.load sz t y m f)) else default
    | none => default
  sval_local := by
    intro k t y m m' f f' v h1 h2
    cases hf : (K.getD k []).find? fun e => decide (X.scr[e].lhs.var = v) with
    | none => rfl
    | some e =>
      simp only
      split_ifs with hy
      · congr 1
        refine List.map_congr_left fun p hp => ?_
        have he := List.mem_of_find?_eq_some hf
        unfold load
        split
        · next hs => exact h2 _ _ ⟨hy, e, he, by simpa using List.find?_some hf, p, hp, hs, rfl, rfl⟩
        · next hs => exact h1 _ _ ⟨hy, e, he, by simpa using List.find?_some hf, p, hp, by simpa using hs, rfl, rfl⟩
      · rfl
  writes := X.writes L sz
  readsB a γ q := a.pt.length = X.dims.length ∧ ∃ e ∈ partOf L a, X.eqs[e].domIf a.pt = true ∧ X.eqs[e].stepIf a.step = true ∧
    ∃ p ∈ X.eqs[e].rhs, X.isScr p.var = false ∧ γ = ptSlot X.toUSoln sz p a.step ∧ q = shiftPt X.dims a.pt p
  readsS a v q := a.pt.length = X.dims.length ∧ ∃ e ∈ partOf L a, X.eqs[e].domIf a.pt = true ∧ X.eqs[e].stepIf a.step = true ∧
    ∃ p ∈ X.eqs[e].rhs, X.isScr p.var = true ∧ v = p.var ∧ q = shiftPt X.dims a.pt p
  value a m f β := match (partOf L a).find? fun e => decide (β = ptSlot X.toUSoln sz X.eqs[e].lhs a.step) with
    | some e =>
      if a.pt.length = X.dims.length ∧ X.eqs[e].domIf a.pt = true ∧ X.eqs[e].stepIf a.step = true then
        X.eqs[e].f a.step a.pt (X.eqs[e].rhs.map (X.load sz a.step a.pt m f))
      else default
    | none => default

end Spec.XSoln

/-- The kernel configuration `G` with scratch parts `C` runs the stages `L` and scratch parts `K` of solution `X`: as `Runs`; scratch part `k`
is valid where its conditions hold, in the domain of the rank extended by its write halo; its write halo covers all scratch values that the
equations use, and the halos cover all that is read directly or through scratch vars. -/
structure XRuns {Val : Type} (G : RunCfg) (C : ScrCfg) (X : XSoln Val) (L : List (List (List (Fin X.eqs.length))))
    (K : List (List (Fin X.scr.length))) : Prop where
  nd : G.nd = X.dims.length
  nst : G.nst = L.length
  nparts : ∀ st < G.nst, G.nparts st = (L.getD st []).length
  dom : ∀ st p x, G.dom st p x = true ↔ (∀ j < G.nd, InIvl (x.getD j 0) ((G.dim j).rankBeg, (G.dim j).rankBeg + (G.dim j).rankSize)) ∧
    ∀ e ∈ (L.getD st []).getD p [], X.eqs[e].domIf x = true
  stepOk : ∀ st p t, G.stepOk st p t = true ↔ ∀ e ∈ (L.getD st []).getD p [], X.eqs[e].stepIf t = true
  empty : ∀ st p, C.empty st p = true → ∀ x, G.dom st p x = false
  sdom : ∀ k y, C.sdom k y = true → ∀ e ∈ K.getD k [], X.scr[e].domIf y = true
  sbox : ∀ k y, (∀ j < G.nd, InIvl (y.getD j 0) ((G.dim j).rankBeg - C.wl k j, (G.dim j).rankBeg + (G.dim j).rankSize + C.wr k j)) →
    (∀ e ∈ K.getD k [], X.scr[e].domIf y = true) → C.sdom k y = true
  sstep : ∀ k t, C.sstep k t = true ↔ ∀ e ∈ K.getD k [], X.scr[e].stepIf t = true
  width : ∀ e ∈ X.eqs, ∀ p, X.Leads e p → ∀ k e', e' ∈ K.getD k [] → X.scr[e'].lhs.var = p.var → ∀ j < G.nd,
    -(C.wl k j) ≤ p.at (X.dims.getD j "") ∧ p.at (X.dims.getD j "") ≤ C.wr k j
  halo : ∀ e ∈ X.eqs, ∀ p, X.Leads e p → X.isScr p.var = false → ∀ j < G.nd,
    -(G.dim j).maxHalo ≤ p.at (X.dims.getD j "") ∧ p.at (X.dims.getD j "") ≤ (G.dim j).maxHalo

end Yask
