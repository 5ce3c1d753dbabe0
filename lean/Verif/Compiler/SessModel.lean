import Verif.Compiler.DimsModel
import Verif.Compiler.EqFormModel
import Verif.Compiler.PartsModel
import Verif.Compiler.HaloModel

/-!
# Model: several outputs of one solution

`Solution::output_solution` (`src/compiler/lib/Solution.cpp:204-277`) may be called several times, e.g., for several targets. Parts, stages and
the printer are made anew (`Solution.cpp:206-209`). What else the analysis (`Solution.cpp:127-157`) computes is kept in the solution, its
settings, equations and vars, and is there when it is called again.

Simplifications. The equations are given twice: with their points for the checks (`cs`), and with the attributes that the analysis of
dependences uses (`sys`). Optimizations, which change the expressions of the equations, change neither. Messages, lifespans of scratch
vars (computed from the stages alone, `Eqs.cpp:1906-2031`), the ranges of misc indices, the check of unaligned loads and printing are left out.
-/

namespace Yask.Comp
open Dims

variable {π ε Λ κ ν : Type} [DecidableEq π] [DecidableEq ε] [DecidableEq Λ] [DecidableEq κ] [DecidableEq ν]

/-- What is set for one output: the number of SIMD elements and `is_folding_efficient` of the printer (`Solution.cpp:262-264`), and the
requested fold. -/
structure Target where
  vlen : ℤ
  eff : Bool
  req : String → Option ℤ

/-- What the user has defined. -/
structure CSrc (π ε Λ κ ν : Type) where
  /-- `_step_dim`, `_domain_dims`, `_inner_misc`, `_outer_domain`, `_bundle_scratch` of the settings -/
  step : Option String
  domain : List String
  innerMisc : Bool
  outerDomain : Bool
  bundleScratch : Bool
  vars : List (DVar String)
  cs : List (CEq π)
  sys : EqSys ε Λ κ ν
  /-- `are_dims_same` of the vars on the LHS -/
  sameDims : ε → ε → Bool
  /-- number of the var on the LHS, and the domain dims of a var -/
  varNum : ε → Nat
  domDims : Nat → List String
  /-- the equations in the stages, with their points -/
  hsys : List (List (List ε)) → HSys

/-- What is kept in the solution: `_dims._step_dim`, `_settings._inner_loop_dim`, `_dims._step_dir`, `_logical_vars`, the dependences in
`_eqs`, and the halos in the vars. -/
structure CKept (ε Λ : Type) where
  step : Option String
  inner : InnerOpt String
  dir : ℤ
  lv : DepGroup Λ
  eqs : DepGroup ε
  halos : Nat → HVar

/-- What is used for the output. -/
structure COut (ε : Type) where
  dims : Found String
  inner : String
  fold : List ℤ
  layout : List String
  dir : ℤ
  stages : List (List (List ε))

/-- A solution of which there has been no output; `inner`: the option for the inner-loop dim. -/
def CKept.fresh (s : CSrc π ε Λ κ ν) (inner : InnerOpt String) : Outcome (CKept ε Λ) := do
  let g ← s.sys.userGroup
  .ok ⟨none, inner, 0, {}, g, fun _ => {}⟩

/-- Dims (`Settings.cpp:55-120`): a step dim from the settings replaces that of an earlier output. -/
def CSrc.findDims (s : CSrc π ε Λ κ ν) (kept : Option String) : Outcome (Found String) :=
  Dims.findDims (s.step.or kept) s.domain s.vars

/-- Dependences between logical vars (`Eqs.cpp:587-604`), added to those that are there. -/
def EqSys.lvFrom (S : EqSys ε Λ κ ν) (ord : List Λ → List Λ) (g : DepGroup Λ) : Outcome (DepGroup Λ) := do
  let g ← S.eqs.foldlM (fun (g : DepGroup Λ) e => do
    let g1 ← (S.rhs e).foldlM (fun (g : DepGroup Λ) r => (g.addItem r).setImm S.lvScr (S.lhs e) r)
      (g.addItem (S.lhs e))
    g1.findAll ord) g
  g.topoSort ord

/-- `is_halo_same` (`Var.cpp:200-219`), for vars with the same dims. -/
def haloSame (dims : List String) (a b : HVar) : Bool := dims.all fun d => [false, true].all fun left => decide (a.size d left = b.size d left)

/-- The test whether two scratch equations may be in one part (`Eqs.cpp:1056-1065`), with the halos in the vars. -/
def CSrc.compat (s : CSrc π ε Λ κ ν) (m : Nat → HVar) (e e2 : ε) : Bool :=
  s.sameDims e e2 && (s.bundleScratch || haloSame (s.domDims (s.varNum e)) (m (s.varNum e)) (m (s.varNum e2)))

/-- Phase 1 of `calc_halos` (`Eqs.cpp:1643-1706`), with the halos in the vars. -/
def HSys.phase1From (S : HSys) (m : Nat → HVar) : Nat → HVar :=
  (S.stages.filter fun s => !s.scr).foldl (fun m st =>
    (S.reqd st).foldl (fun m r => r.eqs.foldl (phase1Eq st.id) m) m) m

/-- `calc_halos` (`Eqs.cpp:1614-1903`), with the halos in the vars. -/
def HSys.calcHalosFrom (S : HSys) (m : Nat → HVar) : Nat → HVar :=
  let real := S.phase1From m
  (S.stages.filter fun s => !s.scr).foldl (fun m st => fun v => (m v).updateVar (S.phase2 real st v)) real

/-- Orders in which sets are visited. -/
structure Orders (ε Λ : Type) where
  lv : List Λ → List Λ
  eqs : List ε → List ε
  parts : List Nat → List Nat
  stages : List Nat → List Nat

/-- `analyze_solution` (`Solution.cpp:127-157`; `set_dims`, `Settings.cpp:47-321`; `analyze_eqs`, `Eqs.cpp:364-735`; `make_parts`, `make_stages`,
`calc_halos`). If it throws, what is then kept is not modelled. -/
def CSrc.output (s : CSrc π ε Λ κ ν) (o : Orders ε Λ) (t : Target) (k : CKept ε Λ) : Outcome (COut ε × CKept ε Λ) := do
  let f ← s.findDims k.step
  let inner := innerDim f.domain k.inner
  let fold ← setFold f.domain t.req inner t.vlen t.eff
  let step := f.step.getD ""
  let D : CDims := ⟨step, f.domain, ((f.domain.zip fold).filter fun e => decide (e.2 > 1)).map Prod.fst⟩
  let d ← s.cs.foldlM (checkEq D) k.dir
  let lv ← s.sys.lvFrom o.lv k.lv
  let g ← s.sys.eqGroup lv k.eqs o.eqs
  let dir := if d = 0 then 1 else d
  let S := { s.sys with compat := s.compat k.halos }
  let P ← S.makeParts g o.parts
  let Q ← S.makeStages P o.stages
  let L := Q.g.all.map fun st => (Q.items st).map P.items
  .ok (⟨f, inner, fold, layoutDims s.innerMisc s.outerDomain (prodVals fold) step f.domain f.misc, dir, L⟩,
    ⟨f.step, .name inner, dir, lv, g, (s.hsys L).calcHalosFrom k.halos⟩)

/-- The solution after outputs for the targets, all of which have succeeded. Parts and stages are new objects each time, so sets of them may be
visited in another order. -/
inductive CSrc.After (s : CSrc π ε Λ κ ν) (o : Orders ε Λ) (k0 : CKept ε Λ) : List Target → CKept ε Λ → Prop
  | none : s.After o k0 [] k0
  | output {ts : List Target} {k k' : CKept ε Λ} {t : Target} {ps ss : List Nat → List Nat} {r : COut ε} : s.After o k0 ts k →
    s.output { o with parts := ps, stages := ss } t k = .ok (r, k') → s.After o k0 (ts ++ [t]) k'

/-- The equations that have been defined since the last output are added to the group (`Expr.cpp:60-88`, `Eqs.hpp:344-346`). -/
def CSrc.more (s : CSrc π ε Λ κ ν) (k : CKept ε Λ) : CKept ε Λ := { k with eqs := s.sys.eqs.foldl DepGroup.addItem k.eqs }

end Yask.Comp
