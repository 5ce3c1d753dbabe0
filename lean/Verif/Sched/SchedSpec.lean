import Verif.Sched.SchedModel

/-!
# What the tiling is supposed to do

Definitions used in the statements of C01-C05, C08 and C09: when one evaluation must come before another,
which evaluations a call must perform, and which configurations are legal.
-/

namespace Yask
open Spec

/-- `a` comes before `b` in the semantics of the stencil: at an earlier step (in the direction of the
run), or at the same step in an earlier stage. -/
def Task.Before (dir : Int) (a b : Task) : Prop :=
  dir * a.step < dir * b.step ∨ (a.step = b.step ∧ a.stage < b.stage)

/-- Points that are within the halo distance of each other in every dimension. -/
def Near (nd : Nat) (halo : Nat → Int) (p q : List Int) : Prop :=
  ∀ j < nd, p.getD j 0 - q.getD j 0 ≤ halo j ∧ q.getD j 0 - p.getD j 0 ≤ halo j

namespace RunCfg

variable (c : RunCfg)

/-- `a` must be evaluated before `b`: it comes before `b` in the semantics, and the two points are close
enough for one of the evaluations to touch data that the other one writes. -/
def MustPrecede (dir : Int) (a b : Task) : Prop :=
  a.Before dir b ∧ Near c.nd (fun j => (c.dim j).maxHalo) a.pt b.pt

/-- The first index at which dimension `j` is evaluated when `s` (step, stage) pairs of a wave-front have
been done before: the start of the rank, or of its extension, which shrinks by the angle for each pair. -/
def evalBeg (j : Nat) (s : Int) : Int :=
  (c.dim j).rankBeg - (if c.leftExt j ≠ 0 then c.leftExt j - c.wfAngle j * s else 0)

/-- One past the last such index. -/
def evalEnd (j : Nat) (s : Int) : Int :=
  (c.dim j).rankBeg + (c.dim j).rankSize +
    (if c.rightExt j ≠ 0 then c.rightExt j - c.wfAngle j * s else 0)

/-- The evaluations that one wave-front of `nt` steps from `t0` must perform: every part at every step and
every point where it is valid, in the rank and the not yet consumed part of its extensions. -/
def Required (dir t0 : Int) (nt : Nat) (a : Task) : Prop :=
  ∃ i < nt, a.step = t0 + dir * i ∧ a.stage < c.nst ∧ a.part < c.nparts a.stage ∧
    c.stepOk a.stage a.part a.step = true ∧ c.dom a.stage a.part a.pt = true ∧ a.pt.length = c.nd ∧
    ∀ j < c.nd, c.evalBeg j (i * c.nst + a.stage) ≤ a.pt.getD j 0 ∧
      a.pt.getD j 0 < c.evalEnd j (i * c.nst + a.stage)

/-- A legal configuration: positive sizes, nonnegative halos and step counts, blocks of at least a fold
unless a block is the whole mega-block (`adjust_settings` makes them so, see `C31_legal`), parts valid only inside the bounding box of their stage and of the
extended rank (`find_bounding_boxes`), and an MPI exterior only where there are several ranks. -/
structure Ok : Prop where
  nd_le : c.nd ≤ 8
  fold_pos : ∀ j < c.nd, 0 < (c.dim j).fold
  halo_nonneg : ∀ j < c.nd, 0 ≤ (c.dim j).maxHalo
  rank_pos : ∀ j < c.nd, 0 < (c.dim j).rankSize
  mega_pos : ∀ j < c.nd, 0 < (c.dim j).megaSize
  block_pos : ∀ j < c.nd, 0 < (c.dim j).blockSize
  block_ge : ∀ j < c.nd, (c.dim j).blockSize < (c.dim j).megaSize → (c.dim j).fold ≤ (c.dim j).blockSize
  micro_pos : ∀ j < c.nd, 0 < (c.dim j).microSize
  mega_steps : 0 ≤ c.megaSteps
  block_steps : 0 ≤ c.blockSteps
  dom_bb : ∀ st p x, c.dom st p x = true → ∀ j < c.nd, InIvl (x.getD j 0) (c.stageBB st j)
  dom_ext : ∀ st p x, c.dom st p x = true → ∀ j < c.nd,
    InIvl (x.getD j 0) (c.extBeg j, c.extEnd j)
  ext_ranks : ∀ j < c.nd, ∀ left, c.exteriorExists j left = true → 1 < (c.dim j).nranks

/-- With temporal blocking, no dimension has a single mega-block whose last block is a remainder too short
for the number of steps of a block. -/
def NoShortRemainder : Prop :=
  ∀ j < c.nd, (c.dim j).megaSize < (c.dim j).rankSize ∨ 1 < (c.dim j).nranks ∨
    (c.dim j).megaSize ≤ (c.dim j).blockSize ∨
    (let rem := (c.dim j).rankSize % roundUp (c.dim j).blockSize (c.dim j).fold
     rem = 0 ∨ 2 * (c.tbAngle j * c.numTbShifts) ≤ rem)

end RunCfg
end Yask

namespace Yask
open Spec

/-- Step `s` is one of the steps requested by `run_solution(first, last)`. -/
def InSteps (first last s : Int) : Prop := (first ≤ s ∧ s ≤ last) ∨ (last ≤ s ∧ s ≤ first)

/-- An arbitrary stencil on top of a tiling configuration.  The memory is a set of buffers (a buffer is one
step slot of one variable) of values at points.  An evaluation writes its own point in some buffers, the
values depend on buffer elements whose points are within the halo of its own point, and evaluations of
the same step and stage neither write the same element nor read what another one writes. -/
structure Stencil (c : RunCfg) (Buf Val : Type*) where
  writes : Task → Buf → Prop
  reads : Task → Buf → List Int → Prop
  value : Task → (Buf × List Int → Val) → Buf → Val
  reads_near : ∀ a β q, reads a β q → Near c.nd (fun j => (c.dim j).maxHalo) q a.pt
  value_local : ∀ a m m' β, (∀ γ q, reads a γ q → m (γ, q) = m' (γ, q)) → value a m β = value a m' β
  indep : ∀ a b, a ≠ b → a.step = b.step → a.stage = b.stage → ∀ β, writes a β →
    ¬ reads b β a.pt ∧ ¬ (writes b β ∧ a.pt = b.pt)

open Classical in
/-- The effect of evaluations on the memory. -/
noncomputable def Stencil.sem {c : RunCfg} {Buf Val : Type*} (S : Stencil c Buf Val) :
    ActionSem Task (Buf × List Int) Val where
  run a m l := if S.writes a l.1 ∧ l.2 = a.pt then S.value a m l.1 else m l
  reads a l := S.reads a l.1 l.2
  writes a l := S.writes a l.1 ∧ l.2 = a.pt
  frame a m l h := if_neg h
  local_ a m m' l h h2 := by
    rw [if_pos h, if_pos h]
    exact S.value_local a m m' l.1 (fun γ q hr => h2 (γ, q) hr)

namespace RunCfg

/-- The rank is the only one in every dimension. -/
def SingleRank (c : RunCfg) : Prop :=
  ∀ j < c.nd, (c.dim j).firstRank = true ∧ (c.dim j).lastRank = true

end RunCfg
end Yask
