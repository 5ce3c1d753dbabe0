import Verif.Var.ScratchModel
import Verif.Spec.AccessSpec
import Verif.Var.AddrLemmas

/-!
# Specification: storage of scratch vars
-/

namespace Yask
open Spec Var

/-- What C31 guarantees for blocks and micro-blocks (a whole number of vectors, or the enclosing size), and stages do not extend beyond the
first and last rank. -/
structure RunCfg.Sized (c : RunCfg) : Prop where
  block : ∀ j < c.nd, (c.dim j).fold ∣ (c.dim j).blockSize ∨ (c.dim j).megaSize ≤ (c.dim j).blockSize
  micro : ∀ j < c.nd, (c.dim j).fold ∣ (c.dim j).microSize ∨ (c.dim j).blockSize ≤ (c.dim j).microSize
  first : ∀ j < c.nd, ∀ st, (c.dim j).firstRank = true → (c.dim j).rankBeg ≤ (c.stageBB st j).1
  last : ∀ j < c.nd, ∀ st, (c.dim j).lastRank = true → (c.stageBB st j).2 ≤ c.rankEnd j

/-- The total shift of the micro-blocks of a block is not more than the size of the domain, in dims that are not divided into blocks. -/
def RunCfg.ShiftsInRank (c : RunCfg) : Prop :=
  ∀ j < c.nd, c.wfAngle j = 0 → c.tbAngle j = 0 → c.mbAngle j * c.numTbShifts ≤ (c.dim j).rankSize

/-- The scratch var `k`, as made for this thread, after its sizes have been set, storage (any) has been given to it, and it has been moved
to the micro-block `mb`. -/
def ScratchAt {V : Type} (c : RunCfg) (wl wr : Nat → Int) (mb : Box) (k k' : KVar V) : Prop :=
  ∃ k1 m, k.setScratch c wl wr = some k1 ∧ KVar.moveTo c mb { k1 with v := { k1.v with mem := m } } = some k'

/-- The element is in the storage of the var. -/
def InStorage {V : Type} (k : KVar V) (idx : List Int) : Prop := ∃ a, k.v.g.addrOf idx = .ok a ∧ 0 ≤ a ∧ a < k.v.g.numReals

/-- A point of an area, as an element of a var: its indices in the domain dims of the var, any valid index in misc dims. -/
structure PointOf {V : Type} (c : RunCfg) (k : KVar V) (area : Nat → Ivl) (idx : List Int) : Prop where
  len : idx.length = k.v.g.dims.length
  dom : ∀ j < c.nd, ∀ p, k.posn j = some p → InIvl (idx.getD p 0) (area j)
  misc : ∀ p d, k.v.g.dims[p]? = some d → d.kind = .misc → d.firstLocal ≤ idx.getD p 0 ∧ idx.getD p 0 ≤ d.lastLocal

/-- The first point of the micro-block is the first point of a vector. -/
def Aligned (c : RunCfg) (mb : Box) : Prop := ∀ j < c.nd, (c.dim j).fold ∣ (mb.getD j (0, 0)).1 - (c.dim j).rankBeg

/-- No temporal blocks, and the areas of stages and the MPI interior begin and end on vectors (so do mega-blocks that do not span the
rank). -/
structure RunCfg.OnVectors (c : RunCfg) : Prop where
  block : c.blockSteps = 0
  mega : ∀ j < c.nd, (c.dim j).fold ∣ (c.dim j).megaSize ∨ (c.dim j).rankSize ≤ (c.dim j).megaSize
  stage : ∀ st, ∀ j < c.nd, (c.dim j).fold ∣ (c.stageBB st j).1 - (c.dim j).rankBeg
  interior : ∀ j < c.nd, (c.dim j).fold ∣ (c.dim j).intBeg - (c.dim j).rankBeg ∧ (c.dim j).fold ∣ (c.dim j).intEnd - (c.dim j).rankBeg

end Yask
