import Verif.Mpi.NetModel

/-!
# Specification: a run on several ranks

`G` describes the stencil on the overall domain as if there were one rank; `G.runRef` is the reference evaluation of it (every
step, every stage, every part, every point of the overall domain).  `own r v p` says that point `p` of var `v` belongs to rank `r`.
-/

namespace Yask
open Spec Mpi

/-- The ranks divide the overall domain: they run the same stages, parts and steps with the same number of steps per wave-front
as `G`; a rank that has no neighbour before (behind) it starts (ends) where the overall domain does; and a part is valid at a
point of a rank or of its extension if it is valid there in the overall domain.  Each rank has a legal configuration, and no
temporal block of it is too short (see C05). -/
structure Divided (G : RunCfg) (N : Net) : Prop where
  ok : ∀ r < N.n, (N.cfg r).Ok
  rem : ∀ r < N.n, (N.cfg r).tbSteps = 0 ∨ (N.cfg r).NoShortRemainder
  nd : ∀ r < N.n, (N.cfg r).nd = G.nd
  nst : ∀ r < N.n, (N.cfg r).nst = G.nst
  nparts : ∀ r < N.n, (N.cfg r).nparts = G.nparts
  stepOk : ∀ r < N.n, (N.cfg r).stepOk = G.stepOk
  steps : ∀ r < N.n, (N.cfg r).wfSteps = G.wfSteps
  halo : ∀ r < N.n, ∀ j < G.nd, ((N.cfg r).dim j).maxHalo = (G.dim j).maxHalo
  ranks : ∀ r < N.n, ∀ j < G.nd, ((N.cfg r).dim j).firstRank = false ∨ ((N.cfg r).dim j).lastRank = false →
    1 < ((N.cfg r).dim j).nranks
  first : ∀ r < N.n, ∀ j < G.nd, ((N.cfg r).dim j).firstRank = true → ((N.cfg r).dim j).rankBeg = (G.dim j).rankBeg
  last : ∀ r < N.n, ∀ j < G.nd, ((N.cfg r).dim j).lastRank = true →
    ((N.cfg r).dim j).rankBeg + ((N.cfg r).dim j).rankSize = (G.dim j).rankBeg + (G.dim j).rankSize
  inside : ∀ st p x, G.dom st p x = true → ∀ j < G.nd,
    InIvl (x.getD j 0) ((G.dim j).rankBeg, (G.dim j).rankBeg + (G.dim j).rankSize)
  dom : ∀ r < N.n, ∀ st p x, (N.cfg r).dom st p x = true ↔ G.dom st p x = true ∧
    ∀ j < G.nd, InIvl (x.getD j 0) ((N.cfg r).extBeg j, (N.cfg r).extEnd j)

/-- Point `x` is in the domain of rank `r`. -/
def RankHas (G : RunCfg) (N : Net) (r : Nat) (x : List Int) : Prop :=
  ∀ j < G.nd, ((N.cfg r).dim j).rankBeg ≤ x.getD j 0 ∧ x.getD j 0 < ((N.cfg r).dim j).rankBeg + ((N.cfg r).dim j).rankSize

/-- Point `x` is in the domain of rank `r` or its extension for wave-fronts. -/
def RankExtHas (G : RunCfg) (N : Net) (r : Nat) (x : List Int) : Prop :=
  ∀ j < G.nd, (N.cfg r).extBeg j ≤ x.getD j 0 ∧ x.getD j 0 < (N.cfg r).extEnd j

/-- Rank `me` receives slot `β` at point `x` from rank `nb`. -/
def Gets (N : Net) (me nb : Nat) (β : Slot) (x : List Int) : Prop :=
  nb ∈ N.nbrs me ∧ N.box me nb β.1 x = true ∧ β.1 < N.nvars ∧ β.2 < N.nslots β.1

/-- The regions exchanged fit the stencil: what is received belongs to its sender, which does not compute it after packing; if
a rank evaluates a point in its domain or extension, what it reads there belongs to it or is received; a point where a var is
written belongs to the rank whose domain has it; and neighbours have buffers for the same vars. -/
structure Linked {G : RunCfg} {Val : Type*} (S : Stencil G Slot Val) (N : Net) (own : Nat → Nat → List Int → Prop) : Prop where
  nbr_lt : ∀ r < N.n, ∀ nb ∈ N.nbrs r, nb < N.n
  bufs : ∀ r < N.n, ∀ nb ∈ N.nbrs r, ∀ v < N.nvars, N.hasBuf r v = N.hasBuf nb v
  has_buf : ∀ r < N.n, ∀ nb β x, Gets N r nb β x → N.hasBuf r β.1 = true
  gets_own : ∀ r < N.n, ∀ nb β x, Gets N r nb β x → own nb β.1 x
  gets_outer : ∀ r < N.n, ∀ nb β x, Gets N r nb β x → (N.cfg nb).overlap = true →
    ∃ j < G.nd, x.getD j 0 < ((N.cfg nb).dim j).intBeg ∨ ((N.cfg nb).dim j).intEnd ≤ x.getD j 0
  own_rank : ∀ r < N.n, ∀ a β, S.writes a β → own r β.1 a.pt → (∀ j < G.nd, InIvl (a.pt.getD j 0)
    ((G.dim j).rankBeg, (G.dim j).rankBeg + (G.dim j).rankSize)) → RankHas G N r a.pt
  reads_held : ∀ r < N.n, ∀ a γ x, RankExtHas G N r a.pt → S.reads a γ x → own r γ.1 x ∨ ∃ nb, Gets N r nb γ x
  outs : ∀ a β, S.writes a β → N.outs a.stage a.step β = true

/-- Every rank has the value `g` at the points that belong to it. -/
def OwnCurrent (N : Net) (own : Nat → Nat → List Int → Prop) {Val : Type*} (s : NState Val) (g : Slot × List Int → Val) : Prop :=
  ∀ r < N.n, ∀ β x, own r β.1 x → s.copy r (β, x) = g (β, x)

/-- Every rank has the value `g` at the points that it receives from others. -/
def AllHalosCurrent (N : Net) {Val : Type*} (s : NState Val) (g : Slot × List Int → Val) : Prop :=
  ∀ r < N.n, ∀ nb β x, Gets N r nb β x → s.copy r (β, x) = g (β, x)

/-- Every rank has the value `g` at the points that it receives from others, unless the sender has marked the slot as modified. -/
def CleanHalosCurrent (N : Net) {Val : Type*} (s : NState Val) (g : Slot × List Int → Val) : Prop :=
  ∀ r < N.n, ∀ nb β x, Gets N r nb β x → s.self nb β = false → s.copy r (β, x) = g (β, x)

end Yask
