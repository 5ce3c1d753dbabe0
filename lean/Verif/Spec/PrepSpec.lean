import Verif.Mpi.PrepModel
import Verif.Spec.NetSpec
import Verif.Spec.BoxSpec

/-!
# Specification: a run on several ranks after `prepare_solution()`

`G` describes the stencil on the overall domain as if there were one rank.
-/

namespace Yask
open Spec Mpi Setup

/-- The shape of a var, the same on all ranks: domain dims, vector lengths, left and right halos. -/
structure VarShape where
  used : Nat → Bool
  vl : Nat → Int
  lh : Nat → Int
  rh : Nat → Int

/-- The wave-front shift in dim `j`, for dims with several ranks. -/
def Mpi.Prep.ext (P : Prep) (j : Nat) : Int := if 1 < P.ranks.num.getD j 0 then (P.cfg 0).wfShiftPts j else 0

/-- The state after `prepare_solution()` on all ranks: the ranks were placed (`placeRanks`, which checks sizes); each rank has a
legal tiling configuration for its part of the overall domain, with the same stages, parts, steps per wave-front and halos; parts
are valid at the same points of the overall domain; the vars have the sizes of the ranks and the pads that `resize()`
computes; `minSize` is the largest halo plus the wave-front shift (`setup.cpp:765-773`).  Ranks begin at multiples of the vector lengths (see `C29_aligned`,
`C29_misaligned_wrong`), and no temporal block is too short (see `C05_short_remainder_race`). -/
structure Prepared (G : RunCfg) (P : Prep) (opts : List ROpts) (minSize : Nat → Nat → Nat) (shape : Nat → VarShape) : Prop where
  some_rank : opts ≠ []
  n : P.n = opts.length
  placed : placeRanks P.fi P.fold P.nd (fun _ _ => none) minSize opts = .ok P.ranks
  nd : P.nd = G.nd
  ok : ∀ k < P.n, (P.full k).Ok
  rem : ∀ k < P.n, (P.full k).tbSteps = 0 ∨ (P.full k).NoShortRemainder
  cfg_nd : ∀ k < P.n, (P.cfg k).nd = G.nd
  nst : ∀ k < P.n, (P.cfg k).nst = G.nst
  nparts : ∀ k < P.n, (P.cfg k).nparts = G.nparts
  stepOk : ∀ k < P.n, (P.cfg k).stepOk = G.stepOk
  steps : ∀ k < P.n, (P.cfg k).wfSteps = G.wfSteps
  dims : ∀ k < P.n, ∀ j < G.nd, let d := (P.cfg k).dim j
    d.fold = P.fold j ∧ d.maxHalo = (G.dim j).maxHalo ∧ d.rankBeg = P.ranks.ofs k j ∧ d.rankSize = P.ranks.lsz k j ∧
    d.nranks = P.ranks.num.getD j 0 ∧ d.firstRank = decide (P.ranks.idx k j = 0) ∧
    d.lastRank = decide (P.ranks.idx k j = P.ranks.num.getD j 0 - 1)
  whole : ∀ j < G.nd, (G.dim j).rankBeg = 0 ∧ (G.dim j).rankSize = P.ranks.gsz 0 j
  min : ∀ k < P.n, ∀ j < G.nd, (minSize k j : Int) = (G.dim j).maxHalo + (P.cfg k).wfShiftPts j
  inside : ∀ st p x, G.dom st p x = true → ∀ j < G.nd,
    InIvl (x.getD j 0) ((G.dim j).rankBeg, (G.dim j).rankBeg + (G.dim j).rankSize)
  dom : ∀ k < P.n, ∀ st p x, (P.cfg k).dom st p x = true ↔ G.dom st p x = true ∧
    ∀ j < G.nd, InIvl (x.getD j 0) ((P.cfg k).extBeg j, (P.cfg k).extEnd j)
  vars : ∀ v < P.nvars, OnRanks P.nd P.n P.fold P.ranks minSize (P.var v).rank P.ext (shape v).used (shape v).vl (shape v).lh (shape v).rh
  aligned : ∀ v < P.nvars, ∀ k < P.n, ∀ j < P.nd, (shape v).used j = true → (shape v).vl j ∣ P.ranks.ofs k j

/-- The stencil uses the vars as announced: it writes vars that have all domain dims, and reads points within the halos of the var
and away from the point of evaluation in at most `get_halo_exchange_l1_norm()` dims (what the compiler computes, see C46). -/
structure FitsVars {G : RunCfg} {Val : Type*} (S : Stencil G Slot Val) (P : Prep) (shape : Nat → VarShape)
    (outs : Nat → Int → Slot → Bool) : Prop where
  writes : ∀ a β, S.writes a β → β.1 < P.nvars ∧ outs a.stage a.step β = true ∧ ∀ j < G.nd, (shape β.1).used j = true
  reads : ∀ a γ x, S.reads a γ x → γ.1 < P.nvars ∧ γ.2 < (P.var γ.1).slots ∧
    (∀ j < G.nd, (shape γ.1).used j = true →
      a.pt.getD j 0 - (shape γ.1).lh j ≤ x.getD j 0 ∧ x.getD j 0 ≤ a.pt.getD j 0 + (shape γ.1).rh j) ∧
    (((List.range G.nd).filter fun j => decide ((shape γ.1).used j = true ∧ x.getD j 0 ≠ a.pt.getD j 0)).length : Int) ≤
      (P.var γ.1).maxDist

/-- Point `p` of var `v` belongs to rank `k`: no index is in the range of another rank. -/
def OwnPoint (P : Prep) (shape : Nat → VarShape) (k v : Nat) (p : List Int) : Prop :=
  Mine P.nd (shape v).used (P.ranks.ofs k) (P.ranks.lsz k) (fun j => P.ranks.idx k j = 0)
    (fun j => P.ranks.idx k j = P.ranks.num.getD j 0 - 1) (fun j => p.getD j 0)

end Yask
