import Verif.Mpi.NetModel
import Verif.Mpi.BoxModel

/-!
# Model of what `prepare_solution()` sets up for a run on several ranks

The neighbours, the buffers of all vars and the MPI interior of each rank (`alloc_mpi_data`, `src/kernel/lib/alloc.cpp:456-860`),
as input of `Verif.Mpi.NetModel`.
-/

namespace Yask.Mpi
open Var Setup

/-- A var of the solution: its instance on each rank, `get_halo_exchange_l1_norm()`, and the number of step slots. -/
structure NVar where
  rank : Nat → XRank
  maxDist : Int
  slots : Nat

/-- What is needed to make the buffers: layout of tuples, number of domain dims, fold lengths, ranks, vars, the settings
`force_scalar_exchange` and `_min_exterior`, and the tiling configuration of each rank, except for its interior. -/
structure Prep where
  fi : Bool
  nd : Nat
  fold : Nat → Int
  n : Nat
  ranks : RankRes
  nvars : Nat
  var : Nat → NVar
  forceScalar : Bool
  minExt : Int
  cfg : Nat → RunCfg

/-- The neighbours of a rank, in the order in which they are visited (`MPIInfo::visit_neighbors`,
`src/kernel/lib/settings.cpp:99-113`, `MPIData::visit_neighbors`, `153-165`). -/
def Prep.nbrs (P : Prep) (me : Nat) : List Nat :=
  ((List.range (3 ^ P.nd)).filter fun i => decide (i ≠ nbrSlot P.fi P.nd fun _ => 0)).filterMap (P.ranks.nbr me)

/-- The buffer of var `v` of rank `me` for rank `nb`; rank `me` uses its own `wf_shift_pts` and its own `wf_steps`. -/
def Prep.buf (P : Prep) (me nb v : Nat) (send : Bool) : Option XBuf :=
  rankBuf P.nd P.fold P.ranks (P.var v).rank P.forceScalar (decide ((P.cfg me).wfSteps > 0)) (P.var v).maxDist
    (P.cfg me).wfShiftPts me nb send

/-- Effect of var `v` and neighbour `nb` on the interior of rank `me` in dim `j` (`alloc.cpp:497-613`, `668-720`): nothing if
the distance is too large, if the neighbour is in no direction of the var, or if the var does not have the dim. -/
def Prep.adjust (P : Prep) (me j : Nat) (b : Int × Int) (nv : Nat × Nat) : Int × Int :=
  let a := (P.var nv.2).rank me
  let d := fun j => P.ranks.idx nv.1 j - P.ranks.idx me j
  let maxd : Int := if (P.cfg me).wfSteps > 0 then P.nd else (P.var nv.2).maxDist
  if (List.range P.nd).foldl (fun s j => s + |d j|) (0 : Int) > maxd then b
  else if !(List.range P.nd).any (fun j => a.used j && decide (d j ≠ 0)) then b
  else if a.used j = false then b
  else
    let vec := a.varVecOk P.nd (!P.forceScalar && hasMults P.nd P.fold P.ranks me && hasMults P.nd P.fold P.ranks nv.1)
    let h := a.halo vec false ((P.cfg me).wfShiftPts j) (d j) j
    if d j = -1 then (max b.1 (roundUp (a.firstInner j + max P.minExt h) (P.fold j)), b.2)
    else if d j = 1 then (b.1, min b.2 (roundDown (a.lastInner j + 1 - max P.minExt h) (P.fold j)))
    else b

/-- `mpi_interior` of rank `me` in dim `j` (`alloc.cpp:463-465`, `475-835`). -/
def Prep.interior (P : Prep) (me j : Nat) : Int × Int :=
  ((P.nbrs me).flatMap fun nb => (List.range P.nvars).map fun v => (nb, v)).foldl (P.adjust me j)
    ((P.cfg me).extBeg j, (P.cfg me).extEnd j)

/-- The configuration of a rank with its interior. -/
def Prep.full (P : Prep) (me : Nat) : RunCfg :=
  { P.cfg me with dim := fun j => { (P.cfg me).dim j with intBeg := (P.interior me j).1, intEnd := (P.interior me j).2 } }

/-- The point is in the region of a buffer. -/
def inBuf (nd : Nat) (used : Nat → Bool) (x : XBuf) (p : List Int) : Bool :=
  (List.range nd).all fun j => !used j || (decide (x.beg j ≤ p.getD j 0) && decide (p.getD j 0 < x.fin j))

/-- Everything that the run needs; `outs` are the outputs of each stage and step. -/
def Prep.net (P : Prep) (outs : Nat → Int → Slot → Bool) : Net where
  n := P.n
  cfg := P.full
  nvars := P.nvars
  nslots v := (P.var v).slots
  nbrs := P.nbrs
  box me nb v p := match P.buf me nb v false with
    | some x => inBuf P.nd ((P.var v).rank me).used x p
    | none => false
  hasBuf me v := (P.nbrs me).any fun nb => (P.buf me nb v true).isSome || (P.buf me nb v false).isSome
  outs := outs

end Yask.Mpi
