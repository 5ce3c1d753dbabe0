import Verif.Var.ResizeModel
import Verif.Setup.RankModel

/-!
# Model of the regions exchanged between neighbour ranks

The first part of `alloc_mpi_data` (`src/kernel/lib/alloc.cpp:456-860`): for each neighbour and each var of the solution, the
part of the var to be sent and the part to be received. Dims are the domain dims, by position; the ranges of step and misc dims
are the whole dims (assumed not empty). Ranks, sizes and offsets are those of `Setup.RankRes`.
-/

namespace Yask.Mpi
open Var Setup

/-- The var on one rank: which domain dims it has, its geometry in each of them, and whether the rank is the first or the last
one in each dim (`is_first_rank`, `is_last_rank`, `src/kernel/lib/settings.hpp:321-326`). -/
structure XRank where
  used : Nat → Bool
  dim : Nat → DimG
  isFirst : Nat → Bool
  isLast : Nat → Bool

/-- `first_inner_idx` and `last_inner_idx` (`alloc.cpp:544-547`): `get_first_rank_domain_index`,
`get_last_rank_domain_index` (`src/kernel/lib/yk_var_apis.cpp:196-201`). -/
def XRank.firstInner (a : XRank) (j : Nat) : Int := (a.dim j).rankOfs
def XRank.lastInner (a : XRank) (j : Nat) : Int := (a.dim j).rankOfs + (a.dim j).domain - 1

/-- The outer indices before rounding (`alloc.cpp:548-553`). -/
def XRank.fidx (a : XRank) (j : Nat) : Int := if a.isFirst j then a.firstInner j - (a.dim j).lHalo else a.firstInner j
def XRank.lidx (a : XRank) (j : Nat) : Int := if a.isLast j then a.lastInner j + (a.dim j).rHalo else a.lastInner j

/-- The outer indices can be rounded to multiples of the vector length (`alloc.cpp:562-567`). -/
def XRank.roundable (a : XRank) (j : Nat) : Bool :=
  !decide (roundDownFlr (a.fidx j) (a.dim j).varVL < (a.dim j).firstLocal) &&
  !decide (roundUpFlr (a.lidx j + 1) (a.dim j).varVL - 1 > (a.dim j).lastLocal)

/-- `var_vec_ok` after the loop over dims (`alloc.cpp:500`, `562-567`). -/
def XRank.varVecOk (nd : Nat) (a : XRank) (vecOk : Bool) : Bool :=
  vecOk && (List.range nd).all fun j => !a.used j || a.roundable j

/-- `first_outer_idx`, `last_outer_idx` (`alloc.cpp:628-639`). -/
def XRank.firstOuter (a : XRank) (vec : Bool) (j : Nat) : Int :=
  if vec then roundDownFlr (a.fidx j) (a.dim j).varVL else a.fidx j
def XRank.lastOuter (a : XRank) (vec : Bool) (j : Nat) : Int :=
  if vec then roundUpFlr (a.lidx j + 1) (a.dim j).varVL - 1 else a.lidx j

/-- `my_halo_sizes` and `neigh_halo_sizes` for a neighbour at distance `d` (-1, 0, 1) in a dim (`alloc.cpp:580-613`,
`642-643`); `ext` is `wf_shift_pts`. -/
def XRank.halo (a : XRank) (vec mine : Bool) (ext : Int) (d : Int) (j : Nat) : Int :=
  let h :=
    if d = -1 then (if mine then (a.dim j).lHalo + ext else (a.dim j).rHalo + ext)
    else if d = 1 then (if mine then (a.dim j).rHalo + ext else (a.dim j).lHalo + ext)
    else 0
  if vec then roundUp h (a.dim j).varVL else h

/-- `copy_begin` and `copy_end` in dim `j` (`alloc.cpp:668-751`). -/
def XRank.range (a : XRank) (vec send : Bool) (ext : Nat → Int) (d : Nat → Int) (j : Nat) : Int × Int :=
  let h := a.halo vec (!send) (ext j) (d j) j
  if send then
    if d j = -1 then (a.firstInner j, a.firstInner j + h)
    else if d j = 1 then (a.lastInner j + 1 - h, a.lastInner j + 1)
    else (a.firstOuter vec j, a.lastOuter vec j + 1)
  else
    if d j = -1 then (a.firstInner j - h, a.firstInner j)
    else if d j = 1 then (a.lastInner j + 1, a.lastInner j + 1 + h)
    else (a.firstOuter vec j, a.lastOuter vec j + 1)

/-- A buffer (`MPIBuf`): first and one-past-last index in the dims of the var (0 in others), and `vec_copy_ok`. -/
structure XBuf where
  beg : Nat → Int
  fin : Nat → Int
  vec : Bool

/-- The part of the var for the neighbour at distances `d` (`alloc.cpp:495-835`). `maxDist` is the largest distance of ranks
that exchange this var (`get_halo_exchange_l1_norm`). `none`: no buffer. -/
def mkBuf (nd : Nat) (a : XRank) (vecOk send wf : Bool) (maxDist : Int) (ext : Nat → Int) (d : Nat → Int) : Option XBuf :=
  let maxd : Int := if wf then nd else maxDist
  let mandist : Int := (List.range nd).foldl (fun s j => s + |d j|) 0
  if mandist > maxd then none
  else if !(List.range nd).any (fun j => a.used j && decide (d j ≠ 0)) then none
  else
    let vec := a.varVecOk nd vecOk
    let rng := fun j => if a.used j && decide (j < nd) then a.range vec send ext d j else (0, 0)
    if (List.range nd).any (fun j => a.used j && decide ((rng j).2 - (rng j).1 = 0)) then none
    else some
      { beg := fun j => (rng j).1, fin := fun j => (rng j).2
        vec := vec && (List.range nd).all fun j => !a.used j ||
          (decide (((rng j).2 - (rng j).1).tmod (a.dim j).varVL = 0) && decide (imodFlr (rng j).1 (a.dim j).varVL = 0)) }

/-- `has_all_vlen_mults` of a rank (`setup.cpp:436-454`). -/
def hasMults (nd : Nat) (fold : Nat → Int) (r : RankRes) (k : Nat) : Bool :=
  (List.range nd).all fun j => decide ((r.lsz k j).tmod (fold j) = 0)

/-- The buffer of rank `me` for rank `nbr` (`alloc.cpp:478-487`). -/
def rankBuf (nd : Nat) (fold : Nat → Int) (r : RankRes) (var : Nat → XRank) (forceScalar wf : Bool) (maxDist : Int)
    (ext : Nat → Int) (me nbr : Nat) (send : Bool) : Option XBuf :=
  mkBuf nd (var me) (!forceScalar && hasMults nd fold r me && hasMults nd fold r nbr) send wf maxDist ext
    (fun j => r.idx nbr j - r.idx me j)

/-- What `prepare_solution()` sets for a var on all `n` ranks before it makes the buffers, in the domain dims of the var
(`update_var_info`, `setup.cpp:666-800`). The vector lengths `vl` and the halos `lh`, `rh` come from the compiler or from the
same calls on all ranks; `ext` is `wf_shift_pts`, which is also the wave-front extension except on outer ranks; sizes and
offsets are those of the rank; pads are those left by `resize()`. `minSize` is the size below which `prepare_solution()`
rejects a rank. -/
structure OnRanks (nd n : Nat) (fold : Nat → Int) (r : RankRes) (minSize : Nat → Nat → Nat) (var : Nat → XRank)
    (ext : Nat → Int) (used : Nat → Bool) (vl lh rh : Nat → Int) : Prop where
  used_eq : ∀ k < n, (var k).used = used
  isFirst : ∀ k < n, ∀ j < nd, (var k).isFirst j = decide (r.idx k j = 0)
  isLast : ∀ k < n, ∀ j < nd, (var k).isLast j = decide (r.idx k j = r.num.getD j 0 - 1)
  ext_nonneg : ∀ j < nd, 0 ≤ ext j
  fold_pos : ∀ j < nd, 0 < fold j
  vl_eq : ∀ j < nd, vl j = 1 ∨ vl j = fold j
  min_l : ∀ k < n, ∀ j < nd, used j = true → lh j + ext j ≤ minSize k j
  min_r : ∀ k < n, ∀ j < nd, used j = true → rh j + ext j ≤ minSize k j
  dims : ∀ k < n, ∀ j < nd, used j = true → ∃ (d : DimG) (vlenGt1 allowAddl allocated : Bool),
    (var k).dim j = d.resized vlenGt1 allowAddl allocated ∧ d.settingsOk = true ∧ d.kind = .domain ∧
    (vlenGt1 = false → fold j = 1) ∧ d.solnVL = fold j ∧ d.varVL = vl j ∧ d.lHalo = lh j ∧ d.rHalo = rh j ∧
    d.lExt = (if r.idx k j = 0 then 0 else ext j) ∧ d.rExt = (if r.idx k j = r.num.getD j 0 - 1 then 0 else ext j) ∧
    d.rankOfs = r.ofs k j ∧ d.localOfs = 0 ∧ d.domain = r.lsz k j

end Yask.Mpi
