import Verif.Common.Outcome
import Verif.Common.IdivModel
import Verif.Common.CompactModel

/-!
# Model of the placement of ranks

`StencilContext::setup_rank()` (`src/kernel/lib/setup.cpp:169-524`) and the check of the sizes of rank domains in
`update_var_info()` (`setup.cpp:765-773`), run by all ranks together in `prepare_solution()`.

Tables are indexed by MPI rank and then by the position of the domain dim. Since every rank sends its data to all others
(`MPI_Bcast`), all ranks work with the same tables. An exception on one rank is modelled as an exception of the whole call.
`idx_t` is unbounded.
-/

namespace Yask.Setup

/-- Settings of one rank (`src/kernel/lib/settings.hpp:221-242`): numbers of ranks, rank indices, global sizes and rank
sizes; domain dims only. -/
structure ROpts where
  numRanks : List Int
  rankIdx : List Int
  gsz : List Int
  lsz : List Int
deriving DecidableEq

/-- A table of values per rank and dim. -/
abbrev Tab := Nat → Nat → Int

/-- `is_inline` (`setup.cpp:345-353`): all dims but `di` have the same rank index. -/
def isInline (nd : Nat) (coord : Tab) (me rn di : Nat) : Bool :=
  (List.range nd).all fun dj => !(decide (di ≠ dj) && decide (coord rn dj - coord me dj ≠ 0))

/-- `rank_domain_sums[di]` on rank `me` (`setup.cpp:268-269`, `359`). -/
def lineSum (n nd : Nat) (coord rsz : Tab) (me di : Nat) : Int :=
  (List.range n).foldl (fun s rn => if isInline nd coord me rn di then s + rsz rn di else s) 0

/-- `mandist` (`setup.cpp:303-308`). -/
def manDist (nd : Nat) (coord : Tab) (me rn : Nat) : Int :=
  (List.range nd).foldl (fun s di => s + |coord rn di - coord me di|) 0

/-- `maxdist` (`setup.cpp:304-309`). -/
def maxDist (nd : Nat) (coord : Tab) (me rn : Nat) : Int :=
  (List.range nd).foldl (fun s di => max s |coord rn di - coord me di|) 0

/-- Rank size and global size set after the first pass (`setup.cpp:461-503`). -/
def pass0 (fold nranks : Nat → Int) (n nd : Nat) (coord rsz gsz : Tab) (me j : Nat) : Outcome (Int × Int) :=
  if rsz me j = 0 then
    (if lineSum n nd coord rsz me j ≠ 0 then .throws
    else
      let r := roundUp (ceilDiv (gsz me j) (nranks j)) (fold j)
      let rem := gsz me j - r * (nranks j - 1)
      if rem ≤ 0 then .throws
      else .ok (if coord me j = nranks j - 1 then rem else r, gsz me j))
  else if gsz me j = 0 then .ok (rsz me j, lineSum n nd coord rsz me j)
  else .ok (rsz me j, gsz me j)

/-- Two ranks in line in dim `di` must have the same sizes in the other dims (`setup.cpp:361-384`). -/
def aligned (nd : Nat) (coord rsz : Tab) (me rn : Nat) : Bool :=
  (List.range nd).all fun di => !isInline nd coord me rn di ||
    (List.range nd).all fun dj => decide (di = dj) || decide (rsz me dj = rsz rn dj)

/-- `rank_domain_offsets[di]` on rank `me` (`setup.cpp:254-255`, `386-389`). -/
def rankOffset (n nd : Nat) (coord rsz : Tab) (me di : Nat) : Int :=
  (List.range n).foldl (fun s rn =>
    if isInline nd coord me rn di && decide (coord rn di - coord me di < 0) then s + rsz rn di else s) 0

/-- `get_neighbor_index(rdeltas + 1)` (`settings.hpp:418-423`, `setup.cpp:394-403`): `neighborhood_sizes` is 3 in each dim. -/
def nbrSlot (fi : Bool) (nd : Nat) (delta : Nat → Int) : Nat :=
  layoutVals fi ((List.range nd).map fun _ => 3) ((List.range nd).map fun j => delta j + 1)

/-- `my_neighbors` of rank `me` (`setup.cpp:390-411`), starting with the present content. -/
def neighbors (fi : Bool) (n nd : Nat) (coord : Tab) (me : Nat) (old : Nat → Option Nat) : Nat → Option Nat :=
  (List.range n).foldl (fun tab rn =>
    if maxDist nd coord me rn ≤ 1 then
      fun s => if s = nbrSlot fi nd (fun di => coord rn di - coord me di) then some rn else tab s
    else tab) old

/-- The result on all ranks. -/
structure RankRes where
  num : List Int
  idx : Tab
  gsz : Tab
  lsz : Tab
  ofs : Tab
  nbr : Nat → Nat → Option Nat

/-- All of a list of checks on all ranks and dims. -/
def allRD (n nd : Nat) (p : Nat → Nat → Bool) : Bool :=
  (List.range n).all fun r => (List.range nd).all fun j => p r j

/-- A value of a setting of rank `r` in dim `j`. -/
def optTab (opts : List ROpts) (f : ROpts → List Int) : Tab := fun r j =>
  match opts[r]? with
  | some o => (f o).getD j 0
  | none => 0

/-- `setup_rank()` with MPI on all ranks (`setup.cpp:169-522`). `fi` is the layout of the tuple of domain dims, `fold` the
fold lengths, `oldNbr` the tables of neighbours from the last call. `find_loc` is always true: it is never changed
(`settings.hpp:243`). A number of ranks of an empty tuple is read through a null pointer (`src/common/tuple.hpp:224-228`). -/
def setupRanks (fi : Bool) (fold : Nat → Int) (nd : Nat) (oldNbr : Nat → Nat → Option Nat) (opts : List ROpts) :
    Outcome RankRes :=
  let n := opts.length
  let req := optTab opts (·.numRanks)
  let gsz := optTab opts (·.gsz)
  let lsz := optTab opts (·.lsz)
  -- lines 175-193
  if !allRD n nd (fun r j => decide (gsz r j = gsz 0 j) && decide (req r j = req 0 j)) then .throws
  else if !allRD n nd (fun r j => !(decide (gsz r j = 0) && decide (lsz r j = 0))) then .throws
  else
    -- lines 228-239
    let num := compactFactors ((List.range nd).map (req 0)) n
    if prodVals num ≠ n then .throws
    else if num.length ≠ nd then .undefined
    else
      -- lines 241-252
      let idx : Tab := fun r j => (unlayoutVals fi num r).getD j 0
      let nr : Nat → Int := fun j => num.getD j 0
      if !allRD n nd (fun r j => !(decide (idx r j < 0) || decide (idx r j ≥ nr j))) then .throws
      -- lines 312-325
      else if !(List.range n).all (fun me => (List.range n).all fun rn =>
          decide (rn = me) || !decide (manDist nd idx me rn = 0)) then .throws
      else
        let p0 := pass0 fold nr n nd idx lsz gsz
        if !allRD n nd (fun r j => match p0 r j with | .ok _ => true | _ => false) then .throws
        else
          let lsz1 : Tab := fun r j => match p0 r j with | .ok x => x.1 | _ => 0
          let gsz1 : Tab := fun r j => match p0 r j with | .ok x => x.2 | _ => 0
          if !(List.range n).all (fun me => (List.range n).all fun rn => aligned nd idx lsz1 me rn) then .throws
          -- lines 506-519
          else if !allRD n nd (fun r j => decide (gsz1 r j = lineSum n nd idx lsz1 r j)) then .throws
          else .ok
            { num := num, idx := idx, gsz := gsz1, lsz := lsz1
              ofs := rankOffset n nd idx lsz1
              nbr := fun me => neighbors fi n nd idx me (oldNbr me) }

/-- The check in `update_var_info()` (`setup.cpp:765-773`): `minSize` is the largest halo plus the wave-front shifts of the
rank. -/
def checkSizes (nd n : Nat) (minSize : Nat → Nat → Nat) (r : RankRes) : Outcome RankRes :=
  if !allRD n nd (fun k j => !(decide (r.num.getD j 0 > 1) && decide (r.lsz k j < minSize k j))) then .throws else .ok r

/-- The part of `prepare_solution()` that places the ranks. -/
def placeRanks (fi : Bool) (fold : Nat → Int) (nd : Nat) (oldNbr : Nat → Nat → Option Nat) (minSize : Nat → Nat → Nat)
    (opts : List ROpts) : Outcome RankRes := do
  let r ← setupRanks fi fold nd oldNbr opts
  checkSizes nd opts.length minSize r

/-- `setup_rank()` in a build without MPI (`setup.cpp:197-224`), one dim: rank size and global size. -/
def setupNoMpi (gsz lsz : Int) : Outcome (Int × Int) :=
  if gsz = 0 ∧ lsz = 0 then .throws
  else if lsz = 0 then .ok (gsz, gsz)
  else if gsz = 0 then .ok (lsz, lsz)
  else if gsz ≠ lsz then .throws
  else .ok (lsz, gsz)

end Yask.Setup
