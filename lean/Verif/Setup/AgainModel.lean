import Verif.Setup.RankModel

/-!
# Settings between two calls of `prepare_solution()`

`setup_rank()` reads and writes the same settings (`actl_opts`): what it computes replaces what the user specified, and is
what the next call finds (`src/kernel/lib/setup.cpp:201-212`, `230`, `245`, `488`, `495`). The settings requested by the
user are also kept in `req_opts` (`src/kernel/lib/soln_apis.cpp:48-82`), but these are not used to restore `actl_opts`.
-/

namespace Yask.Setup

/-- The settings of all `n` ranks after a call of `prepare_solution()` with result `r` (`setup.cpp:230`, `245`, `488`, `495`). -/
def settingsAfter (nd n : Nat) (r : RankRes) : List ROpts := (List.range n).map fun k =>
  { numRanks := (List.range nd).map fun j => r.num.getD j 0
    rankIdx := (List.range nd).map (r.idx k)
    gsz := (List.range nd).map (r.gsz k)
    lsz := (List.range nd).map (r.lsz k) }

/-- `set_overall_domain_size_vec(gsz)` on all ranks (`soln_apis.cpp:48-82`, `90-92`). -/
def setOverall (gsz : List Int) (opts : List ROpts) : List ROpts := opts.map fun o => { o with gsz := gsz }

/-- `set_rank_domain_size_vec(lsz k)` on all ranks `k` (`soln_apis.cpp:48-82`, `93-95`). -/
def setRank (lsz : Nat → List Int) (opts : List ROpts) : List ROpts := opts.mapIdx fun k o => { o with lsz := lsz k }

end Yask.Setup
