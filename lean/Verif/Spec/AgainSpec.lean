import Verif.Setup.RankModel

/-!
# Specification: the same placement of ranks
-/

namespace Yask
open Setup

/-- Two placements of `n` ranks in `nd` dims are the same: what the API returns for all ranks and dims, and the tables of
neighbours. -/
def SamePlacement (n nd : Nat) (r r' : RankRes) : Prop :=
  r.num = r'.num ∧ ∀ k < n,
    (∀ j < nd, r.idx k j = r'.idx k j ∧ r.gsz k j = r'.gsz k j ∧ r.lsz k j = r'.lsz k j ∧ r.ofs k j = r'.ofs k j) ∧
    ∀ s, r.nbr k s = r'.nbr k s

/-- Two outcomes of `prepare_solution()` are the same. -/
def SameOutcome (n nd : Nat) : Outcome RankRes → Outcome RankRes → Prop
  | .ok r, .ok r' => SamePlacement n nd r r'
  | .throws, .throws => True
  | .undefined, .undefined => True
  | _, _ => False

end Yask
