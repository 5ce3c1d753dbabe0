import Mathlib.Algebra.Order.Group.Unbundled.Int

/-!
# Specification: rank domains

Points are given by their index in each domain dim.
-/

namespace Yask.Spec

/-- A point of the rank domain with first index `ofs` and size `lsz` in each of `nd` dims. -/
def InRank (nd : Nat) (ofs lsz p : Nat → Int) : Prop := ∀ j < nd, ofs j ≤ p j ∧ p j < ofs j + lsz j

/-- A point of the overall domain of size `g`. -/
def InOverall (nd : Nat) (g p : Nat → Int) : Prop := ∀ j < nd, 0 ≤ p j ∧ p j < g j

/-- An offset to a neighbour: at most one rank away in each dim. -/
def Near (nd : Nat) (d : Nat → Int) : Prop := ∀ j < nd, -1 ≤ d j ∧ d j ≤ 1

end Yask.Spec
