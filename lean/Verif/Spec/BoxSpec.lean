import Mathlib.Algebra.Order.Group.Unbundled.Int

/-!
# Specification: regions exchanged between ranks

A var has some of the `nd` domain dims (`used`); a region of it is given by a first index and a one-past-last index in those.
-/

namespace Yask.Spec

/-- The point is in the region. -/
def InRegion (nd : Nat) (used : Nat → Bool) (beg fin p : Nat → Int) : Prop :=
  ∀ j < nd, used j = true → beg j ≤ p j ∧ p j < fin j

/-- The point is in the halo of the rank with first index `ofs` and size `lsz`, on the side given by `d`: at most `lw` points
before the rank where `d` is -1, at most `rw` points behind it where `d` is 1, and in the rank's range where `d` is 0, which is
extended by the halos `lh`, `rh` where no other rank follows (`first`, `last`). -/
def OnSide (nd : Nat) (used : Nat → Bool) (ofs lsz lw rw lh rh : Nat → Int) (first last : Nat → Prop) (d p : Nat → Int) : Prop :=
  ∀ j < nd, used j = true →
    (d j = -1 → ofs j - lw j ≤ p j ∧ p j < ofs j) ∧
    (d j = 1 → ofs j + lsz j ≤ p j ∧ p j < ofs j + lsz j + rw j) ∧
    (d j = 0 → (ofs j ≤ p j ∨ first j ∧ ofs j - lh j ≤ p j) ∧ (p j < ofs j + lsz j ∨ last j ∧ p j < ofs j + lsz j + rh j))

/-- No index of the point is in the range of another rank in that dim: it is in the rank's own range, or on an outer side of
the overall domain. -/
def Mine (nd : Nat) (used : Nat → Bool) (ofs lsz : Nat → Int) (first last : Nat → Prop) (p : Nat → Int) : Prop :=
  ∀ j < nd, used j = true → (ofs j ≤ p j ∨ first j) ∧ (p j < ofs j + lsz j ∨ last j)

end Yask.Spec
