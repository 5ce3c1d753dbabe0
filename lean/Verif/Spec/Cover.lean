import Mathlib.Data.List.Basic
import Mathlib.Data.List.Forall2

/-!
# Specification vocabulary: exact covers

This file does not mention the model of YASK.  It says what it means for a list of
half-open integer ranges (or n-dimensional boxes) to cover a region *exactly once*:
the number of listed ranges that contain a point is 1 inside the region and 0 outside.
-/

namespace Yask.Spec

/-- A half-open range `[r.1, r.2)`. -/
abbrev Ivl := Int × Int

/-- `x` lies in the half-open range `r`. -/
abbrev InIvl (x : Int) (r : Ivl) : Prop := r.1 ≤ x ∧ x < r.2

/-- The number of ranges in the list that contain `x`. -/
def visits (l : List Ivl) (x : Int) : Nat := l.countP fun r => decide (InIvl x r)

/-- The ranges in `l` contain each point of `[b, e)` exactly once, and no other point. -/
def ExactCover (l : List Ivl) (b e : Int) : Prop :=
  ∀ x, visits l x = if b ≤ x ∧ x < e then 1 else 0

/-- An n-dimensional box: one half-open range per dimension. -/
abbrev Box := List Ivl

/-- The point `p` lies in the box `bx`: same number of dimensions, and each
coordinate lies in the range of its dimension. -/
abbrev InBox (p : List Int) (bx : Box) : Prop := List.Forall₂ InIvl p bx

/-- The number of boxes in the list that contain `p`. -/
def boxVisits (l : List Box) (p : List Int) : Nat := l.countP fun b => decide (InBox p b)

/-- The boxes in `l` contain each point of `region` exactly once, and no other point. -/
def ExactBoxCover (l : List Box) (region : Box) : Prop :=
  ∀ p, boxVisits l p = if InBox p region then 1 else 0

/-- The boxes in `l` contain each point satisfying `P` exactly once, and no other point. -/
def ExactCoverOf (l : List Box) (P : List Int → Prop) [DecidablePred P] : Prop :=
  ∀ p, boxVisits l p = if P p then 1 else 0

end Yask.Spec
