import Mathlib.Data.List.Basic
import Mathlib.Data.List.Forall2
import Mathlib.Algebra.BigOperators.Group.List.Basic

/-!
# Specification vocabulary: index spaces

Independent of the model.  A space is given by a list of sizes; a point is a list of
indices of the same length with each index in `[0, size)`.
-/

namespace Yask.Spec

/-- `pt` is a point of the space with the given sizes. -/
def InSpace (sizes pt : List Int) : Prop := List.Forall₂ (fun i d => 0 ≤ i ∧ i < d) pt sizes

/-- Linear index with the *first* dimension varying fastest:
`pt₀ + size₀ * (pt₁ + size₁ * (pt₂ + …))`. -/
def linFirst : List Int → List Int → Int
  | d :: ds, i :: is => i + d * linFirst ds is
  | _, _ => 0

/-- Linear index with the *last* dimension varying fastest. -/
def linLast (sizes pt : List Int) : Int := linFirst sizes.reverse pt.reverse

/-- Linear index for either convention. -/
def lin (firstInner : Bool) (sizes pt : List Int) : Int :=
  if firstInner then linFirst sizes pt else linLast sizes pt

/-- The number of points of the space. -/
def numPoints (sizes : List Int) : Int := sizes.prod

end Yask.Spec
