import Verif.Compiler.VecModel

/-!
# What a vectorized read means

`A` gives the value of the var for each position relative to the vector point at which the equation is evaluated.
-/

namespace Yask
open Comp

/-- The k-th point of the fold (the points are numbered by the layout of the fold, see C37). -/
def foldPoint (fold : Tup) (k : Nat) : Loc := (fold.unlayout k).q

/-- Element `j` of the aligned vector block at `loc`. -/
def blockElem {α : Type} (fold : Tup) (A : (String → Int) → α) (loc : Loc) (j : Nat) : α :=
  A fun dim => loc.at dim + (foldPoint fold j).at dim

/-- Element `k` of a vector read at the offsets `ofs`. -/
def readElem {α : Type} (fold : Tup) (A : (String → Int) → α) (ofs : Loc) (k : Nat) : α :=
  A fun dim => ofs.at dim + (foldPoint fold k).at dim

/-- The read can be vectorized: each dimension that is folded is accessed by a simple offset. -/
structure VecRead (fold : Tup) (ofs : Loc) : Prop where
  pos : ∀ d ∈ fold.vals, 0 < d
  nodup : fold.names.Nodup
  full : ∀ s ∈ fold.q, s.2 ≠ 1 → s.1 ∈ ofs.map Prod.fst

end Yask
