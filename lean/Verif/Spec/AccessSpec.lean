import Verif.Spec.Cover
import Verif.Spec.InfoSpec

/-!
# Specification: the elements that a vectorized evaluation may touch

An equation is evaluated on an area by whole vectors: on every vector that contains a point of the area, all lanes are computed (lanes
outside of the area are not written, but their inputs are read).
-/

namespace Yask.Spec
open Var

/-- Vector number `i` (vectors of `vl` points, counted from index `first`) contains a point of the range. -/
def VecMeets (vl first i : Int) (r : Ivl) : Prop := ∃ l, 0 ≤ l ∧ l < vl ∧ InIvl (first + i * vl + l) r

/-- Evaluating an equation on an area (a range in each domain dim) touches the element `idx` of the var with an access at offsets `ofs`:
in each domain dim of the var the index is that of a lane of a vector that meets the area, plus the offset; in misc dims it is one of
the indices of the dim; in the step dim it is any index. -/
structure TouchesVar {V : Type} (c : RunCfg) (k : KVar V) (area : Nat → Ivl) (ofs : Nat → Int) (idx : List Int) : Prop where
  len : idx.length = k.v.g.dims.length
  dom : ∀ j < c.nd, ∀ p, k.posn j = some p → ∃ i l, VecMeets (c.dim j).fold (c.dim j).rankBeg i (area j) ∧ (0 ≤ l ∧ l < (c.dim j).fold) ∧
    idx.getD p 0 = (c.dim j).rankBeg + i * (c.dim j).fold + l + ofs j
  misc : ∀ p d, k.v.g.dims[p]? = some d → d.kind = .misc → d.firstLocal ≤ idx.getD p 0 ∧ idx.getD p 0 ≤ d.lastLocal

end Yask.Spec
