import Verif.Var.VarModel
import Mathlib.Data.Rat.Defs
import Mathlib.Algebra.Order.Ring.Rat

/-!
# Model of slice reductions and of the comparison of two vars

Arithmetic is exact: values are rational numbers, there is no rounding and there are no infinities or
NaNs.
-/

namespace Yask.Var

/-- `std::numeric_limits<double>::min()`: the least positive normalised number. -/
def dblMin : ℚ := 1 / 2 ^ 1022

/-- `std::numeric_limits<double>::max()`. -/
def dblMax : ℚ := (2 ^ 53 - 1) * 2 ^ 971

/-- The requested reductions: the bits of `reduction_mask` (`yk_var_api.hpp:965-977`). -/
structure RedMask where
  sum : Bool := false
  sumSq : Bool := false
  prod : Bool := false
  max : Bool := false
  min : Bool := false
  deriving DecidableEq, Repr

/-- `red_res` (`yk_var.hpp:567-580`), with the initial values of its fields. -/
structure RedRes where
  mask : RedMask := {}
  nred : Int := 0
  sum : ℚ := 0
  sumSq : ℚ := 0
  prod : ℚ := 1
  max : ℚ := dblMin
  min : ℚ := dblMax
  deriving DecidableEq

/-- `get_sum` (`yk_var.hpp:594-598`). -/
def RedRes.getSum (r : RedRes) : Outcome ℚ := if r.mask.sum then .ok r.sum else .throws
/-- `get_sum_squares` (`yk_var.hpp:599-603`). -/
def RedRes.getSumSquares (r : RedRes) : Outcome ℚ := if r.mask.sumSq then .ok r.sum else .throws
/-- `get_product` (`yk_var.hpp:604-608`). -/
def RedRes.getProduct (r : RedRes) : Outcome ℚ := if r.mask.prod then .ok r.prod else .throws
/-- `get_max` (`yk_var.hpp:609-613`). -/
def RedRes.getMax (r : RedRes) : Outcome ℚ := if r.mask.max then .ok r.max else .throws
/-- `get_min` (`yk_var.hpp:614-618`). -/
def RedRes.getMin (r : RedRes) : Outcome ℚ := if r.mask.sum then .ok r.min else .throws

/-- The reductions of one value in `RedElem::visit` (`yk_var.hpp:1394-1405`). -/
def RedRes.add (r : RedRes) (val : ℚ) : RedRes :=
  { r with
    sum := if r.mask.sum then r.sum + val else r.sum
    sumSq := if r.mask.sumSq then r.sumSq + val * val else r.sumSq
    prod := if r.mask.prod then r.prod * val else r.prod
    max := if r.mask.max then Max.max r.max val else r.max
    min := if r.mask.min then Min.min r.min val else r.min }

/-- `RedElem::visit` (`yk_var.hpp:1378-1406`).  The state is the array of the results of the threads;
`thr` is the number of the thread that does the visit; a thread number beyond the array is undefined. -/
def redBody (g : Geom) (m : Int → ℚ) (thr : List Int × Int × Int → Nat) (rs : List RedRes)
    (x : List Int × Int × Int) : Outcome (List RedRes) := do
  let val ← readElem g m x.1 x.2.1
  if thr x < rs.length then pure (rs.modify (thr x) fun r => r.add val) else .undefined

/-- Join of the results of the threads (`yk_var.hpp:1437-1446`). -/
def RedRes.join (p r : RedRes) : RedRes :=
  { p with
    sum := p.sum + r.sum
    sumSq := p.sumSq + r.sum
    prod := p.prod * r.prod
    max := Max.max p.max r.max
    min := Min.min p.min r.min }

/-- `_reduce_elements_in_slice` (`yk_var.hpp:1364-1449`), on the host.  `thr` says which thread does
which visit. -/
def reduceSlice (v : YVar ℚ) (env : SliceEnv) (thr : List Int × Int × Int → Nat) (mask : RedMask)
    (first last : List Int) (strict : Bool) (idxMax : Int) : Outcome RedRes :=
  match v.mem with
  | none => .throws
  | some m => do
    let r ← visitSlice v env strict idxMax first last (redBody v.g m thr)
      (List.replicate env.nthr { mask := mask })
    pure (r.1.foldl RedRes.join { mask := mask, nred := r.2 })

end Yask.Var
