import Mathlib.Tactic.Linarith
import Mathlib.Tactic.Ring

/-!
# Integer division helpers (model)

Models `src/common/idiv.hpp` and the rounding macros of
`src/common/common_utils.hpp`.

Simplification: `idx_t` is modelled by unbounded `Int`; C++ `/` and `%` (truncating)
are `Int.tdiv` and `Int.tmod`.  Division by zero is undefined behaviour in C++; all
theorems assume a positive divisor.
-/

namespace Yask

/-- `a >> (sizeof(a)*8-1)`: arithmetic shift by the word size less one
(`src/common/idiv.hpp:57,84`). -/
def signShift (a : Int) : Int := if a < 0 then -1 else 0

/-- `idiv_flr` (`src/common/idiv.hpp:52-58`). -/
def idivFlr (a b : Int) : Int := (a + signShift a * (b - 1)).tdiv b

/-- `ceil_idiv_flr` (`src/common/idiv.hpp:60-64`). -/
def ceilIdivFlr (a b : Int) : Int := idivFlr (a + b - 1) b

/-- `round_up_flr` (`src/common/idiv.hpp:66-70`). -/
def roundUpFlr (a b : Int) : Int := ceilIdivFlr a b * b

/-- `round_down_flr` (`src/common/idiv.hpp:72-76`). -/
def roundDownFlr (a b : Int) : Int := idivFlr a b * b

/-- `imod_flr` (`src/common/idiv.hpp:78-85`). -/
def imodFlr (a b : Int) : Int :=
  let c := a.tmod b
  c - signShift c * b

/-- Macro `CEIL_DIV` (`src/common/common_utils.hpp:89`). -/
def ceilDiv (numer denom : Int) : Int := (numer + denom - 1).tdiv denom

/-- Macro `ROUND_UP` (`src/common/common_utils.hpp:90`). -/
def roundUp (n mult : Int) : Int := ceilDiv n mult * mult

/-- Macro `ROUND_DOWN` (`src/common/common_utils.hpp:91`). -/
def roundDown (n mult : Int) : Int := n.tdiv mult * mult

/-- `div_equally_size_n` (`src/common/common_utils.hpp:122-130`). -/
def divEquallySizeN (num nparts n : Int) : Int :=
  num.tdiv nparts + (if n < num.tmod nparts then 1 else 0)

/-- `div_equally_cumu_size_n` (`src/common/common_utils.hpp:144-154`). -/
def divEquallyCumuSizeN (num nparts n : Int) : Int :=
  if n < 0 then 0
  else
    num.tdiv nparts * (n + 1) +
      (if n < num.tmod nparts then n + 1 else num.tmod nparts)

/-- `div_equally_all_sizes` (`src/common/common_utils.hpp:159-165`): all parts start
as `num / nparts`, then the first `num % nparts` of them are incremented. -/
def divEquallyAllSizes (num : Int) (nparts : Nat) : List Int :=
  (List.range nparts).map fun (i : Nat) =>
    num.tdiv nparts + (if (i : Int) < num.tmod nparts then 1 else 0)

end Yask
