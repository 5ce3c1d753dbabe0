import Mathlib.Data.Int.Notation
import Mathlib.Data.List.Basic

/-!
# Model of `src/common/combo.cpp` and the bit helpers of `src/common/combo.hpp`

`int` is 32 bits wide: an intermediate result outside its range is undefined behaviour and is the
outcome `none`.  So is a write past the end of the local array of `n_choose_k_set`, and an `r` for which
its search loop does not stop.
-/

namespace Yask

/-- A value that fits in a C++ `int`; `none` is signed overflow. -/
def asInt32 (x : Int) : Option Int := if -2147483648 ≤ x ∧ x ≤ 2147483647 then some x else none

/-- The multiply-then-divide loop of `n_choose_k`, for `i = i0, …, k`, as `len` iterations
(`src/common/combo.cpp:58-62`). -/
def nckLoop (n : Int) : Nat → Int → Int → Option Int
  | 0, _, nc => some nc
  | len + 1, i, nc => do
    let m ← asInt32 (nc * (n - i + 1))
    nckLoop n len (i + 1) (m.tdiv i)

/-- `n_choose_k` (`src/common/combo.cpp:36-64`).  The assertions are not compiled in release builds and
are not modelled. -/
def nChooseK (n k : Int) : Option Int :=
  if k ≤ 0 ∨ k = n then some 1
  else if k > n then some 0
  else
    let k' := if k * 2 > n then n - k else k
    nckLoop n (k' - 1).toNat 2 n

/-- The `while (true)` search of `n_choose_k_set`: from `ca`, advance until the sets starting at `ca`
include number `r`; returns the chosen element and the new count `j`
(`src/common/combo.cpp:94-102`).  `fuel` bounds the search; running out means the loop goes on with
elements beyond `n - 1`. -/
def nckSearch (n kk r : Int) : Nat → Int → Int → Option (Int × Int)
  | 0, _, _ => none
  | fuel + 1, ca, j => do
    let nc ← nChooseK (n - (ca + 1 + 1)) kk
    if j + nc ≥ r + 1 then some (ca + 1, j) else nckSearch n kk r fuel (ca + 1) (j + nc)

/-- The elements `ca[i], …, ca[k-1]`, given `ca[i-1] = prev` and the count `j`; `len = k - 1 - i`
(`src/common/combo.cpp:92-104`). -/
def nckElems (n r : Int) : Nat → Int → Int → Option (List Int)
  | 0, prev, j => some [prev + r - j + 1]
  | len + 1, prev, j => do
    let (ca, j') ← nckSearch n (len + 1) r n.toNat prev j
    let rest ← nckElems n r len ca j'
    some (ca :: rest)

/-- `set_bit` (`src/common/combo.hpp:51-55`). -/
def setBit (m : Nat) (i : Int) : Nat := m ||| (1 <<< i.toNat)

/-- `is_bit_set` (`src/common/combo.hpp:45-49`). -/
def isBitSet (m : Nat) (i : Nat) : Bool := (m &&& (1 <<< i)) != 0

/-- `n_choose_k_set` (`src/common/combo.cpp:69-112`).  The local array `ca` has `sizeof(size_t) = 8`
entries, so `k > 8` writes past its end. -/
def nChooseKSet (n k r : Int) : Option Nat :=
  if n ≤ 0 ∨ k ≤ 0 then some 0
  else if k = 1 then some (setBit 0 r)
  else if k > 8 then none
  else (nckElems n r (k - 1).toNat (-1) 0).map fun ca => ca.foldl setBit 0

end Yask
