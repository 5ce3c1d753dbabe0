import Mathlib.Algebra.Field.Basic
import Mathlib.Logic.Function.Basic
import Mathlib.Algebra.Order.Field.Rat

/-!
# Finite-difference coefficients (model)

Models `fd_coeff` (`src/contrib/coefficients/fd_coeff.cpp:54-103`) and the functions of
`src/common/fd_coeff2.cpp:36-75`.

The arithmetic is that of an arbitrary field `F` (the code uses `double`; rounding is not modelled, and
replacing -0 by 0 has no effect in a field).  The three-dimensional work array is the flat buffer of the
code, with the code's index computation; an access outside the buffer is undefined behaviour, which is
the outcome `none`.  Array sizes are unbounded.
-/

namespace Yask.Fd

variable {F : Type*} [Field F]

/-- A read of `d[i]`, `d` having `dsz` elements. -/
def rd (dsz : Nat) (d : Nat → F) (i : Nat) : Option F := if i < dsz then some (d i) else none

/-- `d[i] = x`. -/
def wr (dsz : Nat) (d : Nat → F) (i : Nat) (x : F) : Option (Nat → F) :=
  if i < dsz then some (Function.update d i x) else none

/-- Index of element (m, n, v) (`src/contrib/coefficients/fd_coeff.cpp:59-60,74,82`). -/
def cell (order np m n v : Nat) : Nat := m * ((order + 1) * np) + n * np + v

/-- One iteration of the loop over `m` for `v < n`
(`src/contrib/coefficients/fd_coeff.cpp:73-83`). -/
def stepV (x0 : F) (order : Nat) (pts : Nat → F) (np dsz n v : Nat) (d : Nat → F) (m : Nat) :
    Option (Nat → F) := do
  let a ← rd dsz d (cell order np m (n - 1) v)
  let dval := (pts n - x0) * a
  let dval ← if m > 0 then do
      let b ← rd dsz d (cell order np (m - 1) (n - 1) v)
      pure (dval - (m : F) * b)
    else pure dval
  wr dsz d (cell order np m n v) (dval * (1 / (pts n - pts v)))

/-- One iteration of the loop over `m` for `v = n`
(`src/contrib/coefficients/fd_coeff.cpp:85-94`). -/
def stepN (x0 : F) (order : Nat) (pts : Nat → F) (np dsz n : Nat) (c1 c2 : F) (d : Nat → F) (m : Nat) :
    Option (Nat → F) := do
  let dval ← if m > 0 then do
      let b ← rd dsz d (cell order np (m - 1) (n - 1) (n - 1))
      pure ((m : F) * b)
    else pure 0
  let a ← rd dsz d (cell order np m (n - 1) (n - 1))
  wr dsz d (cell order np m n n) ((dval - (pts (n - 1) - x0) * a) * (c1 / c2))

/-- One iteration of the loop over `n` (`src/contrib/coefficients/fd_coeff.cpp:68-96`); the state is
(`d`, `c1`). -/
def stepLevel (x0 : F) (order : Nat) (pts : Nat → F) (np dsz : Nat) (s : (Nat → F) × F) (n : Nat) :
    Option ((Nat → F) × F) := do
  let (d, c2) ← (List.range n).foldlM (fun (s : (Nat → F) × F) v => do
      let d ← (List.range (min n order + 1)).foldlM (stepV x0 order pts np dsz n v) s.1
      pure (d, s.2 * (pts n - pts v))) (s.1, 1)
  let d ← (List.range (min n order + 1)).foldlM (stepN x0 order pts np dsz n s.2 c2) d
  pure (d, c2)

/-- `fd_coeff` (`src/contrib/coefficients/fd_coeff.cpp:54-103`): the array `coeff`. -/
def fdCoeff (x0 : F) (order : Nat) (pts : List F) : Option (List F) := do
  let np := pts.length
  let dsz := (order + 1) * np * np
  let pt := fun (i : Nat) => pts.getD i 0
  let (d, _) ← (List.range (np - 1)).foldlM (fun s (k : Nat) => stepLevel x0 order pt np dsz s (k + 1))
    (Function.update (fun _ => (0 : F)) 0 1, (1 : F))
  (List.range np).mapM fun (i : Nat) => rd dsz d (cell order np order (np - 1) i)

/-- Result of an API call: a value, an exception, or undefined behaviour. -/
inductive Res (α : Type*)
  | ok (a : α)
  | throws
  | undefined

/-- `get_arbitrary_fd_coefficients` (`src/common/fd_coeff2.cpp:36-46`). -/
def arbitrary (order : Int) (x0 : F) (pts : List F) : Res (List F) :=
  if order < 1 then .throws
  else if pts.length < 2 then .throws
  else match fdCoeff x0 order.toNat pts with
    | some l => .ok l
    | none => .undefined

/-- Points `a, a+1, ..., b` (`for (int i = a; i <= b; i++) pts.push_back(i)`). -/
def intPts (a b : Int) : List F :=
  (List.range (b + 1 - a).toNat).map fun (k : Nat) => ((a + k : Int) : F)

/-- `get_center_fd_coefficients` (`src/common/fd_coeff2.cpp:49-57`). -/
def center (order radius : Int) : Res (List F) :=
  if radius < 1 then .throws else arbitrary order 0 (intPts (-radius) radius)

/-- `get_forward_fd_coefficients` (`src/common/fd_coeff2.cpp:58-65`). -/
def forward (order acc : Int) : Res (List F) :=
  if acc < 1 then .throws else arbitrary order 0 (intPts 0 acc)

/-- `get_backward_fd_coefficients` (`src/common/fd_coeff2.cpp:66-73`). -/
def backward (order acc : Int) : Res (List F) :=
  if acc < 1 then .throws else arbitrary order 0 (intPts (-acc) 0)

end Yask.Fd
