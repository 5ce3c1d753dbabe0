import Verif.Loops.LoopModel

/-!
# Model of the generated layout classes (`utils/bin/gen_layouts.pl -d`)

`Layout_<p>` for a permutation `p` of `1..n` stores the dimensions in the order `p`, the last one with
unit stride.  Here `p` is 0-based.
-/

namespace Yask

/-- Read the entries of `l` at the positions `p` (the perl lists `@jvars`, `@dvars`,
`utils/bin/gen_layouts.pl:147-150`). -/
def gather (p : List Nat) (l : List Int) : List Int := p.map fun k => l.getD k 0

/-- The sum emitted by `makeLayout`: each index times the product of the sizes after it
(`utils/bin/gen_layouts.pl:66-80`). -/
def layoutSum : List Int → List Int → Int
  | _ :: ds, j :: js => j * prodVals ds + layoutSum ds js
  | _, _ => 0

/-- `Layout_<p>::layout` (`utils/bin/gen_layouts.pl:168-171`). -/
def layoutPerm (p : List Nat) (sizes j : List Int) : Int := layoutSum (gather p sizes) (gather p j)

/-- The assignments emitted by `makeUnlayout`, in order: `j[p_i] = ai / (product of higher sizes) %
size`, with no division for the last and no modulo for the first
(`utils/bin/gen_layouts.pl:83-103`).  The values are those of `flatIndices`. -/
def scatter : List Nat → List Int → List Int → List Int
  | k :: ks, v :: vs, j => scatter ks vs (j.set k v)
  | _, _, j => j

/-- `Layout_<p>::unlayout` (`utils/bin/gen_layouts.pl:173-178`): `Indices j(_sizes)` and then the
assignments. -/
def unlayoutPerm (p : List Nat) (sizes : List Int) (ai : Int) : List Int :=
  scatter p (flatIndices true (gather p sizes) ai) sizes

end Yask
