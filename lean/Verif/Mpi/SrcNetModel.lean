import Verif.Compiler.SrcModel
import Verif.Spec.SrcNetSpec

/-!
# Model: vars of the kernel for the vars of the source

The generated code makes one var of the kernel for each var of the source, with the dims in the order of the source
(`print_context`, `src/compiler/lib/YaskKernel.cpp:747-776`).
-/

namespace Yask
open Spec Mpi Var Comp

variable {π V : Type}

/-- The vars of the analyzed solution are stored in the vars of the kernel: `kv` numbers these, `S` says where the vars of the analyzed
solution are in them; dims and names of dims are those of the source (`YaskKernel.cpp:759-770`). -/
structure SrcVarsIn (X : CodeNet) (S : Slices) (kv : EqVar → Nat) (cs : List (CEq π)) (sz : EqVar → Nat) (szv : Nat → Nat) : Prop where
  nv : S.nv = (srcVars cs).length
  at_ : ∀ v k, (srcVars cs)[v]? = some k → S.var v = kv k.1 ∧ S.misc v = k.2 ∧ szv v = sz k.1 ∧ X.names (kv k.1) = k.1.dims.map Prod.fst ∧
    ∀ r < X.P.n, (X.geo r (kv k.1)).dims.map DimG.kind = k.1.dims.map fun d => kindOf d.2

end Yask
