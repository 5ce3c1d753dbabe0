import Verif.Var.ResizeModel

/-!
# Model of the vector-wise slice copies used by halo exchange

`YkVecVar::_copy_vecs_in_slice`, `get_vecs_in_slice` and `set_vecs_in_slice`
(`src/kernel/lib/yk_var.hpp:1889-2108`), on the host.
-/

namespace Yask.Var

variable {V : Type}

/-- Run-time environment: OpenMP settings, number of threads, and an arbitrary order of the vector
copies of one step. -/
structure VecEnv where
  par : ParForEnv
  nthr : Nat
  order : List (Int × Int) → List (Int × Int)

/-- `GenericVar::get_strides` (`generic_var.hpp:413-438`) in dimension `k`: distance from index 0 to 1. -/
def Geom.vecStride (g : Geom) (k : Nat) : Int :=
  let zeros := g.dims.map fun _ => (0 : Int)
  layoutPerm g.layout g.vecAllocs (zeros.set k 1) - layoutPerm g.layout g.vecAllocs zeros

/-- One index in `YkVecVarCore::_get_adj_idx` for normalised indices (`yk_var.hpp:444-470`). -/
def adjNorm (ti : Int) (d : DimG) (vi : Int) : Int :=
  if d.kind = .step then ti else vi + d.vecLPad - d.vecLocalOfs

/-- `get_vec_ptr_norm` (`yk_var.hpp:479-490`), as number of the vector in the storage. -/
def Geom.vecPtrNorm (g : Geom) (vidx : List Int) (ti : Int) : Int :=
  layoutPerm g.layout g.vecAllocs (List.zipWith (adjNorm ti) g.dims vidx)

/-- The dimension of the inner loop (`yk_var.hpp:1944-1960`): `loopPosn` is the position of
`_inner_loop_dim` among the dimensions of the var, if it has it; `same` is `_inner_loop_dim ==
_inner_layout_dim`. -/
def Geom.innerPosn (g : Geom) (loopPosn : Option Nat) (same : Bool) : Nat :=
  match loopPosn with
  | some i => i
  | none => if same then g.dims.length - 1 else if g.hasStep then 1 else 0

/-- Copies of one step (`yk_var.hpp:2006-2028`): (vector in the storage, vector in the buffer). -/
def Geom.vecStepVisits (g : Geom) (env : VecEnv) (firstv range : List Int) (ni si ti tofs : Int) :
    List (Int × Int) :=
  (parallelVisitsIndices env.par env.nthr false range).flatMap fun v =>
    let vp := g.vecPtrNorm (List.zipWith (· + ·) firstv v.1) ti
    (List.range ni.toNat).map fun (i : Nat) => (vp + i * si, tofs + v.2 * ni + i)

/-- `_copy_vecs_in_slice` (`yk_var.hpp:1889-2038`); `body` is `Visitor::do_copy`.  Without storage, or
if the inner-loop position is not a dimension of the var, the behaviour is undefined. -/
def copyVecs {σ : Type} (v : YVar V) (env : VecEnv) (loopPosn : Option Nat) (same : Bool)
    (first last : List Int) (body : σ → Int × Int → Outcome σ) (s : σ) : Outcome (σ × Int) :=
  if v.mem.isNone then .undefined
  else do
    let f ← v.g.checkIndices first true false true
    let l ← v.g.checkIndices last true false true
    let range := sliceRange f.2 l.2
    let nv := prodVals range
    if nv < 1 then pure (s, 0)
    else
      let r1 := if v.g.hasStep then range.set 0 1 else range
      let tsz := prodVals r1
      let ip := v.g.innerPosn loopPosn same
      if v.g.dims.length ≤ ip then .undefined
      else do
        let ni := r1.getD ip 0
        let r2 := r1.set ip 1
        let si := v.g.vecStride ip
        let ft := if v.g.hasStep then f.2.getD 0 0 else 0
        let lt := if v.g.hasStep then l.2.getD 0 0 else 0
        let s ← (List.range (lt + 1 - ft).toNat).foldlM (fun s (k : Nat) => do
          let ti ← if v.g.hasStep then v.g.wrapStep (ft + k) else .ok 0
          let fv := if v.g.hasStep then f.2.set 0 (ft + k) else f.2
          (env.order (v.g.vecStepVisits env fv r2 ni si ti (k * tsz))).foldlM body s) s
        pure (s, nv * v.g.elemReals)

/-- Number of vectors in the storage. -/
def Geom.numVecs (g : Geom) : Int := prodVals g.vecAllocs

/-- Overwrite the `n` reals of block `a`. -/
def blockPoke (n : Int) (m : Int → V) (a : Int) (w : Int → V) : Int → V :=
  fun b => if a * n ≤ b ∧ b < a * n + n then w (b - a * n) else m b

/-- `GetVec::do_copy` (`yk_var.hpp:2096-2106`): a whole vector is copied to the buffer, which has room
for `bufVecs` vectors. -/
def getVecBody (g : Geom) (m : Int → V) (bufVecs : Int) (buf : Int → V) (x : Int × Int) :
    Outcome (Int → V) :=
  if 0 ≤ x.1 ∧ x.1 < g.numVecs ∧ 0 ≤ x.2 ∧ x.2 < bufVecs then
    .ok (blockPoke g.elemReals buf x.2 fun j => m (x.1 * g.elemReals + j))
  else .undefined

/-- `SetVec::do_copy` (`yk_var.hpp:2056-2066`). -/
def setVecBody (g : Geom) (buf : Int → V) (bufVecs : Int) (m : Int → V) (x : Int × Int) :
    Outcome (Int → V) :=
  if 0 ≤ x.1 ∧ x.1 < g.numVecs ∧ 0 ≤ x.2 ∧ x.2 < bufVecs then
    .ok (blockPoke g.elemReals m x.1 fun j => buf (x.2 * g.elemReals + j))
  else .undefined

/-- `get_vecs_in_slice` (`yk_var.hpp:2086-2122`). -/
def getVecs (v : YVar V) (env : VecEnv) (loopPosn : Option Nat) (same : Bool) (buf : Int → V)
    (bufVecs : Int) (first last : List Int) : Outcome ((Int → V) × Int) :=
  match v.mem with
  | none => .undefined
  | some m => copyVecs v env loopPosn same first last (getVecBody v.g m bufVecs) buf

/-- `set_vecs_in_slice` (`yk_var.hpp:2045-2083`). -/
def setVecs (v : YVar V) (env : VecEnv) (loopPosn : Option Nat) (same : Bool) (buf : Int → V)
    (bufVecs : Int) (first last : List Int) : Outcome (YVar V × Int) :=
  match v.mem with
  | none => .undefined
  | some m => do
    let r ← copyVecs v env loopPosn same first last (setVecBody v.g buf bufVecs) m
    pure (⟨v.g.setDirtyInSlice first last, some r.1⟩, r.2)

end Yask.Var
