import Verif.Var.ResizeModel

/-!
# Model of the functions that report sizes and indices of vars

The macros `GET_VAR_API` and `GET_VAR_API2` (`src/kernel/lib/yk_var_apis.cpp:35-78`) and their uses
(`src/kernel/lib/yk_var_apis.cpp:137-190`), `check_dim_type()` (`src/kernel/lib/settings.cpp:33-56`), `get_dim_posn()`
(`src/kernel/lib/yk_var.cpp:156-166`) and the masks set in the constructor (`src/kernel/lib/yk_var.cpp:69-94`).

Simplifications. Masks are natural numbers, so that the shift is defined also for more than 62 dims. The assertion that all
values have been set is left out, as in a build for production.
-/

namespace Yask.Var

/-- The dims of the solution: `_step_dim` and `_domain_dims`. -/
structure SolnDims where
  step : String
  domain : List String

/-- A var: the names of its dims and its meta-data. -/
structure NamedVar where
  soln : SolnDims
  names : List String
  g : Geom

/-- The test of the names (`src/kernel/lib/yk_var.cpp:79-90`, `src/kernel/lib/settings.cpp:40-55`). -/
def SolnDims.kind (D : SolnDims) (n : String) : DimKind :=
  if n = D.step then .step else if n ∈ D.domain then .domain else .misc

/-- `_step_dim_mask`, `_num_step_dims` and so on, by kind. -/
structure DimMasks where
  mask : DimKind → Nat
  num : DimKind → Nat

/-- The loop of the constructor. -/
def maskLoop (D : SolnDims) : List String → Nat → DimMasks → DimMasks
  | [], _, M => M
  | n :: ns, i, M => maskLoop D ns (i + 1)
      { mask := fun k => if D.kind n = k then M.mask k ||| (1 <<< i) else M.mask k
        num := fun k => if D.kind n = k then M.num k + 1 else M.num k }

/-- The masks of a var. -/
def NamedVar.masks (v : NamedVar) : DimMasks := maskLoop v.soln v.names 0 ⟨fun _ => 0, fun _ => 0⟩

/-- The functions. -/
inductive SizeGet
  | allocSize | firstLocal | lastLocal | leftPad | rightPad | leftHalo | rightHalo | leftExtraPad | rightExtraPad
  | rankSize | firstRank | lastRank | firstHalo | lastHalo | firstMisc | lastMisc
deriving DecidableEq

/-- `step_ok`, `domain_ok`, `misc_ok` (`src/kernel/lib/yk_var_apis.cpp:137-190`). -/
def SizeGet.okKind : SizeGet → DimKind → Bool
  | .allocSize, _ | .firstLocal, _ | .lastLocal, _ => true
  | .firstMisc, k | .lastMisc, k => decide (k = .misc)
  | _, k => decide (k = .domain)

/-- `expr` (`src/kernel/lib/yk_var_apis.cpp:137-190`, `src/kernel/lib/yk_var.hpp:122-127`). -/
def SizeGet.expr (d : DimG) : SizeGet → Int
  | .allocSize => d.alloc
  | .firstLocal => d.rankOfs + d.localOfs - d.lPad
  | .lastLocal => d.rankOfs + d.localOfs + d.domain + d.rPad - 1
  | .leftPad => d.lPad
  | .rightPad => d.rPad
  | .leftHalo => d.lHalo
  | .rightHalo => d.rHalo
  | .leftExtraPad => d.lPad - d.lHalo
  | .rightExtraPad => d.rPad - d.rHalo
  | .rankSize => d.domain
  | .firstRank => d.rankOfs
  | .lastRank => d.rankOfs + d.domain - 1
  | .firstHalo => d.rankOfs - d.lHalo
  | .lastHalo => d.rankOfs + d.domain + d.rHalo - 1
  | .firstMisc => d.localOfs
  | .lastMisc => d.localOfs + d.domain - 1

/-- `check_dim_type()`. -/
def SolnDims.checkType (D : SolnDims) (dim : String) (okk : DimKind → Bool) : Outcome Unit :=
  if okk .step && okk .domain && okk .misc then .ok ()
  else match D.kind dim with
    | .step => if okk .step then .ok () else .throws
    | .domain => if okk .domain then .ok () else .throws
    | .misc => if okk .misc then .ok () else .throws

/-- The version with a position, which is not checked. -/
def NamedVar.getAt (v : NamedVar) (f : SizeGet) (posn : Nat) : Outcome Int :=
  match v.g.dims[posn]? with
  | some d => .ok (f.expr d)
  | none => .undefined

/-- The version with a name. -/
def NamedVar.getBy (v : NamedVar) (f : SizeGet) (dim : String) : Outcome Int := do
  v.soln.checkType dim f.okKind
  match v.names.findIdx? fun n => decide (n = dim) with
  | some posn => v.getAt f posn
  | none => .throws

/-- The test of the masks (`src/kernel/lib/yk_var_apis.cpp:67-70`). -/
def DimMasks.selects (M : DimMasks) (okk : DimKind → Bool) (posn : Nat) : Bool :=
  (okk .step && decide ((1 <<< posn) &&& M.mask .step ≠ 0)) || (okk .domain && decide ((1 <<< posn) &&& M.mask .domain ≠ 0)) ||
    (okk .misc && decide ((1 <<< posn) &&& M.mask .misc ≠ 0))

/-- The loop of the version for all dims; `at()` throws outside of the vector. -/
def vecLoop (f : SizeGet) (M : DimMasks) : List DimG → (posn i : Nat) → List Int → Outcome (List Int)
  | [], _, _, res => .ok res
  | d :: ds, posn, i, res =>
    if M.selects f.okKind posn then
      if i < res.length then vecLoop f M ds (posn + 1) (i + 1) (res.set i (f.expr d)) else .throws
    else vecLoop f M ds (posn + 1) i res

/-- The version for all dims, with suffix `_vec`. -/
def NamedVar.getVec (v : NamedVar) (f : SizeGet) : Outcome (List Int) :=
  let M := v.masks
  let n := (if f.okKind .step then M.num .step else 0) + (if f.okKind .domain then M.num .domain else 0) +
    (if f.okKind .misc then M.num .misc else 0)
  vecLoop f M v.g.dims 0 0 (List.replicate n 0)

/-- `get_first_valid_step_index()` (`src/kernel/lib/yk_var.hpp:2298-2303`); `_has_step_dim` is set if the first dim is the step dim, which can be
at no other place. -/
def Geom.firstValidStep (g : Geom) : Outcome Int :=
  match g.dims with
  | d :: _ => if d.kind = .step then .ok d.localOfs else .throws
  | [] => .throws

/-- `get_last_valid_step_index()` (`src/kernel/lib/yk_var.hpp:2304-2310`). -/
def Geom.lastValidStep (g : Geom) : Outcome Int :=
  match g.dims with
  | d :: _ => if d.kind = .step then .ok (d.localOfs + d.domain - 1) else .throws
  | [] => .throws

end Yask.Var
