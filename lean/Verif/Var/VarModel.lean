import Verif.Common.Outcome
import Verif.Common.TupleModel
import Verif.Loops.LayoutModel

/-!
# Model of a YASK var: geometry, addressing and element access

Models `src/kernel/lib/yk_var.hpp`, `yk_var.cpp`, `yk_var_apis.cpp` and the parts of
`generic_var.hpp` they use.

Simplifications common to the whole file: `idx_t` is the unbounded `Int`; `real_t` is an arbitrary
type `V` (conversions between `float` and `double` are the identity); one host thread calls the API
(the slice operations themselves run in parallel); copies to and from an offload device and the halo
"dirty" flags are not part of the state (see the coherency and halo models); a dimension is
identified by its position.
-/

namespace Yask.Var

/-- Kind of a var dimension (`_step_dim_mask`, `_domain_dim_mask`, `_misc_dim_mask`,
`src/kernel/lib/yk_var.cpp:69-94`). -/
inductive DimKind
  | step | domain | misc
  deriving DecidableEq, Repr

/-- The per-dimension entries of `YkVarBaseCore` (`src/kernel/lib/yk_var.hpp:87-116`), initialised as
by its constructor (`yk_var.cpp:34-58`). -/
structure DimG where
  kind : DimKind
  /-- `_domains` -/
  domain : Int := 0
  /-- `_req_left_pads`, `_req_right_pads` -/
  reqLPad : Int := 0
  reqRPad : Int := 0
  /-- `_req_left_epads`, `_req_right_epads` -/
  reqLEpad : Int := 0
  reqREpad : Int := 0
  /-- `_actl_left_pads`, `_actl_right_pads` -/
  lPad : Int := 0
  rPad : Int := 0
  /-- `_left_halos`, `_right_halos` -/
  lHalo : Int := 0
  rHalo : Int := 0
  /-- `_left_wf_exts`, `_right_wf_exts` -/
  lExt : Int := 0
  rExt : Int := 0
  /-- `_rank_offsets`, `_local_offsets` -/
  rankOfs : Int := 0
  localOfs : Int := 0
  /-- `_allocs` -/
  alloc : Int := 0
  /-- `_soln_vec_lens`, `_var_vec_lens` -/
  solnVL : Int := 1
  varVL : Int := 1
  /-- `_vec_left_pads`, `_vec_allocs`, `_vec_local_offsets` -/
  vecLPad : Int := 0
  vecAlloc : Int := 0
  vecLocalOfs : Int := 0
  /-- `get_dim_name(i) == inner_layout_dim` (`yk_var.cpp:295-297`) -/
  isInner : Bool := false
  deriving DecidableEq, Repr

/-- `get_first_local_index` (`src/kernel/lib/yk_var.hpp:117-119`). -/
def DimG.firstLocal (d : DimG) : Int := d.rankOfs + d.localOfs - d.lPad

/-- `get_last_local_index` (`src/kernel/lib/yk_var.hpp:120-122`). -/
def DimG.lastLocal (d : DimG) : Int := d.rankOfs + d.localOfs + d.domain + d.rPad - 1

/-- The meta-data of a var: the core and the compile-time facts about its class. -/
structure Geom where
  dims : List DimG
  /-- `YkVecVar` (true) or `YkElemVar` (false) -/
  isVec : Bool
  /-- permutation of the class `LayoutFn`, 0-based -/
  layout : List Nat
  /-- `_vec_fold_posns` (`yk_var.hpp:302`) -/
  foldPosns : List Nat := []
  /-- lengths of the folded dimensions, `_dims._fold_gt1` (`src/compiler/lib/YaskKernel.cpp:170-215`) -/
  foldLens : List Int := []
  /-- `_fold_gt1.is_first_inner()` -/
  foldFirstInner : Bool := true
  /-- `actl_opts->_step_wrap` -/
  stepWrap : Bool := false
  /-- `VLEN > 1` (`yk_var.cpp:285`) -/
  vlenGt1 : Bool := false
  /-- `actl_opts->_allow_addl_pad` (`yk_var.cpp:294`) -/
  allowAddlPad : Bool := false
  /-- `_dirty_steps[self].size()` -/
  numDirty : Int := 0
  deriving DecidableEq, Repr

/-- `_has_step_dim` (`yk_var.hpp:1503,1710`): the step dimension, if used, is at position
`step_posn` = 0 (`yk_var.hpp:635-637`). -/
def Geom.hasStep (g : Geom) : Bool :=
  match g.dims with
  | d :: _ => d.kind == .step
  | [] => false

/-- `_domains[step_posn]`. -/
def Geom.stepSize (g : Geom) : Int :=
  match g.dims with
  | d :: _ => d.domain
  | [] => 0

/-- Permutation of `VEC_FOLD_LAYOUT`: `321` or `123` (`src/compiler/lib/YaskKernel.cpp:189-197`). -/
def Geom.foldPerm (g : Geom) : List Nat :=
  if g.foldFirstInner then (List.range g.foldLens.length).reverse else List.range g.foldLens.length

/-- Number of reals in one storage element: `VLEN` for a vector var, 1 for a scalar one. -/
def Geom.elemReals (g : Geom) : Int := if g.isVec then prodVals g.foldLens else 1

/-- Sizes of the underlying `GenericVar` (`set_dim_size`, `yk_var.cpp:348`). -/
def Geom.vecAllocs (g : Geom) : List Int := g.dims.map DimG.vecAlloc

/-- Number of reals in the storage: `get_num_elems()` times the reals per element
(`generic_var.hpp:170-172,262-264`). -/
def Geom.numReals (g : Geom) : Int := prodVals g.vecAllocs * g.elemReals

/-- `_wrap_step` (`yk_var.hpp:126-145`); the floored modulo divides by the step allocation. -/
def Geom.wrapStep (g : Geom) (t : Int) : Outcome Int :=
  if g.stepSize = 0 then .undefined else .ok (imodFlr t g.stepSize)

/-- `get_alloc_step_index` (`yk_var.hpp:851-853`). -/
def Geom.allocStepIndex (g : Geom) (idxs : List Int) : Outcome Int :=
  if g.hasStep then g.wrapStep (idxs.getD 0 0) else .ok 0

/-- One index in `YkElemVarCore::_get_adj_idx<true>` (`yk_var.hpp:171-205`). -/
def adjElem (ti : Int) (d : DimG) (idx : Int) : Int :=
  if d.kind = .step then ti else idx + d.lPad - d.localOfs - d.rankOfs

/-- `YkElemVarCore::get_elem_ptr` (`yk_var.hpp:207-232`), as offset from the start of the storage. -/
def Geom.elemAddrScalar (g : Geom) (idxs : List Int) (ti : Int) : Outcome Int :=
  .ok (layoutPerm g.layout g.vecAllocs (List.zipWith (adjElem ti) g.dims idxs))

/-- One index in `YkVecVarCore::_get_adj_idx` (`yk_var.hpp:316-358`): vector index and offset in the
vector.  A negative local index becomes a huge unsigned number: undefined in the model. -/
def adjVec (ti : Int) (d : DimG) (idx : Int) : Outcome (Int × Int) :=
  if d.kind = .step then .ok (ti, 0)
  else
    let ai := idx + d.lPad - (d.rankOfs + d.localOfs)
    if ai < 0 then .undefined else .ok (ai / d.varVL, ai % d.varVL)

/-- `YkVecVarCore::_get_adj_idx` over all dimensions. -/
def adjVecs (ti : Int) : List DimG → List Int → Outcome (List (Int × Int))
  | d :: ds, i :: is => do
    let p ← adjVec ti d i
    let ps ← adjVecs ti ds is
    pure (p :: ps)
  | _, _ => .ok []

/-- `YkVecVarCore::get_elem_ptr` (`yk_var.hpp:377-411`), as offset in reals. -/
def Geom.elemAddrVec (g : Geom) (idxs : List Int) (ti : Int) : Outcome Int := do
  let ps ← adjVecs ti g.dims idxs
  let vecIdxs := ps.map Prod.fst
  let elemOfs := ps.map Prod.snd
  let foldOfs := g.foldPosns.map fun j => elemOfs.getD j 0
  let i := layoutPerm g.foldPerm g.foldLens foldOfs
  pure (layoutPerm g.layout g.vecAllocs vecIdxs * g.elemReals + i)

/-- `get_elem_ptr` of the var's class. -/
def Geom.elemAddr (g : Geom) (idxs : List Int) (ti : Int) : Outcome Int :=
  if g.isVec then g.elemAddrVec idxs ti else g.elemAddrScalar idxs ti

/-- One dimension of `check_indices` (`yk_var.cpp:507-545`): whether the index is allowed, and the
clipped index. -/
def checkDim (stepWrap checkStep : Bool) (d : DimG) (idx : Int) : Bool × Int :=
  if d.kind = .step ∧ (!checkStep || stepWrap) = true then (true, idx)
  else if d.firstLocal ≤ idx ∧ idx ≤ d.lastLocal then (true, idx)
  else
    let c := if idx < d.firstLocal then d.firstLocal else idx
    (false, if idx > d.lastLocal then d.lastLocal else c)

/-- Normalisation in `check_indices` (`yk_var.cpp:547-553`). -/
def normDim (d : DimG) (c : Int) : Int :=
  if d.kind = .domain then idivFlr (c - d.rankOfs) d.varVL else c

/-- `check_indices` (`yk_var.cpp:484-556`): whether all indices are in range, and the clipped
(and normalised) indices. -/
def Geom.checkIndices (g : Geom) (idxs : List Int) (strict checkStep normalize : Bool) :
    Outcome (Bool × List Int) :=
  if idxs.length ≠ g.dims.length then .throws
  else
    let rs := List.zipWith (checkDim g.stepWrap checkStep) g.dims idxs
    let allOk := rs.all Prod.fst
    if strict && !allOk then .throws
    else
      let cs := rs.map Prod.snd
      .ok (allOk, if normalize then List.zipWith normDim g.dims cs else cs)

/-- A var: meta-data and storage (`none` until allocated). -/
structure YVar (V : Type) where
  g : Geom
  mem : Option (Int → V)

variable {V : Type}

/-- Read of one real of the storage; outside the storage is undefined. -/
def rdMem (g : Geom) (m : Int → V) (a : Int) : Outcome V :=
  if 0 ≤ a ∧ a < g.numReals then .ok (m a) else .undefined

/-- Write of one real of the storage. -/
def wrMem (g : Geom) (m : Int → V) (a : Int) (val : V) : Outcome (Int → V) :=
  if 0 ≤ a ∧ a < g.numReals then .ok (fun b => if b = a then val else m b) else .undefined

/-- `read_elem` (`yk_var.hpp:253-258,425-430`). -/
def readElem (g : Geom) (m : Int → V) (idxs : List Int) (ti : Int) : Outcome V := do
  let a ← g.elemAddr idxs ti
  rdMem g m a

/-- `write_elem` (`yk_var.hpp:262-268,434-440`). -/
def writeElem (g : Geom) (m : Int → V) (val : V) (idxs : List Int) (ti : Int) :
    Outcome (Int → V) := do
  let a ← g.elemAddr idxs ti
  wrMem g m a val

/-- `are_indices_local` (`yk_var_apis.cpp:368-372`). -/
def areIndicesLocal (v : YVar V) (idxs : List Int) : Outcome Bool :=
  match v.mem with
  | none => .ok false
  | some _ => do
    let r ← v.g.checkIndices idxs false true false
    pure r.1

/-- `get_element` (`yk_var_apis.cpp:373-391`). -/
def getElement (v : YVar V) (idxs : List Int) : Outcome V :=
  match v.mem with
  | none => .throws
  | some m => do
    let _ ← v.g.checkIndices idxs true true false
    let asi ← v.g.allocStepIndex idxs
    readElem v.g m idxs asi

/-- `set_element` (`yk_var_apis.cpp:392-421`): the new var and the number of elements set. -/
def setElement (v : YVar V) (val : V) (idxs : List Int) (strict : Bool) : Outcome (YVar V × Nat) :=
  match v.mem with
  | none => .throws
  | some m => do
    let r ← v.g.checkIndices idxs strict false false
    if r.1 then do
      let asi ← v.g.allocStepIndex idxs
      let m' ← writeElem v.g m val idxs asi
      pure ({ v with mem := some m' }, 1)
    else pure (v, 0)

/-- `add_to_element` (`yk_var_apis.cpp:422-456`, `yk_var.hpp:1054-1068`). -/
def addToElement [Add V] (v : YVar V) (val : V) (idxs : List Int) (strict : Bool) :
    Outcome (YVar V × Nat) :=
  match v.mem with
  | none => if strict then .throws else .ok (v, 0)
  | some m => do
    let r ← v.g.checkIndices idxs strict true false
    if r.1 then do
      let asi ← v.g.allocStepIndex idxs
      let x ← readElem v.g m idxs asi
      let m' ← writeElem v.g m (x + val) idxs asi
      pure ({ v with mem := some m' }, 1)
    else pure (v, 0)

/-- `set_all_elements_same` (`yk_var.hpp:1540-1546,1774-1781`, `generic_var.cpp:139-166`): every real
of the storage is set (`yask_parallel_for` from 0 covers the elements exactly once, C36); no effect
without storage. -/
def setAllSame (v : YVar V) (val : V) : YVar V :=
  match v.mem with
  | none => v
  | some m => { v with mem := some fun a => if 0 ≤ a ∧ a < v.g.numReals then val else m a }

/-- `update_valid_step` (`yk_var.cpp:559-573`). -/
def Geom.updateValidStep (g : Geom) (t : Int) : Geom :=
  match g.dims with
  | d :: ds =>
    if d.kind = .step then
      if t < d.firstLocal then { g with dims := { d with localOfs := t } :: ds }
      else if t > d.lastLocal then { g with dims := { d with localOfs := t - d.domain + 1 } :: ds }
      else g
    else g
  | [] => g

/-- `set_dirty_in_slice` (`yk_var.cpp:577-585`), its effect on the valid steps: `set_dirty(self, true,
i)` calls `update_valid_step(i)` for each step of the slice (`yk_var.cpp:127-144`).  `idxs.getD 0`
reads the step index. -/
def Geom.setDirtyInSlice (g : Geom) (first last : List Int) : Geom :=
  if g.hasStep then
    (List.range (last.getD 0 0 + 1 - first.getD 0 0).toNat).foldl
      (fun g (k : Nat) => g.updateValidStep (first.getD 0 0 + k)) g
  else g

/-! ## Slices -/

/-- The run-time environment of a slice operation: OpenMP settings, the number of threads, and an
arbitrary order of the element visits of one step (they run concurrently). -/
structure SliceEnv where
  par : ParForEnv
  nthr : Nat
  order : List (List Int × Int × Int) → List (List Int × Int × Int)

/-- `get_slice_range` (`yk_var.hpp:735-743`). -/
def sliceRange (first last : List Int) : List Int :=
  List.zipWith (fun f l => max 0 (l + 1 - f)) first last

/-- Add to the last index (`pt[ip]++` repeated `i` times, `yk_var.hpp:1178-1180`). -/
def bumpLast (pt : List Int) (i : Int) : List Int :=
  match pt.getLast? with
  | some x => pt.dropLast ++ [x + i]
  | none => pt

/-- Visits of one step of `_visit_elements_in_slice` (`yk_var.hpp:1152-1186`): (point, step slot,
offset in buffer).  `ni` and `range` as computed at lines 1131-1141. -/
def stepVisits (env : SliceEnv) (start range : List Int) (ni ti tofs : Int) :
    List (List Int × Int × Int) :=
  (parallelVisitsIndices env.par env.nthr false range).flatMap fun v =>
    (List.range ni.toNat).map fun (i : Nat) =>
      (bumpLast (List.zipWith (· + ·) start v.1) i, ti, tofs + v.2 * ni + i)

/-- The inner-loop split of `_visit_elements_in_slice` (`yk_var.hpp:1129-1141`): number of inner
iterations and remaining range. -/
def innerSplit (nthr : Nat) (ndimsLeft : Nat) (range : List Int) (tsz : Int) : Int × List Int :=
  if ndimsLeft = 0 then (1, range)
  else
    let ri := range.getLastD 1
    let osz := tsz.tdiv ri
    if osz ≥ nthr then (ri, range.dropLast ++ [1]) else (1, range)

/-- `_visit_elements_in_slice` (`yk_var.hpp:1081-1207`), on the host.  `body` is `Visitor::visit`.
The visits of one step are performed in an arbitrary order (`env.order`); the steps one after the
other. -/
def visitSlice {σ : Type} (v : YVar V) (env : SliceEnv) (strict : Bool) (bufSize : Int)
    (first last : List Int) (body : σ → List Int × Int × Int → Outcome σ) (s : σ) :
    Outcome (σ × Int) :=
  if v.mem.isNone then .throws
  else do
    let f ← v.g.checkIndices first strict true false
    let l ← v.g.checkIndices last strict true false
    let range := sliceRange f.2 l.2
    let ne := prodVals range
    if ne ≤ 0 then pure (s, 0)
    else if bufSize < ne then .throws
    else
      let n := v.g.dims.length
      if v.g.hasStep then do
        let range := range.set 0 1
        let tsz := prodVals range
        let sp := innerSplit env.nthr (n - 1) range tsz
        let ft := f.2.getD 0 0
        let lt := l.2.getD 0 0
        let s ← (List.range (lt + 1 - ft).toNat).foldlM (fun s (k : Nat) => do
          let ti ← v.g.wrapStep (ft + k)
          (env.order (stepVisits env (f.2.set 0 (ft + k)) sp.2 sp.1 ti (k * tsz))).foldlM body s) s
        pure (s, ne)
      else do
        let tsz := prodVals range
        let sp := innerSplit env.nthr n range tsz
        let s ← (env.order (stepVisits env f.2 sp.2 sp.1 0 0)).foldlM body s
        pure (s, ne)

/-- `SetElem::visit` of `_set_elements_in_slice` (`yk_var.hpp:1262-1275`).  Reading outside the
buffer is undefined. -/
def setBody (g : Geom) (buf : Int → V) (bufSize : Int) (m : Int → V) (x : List Int × Int × Int) :
    Outcome (Int → V) :=
  if 0 ≤ x.2.2 ∧ x.2.2 < bufSize then writeElem g m (buf x.2.2) x.1 x.2.1 else .undefined

/-- `SetElem::visit` of `_set_elements_in_slice_same` (`yk_var.hpp:1310-1326`): no buffer. -/
def setSameBody (g : Geom) (val : V) (m : Int → V) (x : List Int × Int × Int) :
    Outcome (Int → V) :=
  writeElem g m val x.1 x.2.1

/-- `set_elements_in_slice` (`yk_var.hpp:1250-1301`); `buf` is the contents of the buffer, whose
size is `bufSize`. -/
def setSlice (v : YVar V) (env : SliceEnv) (buf : Int → V) (bufSize : Int) (first last : List Int) :
    Outcome (YVar V × Int) :=
  match v.mem with
  | none => .throws
  | some m => do
    let r ← visitSlice v env true bufSize first last (setBody v.g buf bufSize) m
    pure (⟨v.g.setDirtyInSlice first last, some r.1⟩, r.2)

/-- `set_elements_in_slice_same` (`yk_var.hpp:1304-1347`). -/
def setSliceSame (v : YVar V) (env : SliceEnv) (val : V) (first last : List Int) (strict : Bool)
    (idxMax : Int) : Outcome (YVar V × Int) :=
  match v.mem with
  | none => .throws
  | some m => do
    let r ← visitSlice v env strict idxMax first last (setSameBody v.g val) m
    pure (⟨v.g.setDirtyInSlice first last, some r.1⟩, r.2)

/-- `GetElem::visit` of `_get_elements_in_slice` (`yk_var.hpp:1216-1238`); the state is the buffer. -/
def getBody (g : Geom) (m : Int → V) (bufSize : Int) (buf : Int → V) (x : List Int × Int × Int) :
    Outcome (Int → V) := do
  let val ← readElem g m x.1 x.2.1
  if 0 ≤ x.2.2 ∧ x.2.2 < bufSize then pure fun k => if k = x.2.2 then val else buf k
  else .undefined

/-- `get_elements_in_slice` (`yk_var.hpp:1209-1248`): the contents of the buffer and the number of
elements. -/
def getSlice (v : YVar V) (env : SliceEnv) (buf : Int → V) (bufSize : Int) (first last : List Int) :
    Outcome ((Int → V) × Int) :=
  match v.mem with
  | none => .throws
  | some m => visitSlice v env true bufSize first last (getBody v.g m bufSize) buf

end Yask.Var
