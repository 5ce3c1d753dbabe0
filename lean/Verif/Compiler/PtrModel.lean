import Verif.Spec.CppSpec
import Verif.Var.VecSliceModel
import Verif.Var.AddrLemmas

/-!
# Model of the pointers and buffers of the generated inner loop

`CppVecPrintHelper` (`src/compiler/lib/Cpp.cpp:86-1157`): the code printed before, in and at the end of the inner loop of
`calc_vectors` (`YaskKernel.cpp:590-719`) to load and store aligned vectors of a var, and the unaligned loads (`Cpp.cpp:1097-1113`).

Simplifications.
* One var: pointers, strides and buffers of different vars have different keys and names. All points have simple offsets in the
  domain dims and constants in the misc dims, and the var has the inner-loop dim (`INNER_LOOP_OFFSET`, `Eqs.cpp:307-315`).
* Instead of text, the functions give the values that the printed expressions have; a pointer is the number of a vector in the storage,
  which may be outside of it (C++ does not allow such pointers).
* `VLEN_X` and `_fold_gt1` are the fold length of a dim, 1 if it is not folded.
* Within an iteration, memory does not change; from iteration to iteration it may (other threads write to parts of vectors that are
  not used). Prefetches and the checks with `host_assert` are not modelled.
-/

namespace Yask.Comp
open Var

/-- What the compiler knows of a dim of a var: type, fold length, `get_min_indices` and `get_max_indices` (for misc dims). -/
structure CDim where
  kind : DimKind
  fold : Int
  minIdx : Int
  maxIdx : Int

/-- What the compiler knows of a var: dims, positions of the dims in layout order, `is_scratch`, positions of the inner-loop and the
inner-layout dim. -/
structure CVar where
  dims : List CDim
  layout : List Nat
  scratch : Bool
  loopPosn : Nat
  layoutPosn : Nat

/-- `_use_ptrs`, `_use_offsets`, `_use_many_ptrs`, `_inner_misc`, `_min_buffer_len` (`Settings.hpp:45-66`). -/
structure PtrOpts where
  usePtrs : Bool
  useOffsets : Bool
  manyPtrs : Bool
  innerMisc : Bool
  minBufLen : Int

/-- A dim by position. -/
def CVar.dim (v : CVar) (k : Nat) : CDim := v.dims.getD k ⟨.step, 1, 0, 0⟩

/-- The args of a point: offset in the step dim and in domain dims (in elements), constant in misc dims. -/
abbrev PtArgs := List Int

/-- The dims after dim `k` in layout order (`dfound`, `Cpp.cpp:271-302`). -/
def CVar.after (v : CVar) (k : Nat) : List Nat := (v.layout.dropWhile (· ≠ k)).tail

/-- The stride that is known to the compiler, if any (`Cpp.cpp:266-309`). -/
def CVar.fixedStride (v : CVar) (o : PtrOpts) (k : Nat) : Option Int :=
  if (v.after k).all fun j => (v.dim j).kind == .misc && o.innerMisc then
    some (prodVals ((v.after k).map fun j => (v.dim j).maxIdx - (v.dim j).minIdx + 1))
  else none

/-- The value of the stride variable (`Cpp.cpp:260-313`). -/
def CVar.stride (v : CVar) (o : PtrOpts) (g : Geom) (k : Nat) : Int :=
  match v.fixedStride o k with
  | some s => s
  | none => g.vecStride k

/-- The value of the offset variable of a dim that is not the step dim (`Cpp.cpp:318-360`). -/
def CVar.ofs (v : CVar) (o : PtrOpts) (g : Geom) (k : Nat) : Int :=
  let d := g.dims.getD k { kind := .step }
  match (v.dim k).kind with
  | .misc => (v.dim k).minIdx
  | _ => (if v.scratch && (v.dim k).kind == .domain then d.localOfs else 0) - if o.useOffsets then d.lPad else 0

/-- `_ptr_ofs` (`Cpp.cpp:232-236`, `365-372`). -/
def CVar.ptrOfs (v : CVar) (o : PtrOpts) (g : Geom) : Int :=
  ((List.range v.dims.length).map fun k =>
    if (v.dim k).kind = .step then 0 else -(v.ofs o g k * v.stride o g k)).sum

/-- The var-base pointer of a step slot (`make_var_base_point`, `Cpp.cpp:125-144`; `print_var_base_ptr`, `177-218`). -/
def CVar.varBase (v : CVar) (o : PtrOpts) (g : Geom) (ti : Int) : Int :=
  g.vecPtrNorm ((List.range v.dims.length).map (v.ofs o g)) ti

/-- `use_domain` (`Cpp.cpp:155-156`, `765-766`). -/
def CVar.useDomain (v : CVar) (o : PtrOpts) (k : Nat) : Bool :=
  (v.dim k).kind == .domain && (!o.manyPtrs || k == v.layoutPosn)

/-- `make_inner_loop_base_point` (`Cpp.cpp:146-175`). -/
def CVar.basePt (v : CVar) (o : PtrOpts) (p : PtArgs) : PtArgs :=
  (List.range v.dims.length).map fun k =>
    if v.useDomain o k then 0
    else if (v.dim k).kind = .misc then (v.dim k).minIdx
    else p.getD k 0

/-- The value of `make_norm_arg_str` of a dim (`VarPoint.cpp:157-189`, `Settings.cpp:324-353`), if the loop indices are `idx`. -/
def CVar.normArg (v : CVar) (idx : List Int) (p : PtArgs) (k : Nat) : Int :=
  match (v.dim k).kind with
  | .misc => p.getD k 0
  | _ => idx.getD k 0 + (p.getD k 0).tdiv (v.dim k).fold

/-- `get_var_base_ptr_offset` (`Cpp.cpp:694-743`), for a point that is `VEC_FULL`. -/
def CVar.baseOfs (v : CVar) (o : PtrOpts) (g : Geom) (idx : List Int) (p : PtArgs) : Int :=
  v.ptrOfs o g + (v.layout.map fun k =>
    if (v.dim k).kind = .step then 0 else v.normArg idx p k * v.stride o g k).sum

/-- `get_inner_loop_ptr_offset` (`Cpp.cpp:745-817`). -/
def CVar.innerOfs (v : CVar) (o : PtrOpts) (g : Geom) (p : PtArgs) : Int :=
  (v.layout.map fun k =>
    if v.useDomain o k then (p.getD k 0).tdiv (v.dim k).fold * v.stride o g k
    else if (v.dim k).kind = .misc then (p.getD k 0 - (v.dim k).minIdx) * v.stride o g k
    else 0).sum

/-- The step slot of a point (`make_step_arg_str`, `VarPoint.cpp:209-233`): with a fixed number of allocated steps it is computed
by the generated code. -/
def stepSlot (g : Geom) (dynamic : Bool) (alloc t : Int) : Outcome Int :=
  if g.hasStep then
    if dynamic then g.wrapStep t else if alloc = 1 then .ok 0 else .ok (imodFlr t alloc)
  else .ok 0

/-! ### Buffers -/

/-- The point without offset in the inner-loop dim (`Cpp.cpp:460-467`). -/
def CVar.key (v : CVar) (p : PtArgs) : PtArgs := p.set v.loopPosn 0

/-- Offset in the inner-loop dim in vectors (`Cpp.cpp:452-458`, `925-929`). -/
def CVar.vofs (v : CVar) (p : PtArgs) : Int := (p.getD v.loopPosn 0).tdiv (v.dim v.loopPosn).fold

/-- Entries of `_pt_inner_loop_lo`, `_pt_inner_loop_hi` and `_pt_buf_len`. -/
structure PtStats where
  lo : Int
  hi : Int
  len : Option Int

/-- One pass of the loop of `get_point_stats` (`Cpp.cpp:469-490`), for one key. -/
def CVar.addStats (v : CVar) (o : PtrOpts) (key : PtArgs) (s : Option PtStats) (p : PtArgs) : Option PtStats :=
  if v.key p = key then
    let lo := match s with | some s => min s.lo (v.vofs p) | none => v.vofs p
    let hi := match s with | some s => max s.hi (v.vofs p) | none => v.vofs p
    some ⟨lo, hi, if max o.minBufLen 1 ≤ hi - lo then some (hi - lo) else s.bind (·.len)⟩
  else s

/-- `get_point_stats` (`Cpp.cpp:420-493`). -/
def CVar.stats (v : CVar) (o : PtrOpts) (reads : List PtArgs) (key : PtArgs) : Option PtStats :=
  reads.foldl (v.addStats o key) none

/-! ### The loop -/

/-- State in the inner loop: indices, pointers (`_inner_loop_base_ptrs`), and buffers by key (`none`: not set). -/
structure InnerSt (W : Type) where
  idx : List Int
  ptrs : List (PtArgs × Int)
  bufs : PtArgs → Int → Option W

section
variable {W : Type} (v : CVar) (o : PtrOpts) (g : Geom) (slot : Int → Int) (reads writes : List PtArgs)

/-- Step slot of a point. -/
def CVar.slotOf (p : PtArgs) : Int := slot (if (v.dim 0).kind = .step then p.getD 0 0 else 0)

/-- Address from a call of `get_vec_ptr_norm` (`make_point_call_vec`, `Cpp.cpp:88-123`). -/
def CVar.callAddr (idx : List Int) (p : PtArgs) : Int :=
  g.vecPtrNorm ((List.range v.dims.length).map (v.normArg idx p)) (v.slotOf slot p)

/-- Address of an aligned vector: from a pointer if there is one (`Cpp.cpp:944-976`, `998-1004`, `1121-1156`), otherwise from a call. -/
def CVar.addr (st : InnerSt W) (p : PtArgs) : Int :=
  match st.ptrs.lookup (v.basePt o p) with
  | some a => a + v.innerOfs o g p
  | none => v.callAddr g slot st.idx p

/-- `print_inner_loop_prefix` (`Cpp.cpp:375-418`); all var-base pointers exist (`Cpp.cpp:1265-1266`). -/
def CVar.initPtrs (idx : List Int) : List (PtArgs × Int) :=
  if o.usePtrs then
    (reads ++ writes).foldl (fun ps p =>
      match ps.lookup (v.basePt o p) with
      | some _ => ps
      | none => ps ++ [(v.basePt o p, v.varBase o g (v.slotOf slot p) + v.baseOfs o g idx (v.basePt o p))]) []
  else []

/-- A buffer before the loop (`print_buffer_code`, `Cpp.cpp:557-592`): element `i` is loaded from the point with offset `lo + i`. -/
def CVar.initBuf (mem : Int → W) (st : InnerSt W) (key : PtArgs) : Int → Option W :=
  match v.stats o reads key with
  | some ⟨lo, _, some len⟩ => (List.range len.toNat).foldl (fun b (i : Nat) =>
      Spec.Cpp.upd b (i : Int) (some (mem (v.addr o g slot st (key.set v.loopPosn ((lo + i) * (v.dim v.loopPosn).fold))))))
      fun _ => none
  | _ => fun _ => none

/-- The state before the loop (`YaskKernel.cpp:674-682`). -/
def CVar.initSt (mem : Int → W) (idx : List Int) : InnerSt W :=
  let st : InnerSt W := ⟨idx, v.initPtrs o g slot reads writes idx, fun _ _ => none⟩
  { st with bufs := v.initBuf o g slot reads mem st }

/-- `print_aligned_vec_read` (`Cpp.cpp:909-1007`): from a buffer or from memory. The key is only known for the points in `reads`
(`_inner_loop_key`). -/
def CVar.read (mem : Int → W) (st : InnerSt W) (p : PtArgs) : Outcome W :=
  match (if p ∈ reads then v.stats o reads (v.key p) else none) with
  | some ⟨lo, _, some len⟩ =>
    if 0 ≤ v.vofs p - lo ∧ v.vofs p - lo < len then
      match st.bufs (v.key p) (v.vofs p - lo) with
      | some w => .ok w
      | none => .undefined
    else .ok (mem (v.addr o g slot st p))
  | _ => .ok (mem (v.addr o g slot st p))

/-- A buffer at the end of an iteration (`print_buffer_code`, `Cpp.cpp:543-555`, `572-592`): shift, and load of the last
element (the variable with the value loaded earlier in the iteration, if there is one, has the same value). -/
def CVar.shiftBuf (mem : Int → W) (st : InnerSt W) (key : PtArgs) : Int → Option W :=
  match v.stats o reads key with
  | some ⟨lo, _, some len⟩ =>
    let b := (List.range (len - 1).toNat).foldl (fun b (i : Nat) => Spec.Cpp.upd b (i : Int) (b (i + 1))) (st.bufs key)
    let last := key.set v.loopPosn ((lo + len) * (v.dim v.loopPosn).fold)
    match v.read o g slot reads mem st last with
    | .ok w => Spec.Cpp.upd b (max (len - 1) 0) (some w)
    | _ => b
  | _ => st.bufs key

/-- The end of an iteration: buffers, then indices and pointers (`print_end_inner_loop`, `Cpp.cpp:668-692`;
`YaskKernel.cpp:702-706`). -/
def CVar.next (mem : Int → W) (st : InnerSt W) : InnerSt W where
  bufs := v.shiftBuf o g slot reads mem st
  idx := st.idx.set v.loopPosn (st.idx.getD v.loopPosn 0 + 1)
  ptrs := st.ptrs.map fun x => (x.1, x.2 + v.stride o g v.loopPosn)

/-- The state in iteration `n`; `mem n` is the memory (vectors of the storage) in iteration `n`. -/
def CVar.stAt (mem : Nat → Int → W) (idx : List Int) : Nat → InnerSt W
  | 0 => v.initSt o g slot reads writes (mem 0) idx
  | n + 1 => v.next o g slot reads (mem n) (CVar.stAt mem idx n)

end

/-- Address of the first element of an unaligned load (`print_unaligned_vec_read`, `Cpp.cpp:1097-1113`). `make_point_call_vec` is called
without a map of the indices: if the compiler was built with asserts, it stops there (`Cpp.cpp:102-104`). Otherwise the args of the
point are printed as they are (`Cpp.cpp:116-118`), and the indices in them are those of the loop. -/
def CVar.unalignedAddr (v : CVar) (g : Geom) (slot : Int → Int) (asserts : Bool) (idx : List Int) (p : PtArgs) : Outcome Int :=
  if asserts then .throws
  else g.elemAddr ((List.range v.dims.length).map fun k =>
    match (v.dim k).kind with
    | .misc => p.getD k 0
    | _ => idx.getD k 0 + p.getD k 0) (v.slotOf slot p)

end Yask.Comp
