import Verif.Compiler.PrintModel
import Verif.Compiler.PtrModel
import Verif.Compiler.VecModel

/-!
# Model of the generated inner loop as a whole

The loop body of `calc_vectors` (`src/compiler/lib/YaskKernel.cpp:602-722`): the statements of `PrintModel.lean`, in which a point is read
as in `Cpp.cpp:821-892` (aligned vectors as in `PtrModel.lean`, other vectors assembled from them as in `VecModel.lean`), and a vector is
stored under the write mask; then the end of the iteration.

Simplifications.
* Points have offsets in all domain dims of their var; so a var that can be folded is read in whole vectors (`VEC_FULL`), and it has the
  inner-loop dim, as in `PtrModel.lean`. Other vars are read element by element.
* Points without domain dims are loaded before the loop by the code (`Cpp.cpp:1270-1290`), and elements that are used in several lanes are
  loaded once (`Cpp.cpp:1075-1085`), here when they are used. There are no pointers to such vars: pointers are made for aligned vectors.
* Aligned vectors that are used by several unaligned points are loaded once by the code (`_vec_vars`), here when they are used.
* Sets (of aligned vectors) are lists in any order; which control variables are already defined when a vector is assembled is arbitrary.
* Whether an access is within the storage is not part of this model (see C65).
* Loads are not issued early (`_early_loads`), and there are no unaligned loads (`-allow-unaligned-loads`, C64).
-/

namespace Yask.Comp
open Var Spec.Cpp

/-- A var in the code of a part: what the compiler knows of it, the names of its dims, the var of the kernel, and the slots of the
steps. -/
structure LoopVar where
  v : CVar
  names : List String
  g : Geom
  slot : Int → Int

/-- A point of a var: number of the var, and args. -/
abbrev LPt := Nat × PtArgs

/-- `get_arg_offsets` (`VarPoint.cpp:56-83`): the offsets in the step and the domain dims. -/
def LoopVar.offsets (x : LoopVar) (p : PtArgs) : Loc :=
  ((x.names.zip x.v.dims).zip p).filterMap fun d => if d.1.2.kind = .misc then none else some (d.1.1, d.2)

/-- `set_arg_offsets` (`VarPoint.cpp:235-290`): args in step and domain dims are replaced. -/
def LoopVar.setOffsets (x : LoopVar) (p : PtArgs) (l : Loc) : PtArgs :=
  ((x.names.zip x.v.dims).zip p).map fun d => if d.1.2.kind = .misc then d.2 else (l.lookup d.1.1).getD d.2

/-- `_num_foldable_dims` (`Var.cpp:146-154`): domain dims that are in `_fold_gt1`. -/
def LoopVar.foldDims (x : LoopVar) (fold : Tup) : Nat :=
  ((x.names.zip x.v.dims).filter fun d => d.2.kind == .domain && (match fold.q.lookup d.1 with | some l => decide (l ≠ 1) | none => false)).length

/-- `_is_foldable` (`Var.cpp:164-174`). -/
def LoopVar.foldable (x : LoopVar) (fold : Tup) : Bool :=
  x.v.dims.any (fun d => d.kind == .domain) && x.foldDims fold == (fold.q.filter fun s => decide (s.2 ≠ 1)).length

/-- `VarPoint::VecType` (`VarPoint.hpp:42-46`). -/
inductive VecType
  | none
  | part
  | full
  deriving DecidableEq

/-- `SetVecVisitor` (`Eqs.cpp:180-231`), for points with offsets in all domain dims. -/
def LoopVar.vecType (x : LoopVar) (fold : Tup) : VecType :=
  if (fold.q.filter fun s => decide (s.2 ≠ 1)).length = 0 ∧ x.foldable fold = true then .full
  else if x.foldDims fold = 0 then .none
  else if x.foldDims fold = (fold.q.filter fun s => decide (s.2 ≠ 1)).length then .full
  else .part

/-- One index in `YkElemVarCore::_get_adj_idx<false>` (`yk_var.hpp:171-205`). -/
def adjElemLocal (ti : Int) (d : DimG) (idx : Int) : Int := if d.kind = .step then ti else idx + d.lPad - d.localOfs

/-- `YkElemVarCore::get_elem_ptr_local` (`yk_var.hpp:209-232`). -/
def elemAddrLocal (g : Geom) (idxs : List Int) (ti : Int) : Int :=
  layoutPerm g.layout g.vecAllocs (List.zipWith (adjElemLocal ti) g.dims idxs)

/-- The args of `read_elem_local` (`make_point_call_vec`, `Cpp.cpp:90-123`), with the map of the dims to the values `el`. -/
def LoopVar.elemArgs (x : LoopVar) (el : String → Int) (p : PtArgs) : List Int :=
  ((x.names.zip x.v.dims).zip p).map fun d => match d.1.2.kind with
    | .misc => d.2
    | _ => el d.1.1 + d.2

/-- The code of a part and its settings: vars by number, `_fold`, `_inner_loop_dim`, options, printer, `ctrl_sel_bit`, equations;
`_aligned_reads` of each var, `_vblk2avblks` of each point, `defined_ctrls` when a point is read; and the write mask. -/
structure PartLoop where
  vars : Nat → LoopVar
  fold : Tup
  inner : String
  opts : PtrOpts
  isa : Isa
  selBit : Nat
  prt : PrintOpts
  eqs : List (LPt × Ex LPt)
  aligned : Nat → List PtArgs
  order : LPt → List Loc
  defined : LPt → List (List Tok)
  mask : Nat

/-- State in the loop: storage of each var; element index of each dim (`_vec2elem_local_map`); indices, pointers and buffers of each var. -/
structure LoopSt (V : Type) where
  mem : Nat → Int → V
  elems : String → Int
  sts : Nat → InnerSt (Int → V)

/-- Arithmetic of `real_vec_t` (`src/kernel/lib/realv.hpp:246-400`, `655-752`): each element by itself. -/
def _root_.Yask.Spec.Cpp.Arith.lanes {V : Type} (A : Arith V) : Arith (Nat → V) where
  lit q := fun _ => A.lit q
  neg a := fun k => A.neg (a k)
  bin op a b := fun k => A.bin op (a k) (b k)
  fn f as := fun k => A.fn f (as.map fun a => a k)

section
variable {V : Type}

/-- Load of vector number `a` of the storage (`load_from`, `realv.hpp:402-430`). -/
def vecAt (g : Geom) (m : Int → V) (a : Int) : Int → V := fun j => m (a * g.elemReals + j)

/-- Store to vector number `a` of the storage (`store_to`, `store_to_masked`, `realv.hpp:470-524`). -/
def vecStore (g : Geom) (mask : Option Nat) (w : Nat → V) (a : Int) (m : Int → V) : Int → V := fun b =>
  let k := (b - a * g.elemReals).toNat
  if a * g.elemReals ≤ b ∧ b < (a + 1) * g.elemReals ∧ (match mask with | some mk => mk.testBit k | none => true) = true then w k
  else m b

namespace PartLoop
variable (c : PartLoop)

/-- `_vlen`. -/
def vlen : Nat := (prodVals c.fold.vals).toNat

/-- `_write_mask` (`YaskKernel.cpp:630-631`). -/
def writeMask : Option Nat := if c.vlen > 1 then some c.mask else none

/-- The points of a var that are written. -/
def writes (i : Nat) : List PtArgs := c.eqs.filterMap fun e => if e.1.1 = i then some e.1.2 else none

/-- `print_aligned_vec_read` (`Cpp.cpp:909-1007`). -/
def alignedRead (st : LoopSt V) (i : Nat) (p : PtArgs) : Outcome (Int → V) :=
  (c.vars i).v.read c.opts (c.vars i).g (c.vars i).slot (c.aligned i) (vecAt (c.vars i).g (st.mem i)) (st.sts i) p

/-- The aligned vectors of a point (`Cpp.cpp:872-877`). -/
def blocks (st : LoopSt V) (q : LPt) : List Loc → Outcome (List (Loc × (Nat → V)))
  | [] => .ok []
  | l :: ls => do
    let w ← c.alignedRead st q.1 ((c.vars q.1).setOffsets q.2 l)
    let r ← blocks st q ls
    .ok ((l, fun k => w (k : Nat)) :: r)

/-- Length of the fold in a dim. -/
def foldLen (n : String) : Int := (c.fold.q.lookup n).getD 1

/-- `read_from_scalar_point` (`Cpp.cpp:1009-1040`); the step index is only used for the slot. -/
def elemRead (st : LoopSt V) (el : String → Int) (q : LPt) : V :=
  st.mem q.1 (elemAddrLocal (c.vars q.1).g ((c.vars q.1).elemArgs el q.2) ((c.vars q.1).v.slotOf (c.vars q.1).slot q.2))

/-- `print_partial_vec_read` (`Cpp.cpp:1042-1095`): element `pelem` of the vector for each point of the fold. -/
def partRead (u : V) (st : LoopSt V) (q : LPt) : Nat → V :=
  (visitAllPointsTuple c.fold.firstInner c.fold.vals (fun w pt pelem =>
    (upd w pelem (c.elemRead st (fun n => st.elems n + ((c.fold.names.zip pt).lookup n).getD 0) q), true)) fun _ => u).1

/-- `read_from_point` (`Cpp.cpp:821-892`), `print_unaligned_vec` (`Cpp.cpp:1162-1173`); `u` is the value of variables that are not
set. -/
def readPt (u : V) (st : LoopSt V) (q : LPt) : Outcome (Nat → V) :=
  if (c.vars q.1).vecType c.fold = .none then .ok fun _ => c.elemRead st st.elems q
  else if (c.vars q.1).vecType c.fold = .part then .ok (c.partRead u st q)
  else if q.2 ∈ c.aligned q.1 then do
    let w ← c.alignedRead st q.1 q.2
    .ok fun k => w (k : Nat)
  else do
    let bs ← c.blocks st q (c.order q)
    .ok (Comp.execAll c.vlen c.selBit (fun l => (bs.lookup l).getD fun _ => u)
      (unalignedCtor c.isa (vecElems c.fold ((c.vars q.1).offsets q.2)) (c.order q) (c.defined q)).1 fun _ => u)

/-- `print_aligned_vec_write` (`Cpp.cpp:1116-1157`). -/
def writePt (st : LoopSt V) (q : LPt) (w : Nat → V) : LoopSt V :=
  { st with mem := upd st.mem q.1 (vecStore (c.vars q.1).g c.writeMask w
      ((c.vars q.1).v.addr c.opts (c.vars q.1).g (c.vars q.1).slot (st.sts q.1) q.2) (st.mem q.1)) }

/-- A statement of the loop body; its meaning as in `CppSpec.lean`, with reads and writes of vectors. -/
def stmt (u : V) (A : Arith (Nat → V)) :
    Stmt LPt → (Name → Option (Nat → V)) × LoopSt V → Outcome ((Name → Option (Nat → V)) × LoopSt V)
  | .decl x t, (env, st) => do
    let v ← textVal A env t
    if env x = none then .ok (upd env x (some v), st) else .throws
  | .load x q, (env, st) => do
    let v ← c.readPt u st q
    if env x = none then .ok (upd env x (some v), st) else .throws
  | .store q x, (env, st) => match env x with
    | some v => .ok (env, c.writePt st q v)
    | none => .throws
  | .pair f g x y args, (env, st) => do
    let vs ← textVals A env args
    if (f = "sin" ∧ g = "cos" ∨ f = "cos" ∧ g = "sin") ∧ env x ≠ none ∧ env y ≠ none ∧ x ≠ y then
      .ok (upd (upd env x (some (A.fn f vs))) y (some (A.fn g vs)), st)
    else .throws

/-- The statements of the loop body. -/
def stmts (u : V) (A : Arith (Nat → V)) :
    List (Stmt LPt) → (Name → Option (Nat → V)) × LoopSt V → Outcome ((Name → Option (Nat → V)) × LoopSt V)
  | [], s => .ok s
  | x :: xs, s => do
    let s' ← c.stmt u A x s
    stmts u A xs s'

/-- The loop body (`YaskKernel.cpp:695-706`). -/
def body (u : V) (A : Arith (Nat → V)) (st : LoopSt V) : Outcome (LoopSt V) := do
  let code ← printPart c.prt c.eqs
  let r ← c.stmts u A code (fun _ => none, st)
  .ok r.2

/-- The end of an iteration (`YaskKernel.cpp:708-715`, `Cpp.cpp:668-692`). -/
def endIter (st : LoopSt V) : LoopSt V :=
  { st with
    elems := fun n => if n = c.inner then st.elems n + c.foldLen n else st.elems n
    sts := fun i => (c.vars i).v.next c.opts (c.vars i).g (c.vars i).slot (c.aligned i) (vecAt (c.vars i).g (st.mem i)) (st.sts i) }

/-- Before the loop (`YaskKernel.cpp:667-682`, `Cpp.cpp:1219-1237`); `ix` are the indices of the first vector, by dim. -/
def start (ix : String → Int) (mem : Nat → Int → V) : LoopSt V where
  mem := mem
  elems := fun n => ix n * c.foldLen n
  sts := fun i => (c.vars i).v.initSt c.opts (c.vars i).g (c.vars i).slot (c.aligned i) (c.writes i) (vecAt (c.vars i).g (mem i))
    ((c.vars i).names.map ix)

/-- Iterations. -/
def iters (u : V) (A : Arith (Nat → V)) : Nat → LoopSt V → Outcome (LoopSt V)
  | 0, st => .ok st
  | n + 1, st => do
    let s ← c.body u A st
    iters u A n (c.endIter s)

/-- The inner loop with `n` iterations (`YaskKernel.cpp:613-719`; an empty mask returns at once, 613-614). -/
def run (u : V) (A : Arith (Nat → V)) (ix : String → Int) (n : Nat) (mem : Nat → Int → V) : Outcome (Nat → Int → V) :=
  if c.mask = 0 then .ok mem
  else do
    let s ← c.iters u A n (c.start ix mem)
    .ok s.mem

end PartLoop
end
end Yask.Comp
