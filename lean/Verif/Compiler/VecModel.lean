import Verif.Common.TupleModel

/-!
# Model of the assembly of unaligned vectors

`VecInfoVisitor::visit` (`src/compiler/lib/Vec.cpp:34-131`) finds the aligned vector blocks and the elements in
them that make up a vector read at arbitrary offsets. `CppVecPrintHelper` and `CppIntrinPrintHelper`
(`Cpp.cpp:1162-1207`, `CppIntrin.cpp:31-455`, `CppIntrin.hpp:116-165`) print the code that assembles it; the
functions this code calls are in `src/kernel/lib/realv.hpp:754-960`.

Simplifications: the args of a var point other than those with simple offsets do not change and are left out, so a
block is identified by its offsets. Instead of strings the printed code is a list of instructions, and the name of a
control variable is the list of the items it is made of. The bit masks are natural numbers (`unsigned` in the code;
the vectors have at most 16 elements there).
-/

namespace Yask.Comp

/-- Offsets by dimension. -/
abbrev Loc := List (String × Int)

/-- The offset in a dimension, 0 if there is none. -/
def Loc.at (l : Loc) (dim : String) : Int := (l.lookup dim).getD 0

/-- `VecElem` (`Vec.hpp:37-54`). -/
structure VecElem where
  /-- `_vec`: offsets of the aligned block -/
  vec : Loc
  /-- `_offset`: index in the block -/
  offset : Nat
deriving DecidableEq

/-- The `while` loop of `fix_index_offset` (`Vec.hpp:126-129`) with a limited number of rounds. -/
def fixLoop (len : Int) : Nat → Int → Int → Int × Int
  | 0, index, offset => (index, offset)
  | n + 1, index, offset => if offset < 0 then fixLoop len n (index - 1) (offset + len) else (index, offset)

/-- `fix_index_offset` (`Vec.hpp:120-130`). Each round of the loop adds at least one to the negative remainder. -/
def fixIndexOffset (indexIn offsetIn len : Int) : Int × Int :=
  let ofs := indexIn * len + offsetIn
  fixLoop len (ofs.tmod len).natAbs (ofs.tdiv len) (ofs.tmod len)

/-- One element of `add_elements` that is not strict (`src/common/tuple.hpp:510-519`). -/
def addOfs (o : Int) : Option Int → Int
  | some v => o + v
  | none => o

/-- The body of the lambda-function in `VecInfoVisitor::visit` (`Vec.cpp:71-123`), for one point of the fold. -/
def elemAt (fold : Tup) (ofs : Loc) (pt : List Int) : VecElem :=
  let vecPoint : Loc := fold.names.zip pt
  let offsets := ofs.map fun o => (o.1, addOfs o.2 (vecPoint.lookup o.1))
  let fixed := offsets.map fun o =>
    let len := (fold.lookup o.1).getD 1
    (o.1, fixIndexOffset 0 o.2 len, len)
  { vec := fixed.map fun f => (f.1, f.2.1.1 * f.2.2)
    offset := fold.layout { fold with q := fixed.map fun f => (f.1, f.2.1.2) } false }

/-- `_vblk2elem_lists[*gp]` (`Vec.cpp:69-127`). -/
def vecElems (fold : Tup) (ofs : Loc) : List VecElem :=
  (visitAllPointsTuple fold.firstInner fold.vals (fun s pt _ => (s ++ [elemAt fold ofs pt], true)) []).1

/-! ### The functions called by the printed code -/

/-- `real_vec_align` without intrinsics (`realv.hpp:779-785`), and what the `alignr` instruction does. -/
def realVecAlign {α : Type} (vlen count : Nat) (a b : Nat → α) (i : Nat) : α :=
  if i < vlen - count then b (i + count) else a (i + count - vlen)

/-- `_mm256_permute2x128_si256(x, y, 0x21)`: high half of `x`, then low half of `y`. -/
def permute2x128 {α : Type} (half : Nat) (x y : Nat → α) (i : Nat) : α :=
  if i < half then x (i + half) else y (i - half)

/-- `_mm256_alignr_epi8(x, y, count * REAL_BYTES)`: in each half, the concatenation of `x` and `y` shifted right. -/
def alignrLanes {α : Type} (half count : Nat) (x y : Nat → α) (i : Nat) : α :=
  let base := if i < half then 0 else half
  let p := i - base + count
  if p < half then y (base + p) else x (base + (p - half))

/-- `real_vec_align` for AVX2 (`realv.hpp:787-811`). -/
def realVecAlignAvx2 {α : Type} (vlen count : Nat) (a b : Nat → α) : Nat → α :=
  let tmp := permute2x128 (vlen / 2) b a
  if count = vlen / 2 then tmp
  else if count < vlen / 2 then alignrLanes (vlen / 2) count tmp b
  else alignrLanes (vlen / 2) (count - vlen / 2) a tmp

/-- `real_vec_align` for AVX (`realv.hpp:813-825`): an unaligned load from an array of both vectors. -/
def realVecAlignAvx {α : Type} (vlen count : Nat) (a b : Nat → α) (i : Nat) : α :=
  let r2 : Nat → α := fun k => if k < vlen then b k else a (k - vlen)
  r2 (count + i)

/-- An item of the name of a control variable and of its value (`CppIntrin.cpp:213-236`, `320-356`). -/
inductive Tok
  | na | one (j : Nat) | sel (isB : Bool) (j : Nat)
deriving DecidableEq

/-- The value of an item; `selBit` is `ctrl_sel_bit`. -/
def Tok.ctrl (selBit : Nat) : Tok → Nat
  | .na => 0
  | .one j => j
  | .sel false j => j
  | .sel true j => selBit ||| j

/-- The printed statements. Input vectors are named by the block they hold. -/
inductive Instr
  | align (count : Nat) (a b : Loc) (mask : Option Nat)
  | permute (ctrl : List Tok) (a : Loc) (mask : Option Nat)
  | permute2 (ctrl : List Tok) (a b : Loc)
  | set (i : Nat) (a : Loc) (j : Nat)
deriving DecidableEq

/-- The blocks that a statement reads. -/
def Instr.inputs : Instr → List Loc
  | .align _ a b _ => [a, b]
  | .permute _ a _ => [a]
  | .permute2 _ a b => [a, b]
  | .set _ a _ => [a]

/-- The effect of a masked operation: elements with a zero bit do not change. -/
def masked {α : Type} (mask : Option Nat) (new old : Nat → α) (i : Nat) : α :=
  match mask with
  | none => new i
  | some m => if m.testBit i then new i else old i

/-- The effect of a statement on the vector (`realv.hpp:754-960`); `blk` gives the contents of the blocks. -/
def Instr.exec {α : Type} (vlen selBit : Nat) (blk : Loc → Nat → α) : Instr → (Nat → α) → Nat → α
  | .align count a b mask, v => masked mask (realVecAlign vlen count (blk a) (blk b)) v
  | .permute ctrl a mask, v => masked mask (fun i => blk a ((ctrl.getD i .na).ctrl selBit)) v
  | .permute2 ctrl a b, _ => fun i =>
    let ci := (ctrl.getD i .na).ctrl selBit
    let idx := ci &&& (selBit - 1)
    if ci &&& selBit ≠ 0 then blk b idx else blk a idx
  | .set i a j, v => fun k => if k = i then blk a j else v k

/-- The effect of a list of statements. -/
def execAll {α : Type} (vlen selBit : Nat) (blk : Loc → Nat → α) (code : List Instr) (v : Nat → α) : Nat → α :=
  code.foldl (fun v c => c.exec vlen selBit blk v) v

/-! ### The printers -/

/-- State while a vector is assembled. -/
structure Gen where
  /-- `done_elems` -/
  done : List Nat := []
  code : List Instr := []
  /-- `defined_ctrls` -/
  defined : List (List Tok)
  /-- the function has returned -/
  stop : Bool := false

/-- `mask |= (1 << i)` for all elements found. -/
def maskOf (found : List Nat) : Nat := found.foldl (fun m i => m ||| (1 <<< i)) 0

/-- The mask to print: none if no elements are done already (`CppIntrin.cpp:131-132`, `244-245`). -/
def maskFor (s : Gen) (found : List Nat) : Option Nat := if s.done.length > 0 then some (maskOf found) else none

/-- Is element i of the unaligned vector element `p` of the block `m`? -/
def isFrom (elems : List VecElem) (i : Nat) (m : Loc) (p : Nat) : Bool :=
  match elems[i]? with
  | some ve => decide (ve.vec = m) && decide (ve.offset = p)
  | none => false

/-- `found_elems` of `try_align` (`CppIntrin.cpp:70-120`). -/
def alignFound (elems : List VecElem) (done : List Nat) (m1 m2 : Loc) (count : Nat) : List Nat :=
  let n := elems.length
  (List.range n).filter fun i => decide (i ∉ done) &&
    (if i ≥ n - count then isFrom elems i m1 (i + count - n) else isFrom elems i m2 (i + count))

/-- The body of the innermost loop of `try_align` (`CppIntrin.cpp:58-190`). -/
def alignStep (elems : List VecElem) (target : Nat) (maskOk : Bool) (s : Gen) (t : Loc × Loc × Nat) : Gen :=
  let (m1, m2, count) := t
  let n := elems.length
  if s.stop || decide (s.done.length ≥ n) then s
  else
    let found := alignFound elems s.done m1 m2 count
    let used1 := found.filter fun i => decide (i ≥ n - count)
    let used2 := found.filter fun i => decide (i < n - count)
    if found.length = target then
      if decide (s.done.length > 0) && !maskOk then { s with stop := true }
      else
        let (a, b) := if used1 ≠ [] ∧ used2 ≠ [] then (m1, m2) else if used1 ≠ [] then (m1, m1) else (m2, m2)
        { s with code := s.code ++ [.align count a b (maskFor s found)], done := s.done ++ found }
    else s

/-- `try_align` (`CppIntrin.cpp:33-194`). -/
def tryAlign (elems : List VecElem) (vecs : List Loc) (target : Nat) (maskOk : Bool) (s : Gen) : Gen :=
  let triples := vecs.flatMap fun m1 => vecs.flatMap fun m2 =>
    (List.range' 1 (elems.length - 1)).map fun count => (m1, m2, count)
  { triples.foldl (alignStep elems target maskOk) { s with stop := false } with stop := false }

/-- Does element i come from the block? (`CppIntrin.cpp:224`) -/
def needs (elems : List VecElem) (done : List Nat) (i : Nat) (m : Loc) : Option Nat :=
  match elems[i]? with
  | some ve => if i ∉ done ∧ ve.vec = m then some ve.offset else none
  | none => none

/-- Adds the name of a control variable. -/
def addCtrl (defined : List (List Tok)) (c : List Tok) : List (List Tok) :=
  if c ∈ defined then defined else c :: defined

/-- The body of the loop of `try_perm1` (`CppIntrin.cpp:207-281`). -/
def perm1Step (elems : List VecElem) (target : Nat) (s : Gen) (m : Loc) : Gen :=
  let n := elems.length
  let found := (List.range n).filter fun i => (needs elems s.done i m).isSome
  let ctrl := (List.range n).map fun i => match needs elems s.done i m with | some j => Tok.one j | none => .na
  if found.length = target then
    { s with
      code := s.code ++ [.permute ctrl m (maskFor s found)]
      defined := addCtrl s.defined ctrl
      done := s.done ++ found }
  else s

/-- `try_perm1` (`CppIntrin.cpp:196-283`). -/
def tryPerm1 (elems : List VecElem) (vecs : List Loc) (target : Nat) (s : Gen) : Gen :=
  vecs.foldl (perm1Step elems target) s

/-- An item of the control variables of `try_perm2` (`CppIntrin.cpp:335-361`): the selector bit is set for the
elements of the vector that comes second. -/
def tok2 (elems : List VecElem) (done : List Nat) (m1 m2 : Loc) (swap : Bool) (i : Nat) : Tok :=
  match needs elems done i m1 with
  | some j => .sel swap j
  | none => match needs elems done i m2 with
    | some j => .sel (!swap) j
    | none => .na

/-- The body of the loop of `try_perm2` (`CppIntrin.cpp:302-408`). -/
def perm2Step (elems : List VecElem) (target : Nat) (s : Gen) (t : Loc × Loc) : Gen :=
  let (m1, m2) := t
  let n := elems.length
  if s.stop || decide (m1 = m2) then s
  else
    let found := (List.range n).filter fun i =>
      (needs elems s.done i m1).isSome || (needs elems s.done i m2).isSome
    let name12 := (List.range n).map (tok2 elems s.done m1 m2 false)
    let name21 := (List.range n).map (tok2 elems s.done m1 m2 true)
    if found.length = target then
      let use12 : Bool := decide (name21 ∉ s.defined)
      { code := s.code ++ [if use12 then .permute2 name12 m1 m2 else .permute2 name21 m2 m1]
        defined := addCtrl s.defined (if use12 then name12 else name21)
        done := s.done ++ found
        stop := true }
    else s

/-- `try_perm2` (`CppIntrin.cpp:285-410`). -/
def tryPerm2 (elems : List VecElem) (vecs : List Loc) (target : Nat) (s : Gen) : Gen :=
  if s.done.length > 0 then s
  else
    let pairs := vecs.flatMap fun m1 => vecs.map fun m2 => (m1, m2)
    { pairs.foldl (perm2Step elems target) { s with stop := false } with stop := false }

/-- The printers: without intrinsics, for AVX/AVX2, and for AVX-512. -/
inductive Isa
  | cpp | avx2 | avx512
deriving DecidableEq

/-- `try_strategies` (`CppIntrin.hpp:121-132`, `151-160`). -/
def tryStrategies (isa : Isa) (elems : List VecElem) (vecs : List Loc) (target : Nat) (s : Gen) : Gen :=
  match isa with
  | .cpp => s
  | .avx2 => tryAlign elems vecs target false s
  | .avx512 => tryPerm1 elems vecs target (tryPerm2 elems vecs target (tryAlign elems vecs target true s))

/-- `print_unaligned_vec_simple` (`Cpp.cpp:1175-1205`): the elements that are not done. -/
def simpleCode (elems : List VecElem) (done : List Nat) : List Instr :=
  (List.range elems.length).filterMap fun i =>
    if i ∈ done then none else (elems[i]?).map fun ve => .set i ve.vec ve.offset

/-- The loop of `print_unaligned_vec_ctor` (`CppIntrin.cpp:438-447`). -/
def targetLoop (isa : Isa) (elems : List VecElem) (vecs : List Loc) : Nat → Gen → Gen
  | 0, s => s
  | target + 1, s =>
    if s.done.length < elems.length then
      targetLoop isa elems vecs target (tryStrategies isa elems vecs (target + 1) s)
    else s

/-- `print_unaligned_vec_ctor` (`Cpp.hpp:209-211`, `CppIntrin.cpp:413-455`): the code and the control variables
defined. -/
def unalignedCtor (isa : Isa) (elems : List VecElem) (vecs : List Loc) (defined : List (List Tok)) :
    List Instr × List (List Tok) :=
  match isa with
  | .cpp => (simpleCode elems [], defined)
  | _ =>
    let s := targetLoop isa elems vecs elems.length { defined := defined }
    (if s.done.length ≠ elems.length then s.code ++ simpleCode elems s.done else s.code, s.defined)

end Yask.Comp
