import Verif.Compiler.LoopRunLemmas

/-!
# C80: the generated inner loop evaluates the equations in every lane

The parts of the generated inner loop are treated in C52 (vectors that are not aligned), C61 (statements for expressions) and C63
(pointers, offsets and buffers of aligned vectors); here the loop as a whole. Model: `Compiler/InnerLoopModel.lean`; specification:
`Spec/LoopSpec.lean`.
-/

namespace Yask
open Var Spec Spec.Cpp Comp

section
variable {V : Type}

/-- C80 (part): for all folds, instruction sets, limits on the sizes of expressions, and options on pointers, strides and buffers, all vars
in all reachable states, all numbers of iterations and all write masks: if the equations set different elements in whole vectors, and
read elements of the vars that have not been set before they are read, then the run of the loop is defined; afterwards each element that
an equation sets in a lane of the mask has the value of the equation, computed from the elements that the points mean for that lane, as
they were before the loop; and nothing else has changed.
An equation may read the element that it sets (as when the storage of a step is used again), and earlier equations and iterations may
read elements that are set later.
Vars may have all folded dims, some or none. Missing: points with other args than offsets in domain dims, loads that are issued early,
unaligned loads, and the restrictions of C61. -/
theorem C80_lanes_partial (c : PartLoop) (inner : String) (ix : String → Int) (hc : c.Ok V inner ix) (n : Nat) (ha : c.Apart inner ix n)
    (u : V) (A : Arith V) (node : Nat → Ex LPt) (hd : (c.eqs.map (·.1)).Nodup)
    (hn : ∀ m, ∀ e ∈ c.eqs, e.2.All (Ex.NodeOk A m node (c.eqs.map (·.1)))) (hp : ∀ e ∈ c.eqs, e.2.Plain A) (mem : Nat → Int → V) :
    ∃ mem', c.run u A.lanes ix n mem = .ok mem' ∧
      (∀ e ∈ c.eqs, ∀ j < n, ∀ k < c.vlen, c.mask.testBit k = true → ∃ a, (c.vars e.1.1).g.addrOf (c.elem inner ix e.1 j k) = .ok a ∧
        mem' e.1.1 a = e.2.value A fun q => match (c.vars q.1).g.addrOf (c.elem inner ix q j k) with
          | .ok b => mem q.1 b
          | _ => u) ∧
      ∀ i b, (∀ e ∈ c.eqs, e.1.1 = i → ∀ j < n, ∀ k < c.vlen, c.mask.testBit k = true →
        (c.vars i).g.addrOf (c.elem inner ix e.1 j k) ≠ .ok b) → mem' i b = mem i b := by
  unfold PartLoop.run
  by_cases h0 : c.mask = 0
  · rw [if_pos h0]
    exact ⟨mem, rfl, fun e _ j _ k _ hk => by simp [h0] at hk, fun _ _ _ => rfl⟩
  · rw [if_neg h0]
    obtain ⟨k0, hk0⟩ : ∃ k0, c.Active k0 := hc.mask h0
    obtain ⟨st, h1, h2, h3⟩ := hc.iters ha u A node hd hn hp hk0 n 0 (by omega) _ (c.start_ok ix mem) (fun _ _ _ h => by omega)
    refine ⟨st.mem, by rw [h1]; rfl, ?_, ?_⟩
    · intro e he j hj k hk hb
      exact ⟨_, hc.lhs_addr ha (List.mem_map_of_mem he) hj ⟨hk, hb⟩, h3 e he j hj k ⟨hk, hb⟩⟩
    · intro i b hib
      apply h2
      rintro ⟨e, he, hi, j, hj, k, hk, hb⟩
      have := hc.lhs_addr ha (List.mem_map_of_mem he) hj hk
      rw [hb, hi] at this
      exact hib e he hi j hj k hk.1 hk.2 this

end

/-! ### An example: the var of `PtrExample` -/

namespace LoopExample

/-- Integers; functions add their arguments. -/
def intArith : Arith Int where
  lit q := q.num
  neg := fun a => -a
  bin op := match op with
    | .add => (· + ·)
    | .sub => (· - ·)
    | .mul => (· * ·)
    | .div => (· / ·)
    | .mod => fun _ _ => 0
  fn _ vs := vs.sum

/-- `A(t, x-1, y+1, -1)`, `A(t-2, x, y, 0)`, `A(t, x, y-2, 0)`. -/
def p1 : LPt := (0, [0, -1, 1, -1])
def p2 : LPt := (0, [-2, 0, 0, 0])
def p3 : LPt := (0, [0, 0, -2, 0])

/-- `A(t+1, x, y, 0) = A(t, x-1, y+1, -1) + A(t-2, x, y, 0) * 3`, which sets the elements of `A(t-2, x, y, 0)`, and
`A(t+1, x, y, -1) = A(t, x, y-2, 0) - A(t, x-1, y+1, -1)`. -/
def eqs : List (LPt × Ex LPt) :=
  [((0, [1, 0, 0, 0]), .comm 1 .add [.read 2 p1, .comm 3 .mul [.read 4 p2, .const 5 3]]),
   ((0, [1, 0, 0, -1]), .bin 6 .sub (.read 7 p3) (.read 2 p1))]

/-- The node of each identity. -/
def node : Nat → Ex LPt
  | 1 => .comm 1 .add [.read 2 p1, .comm 3 .mul [.read 4 p2, .const 5 3]]
  | 2 => .read 2 p1
  | 3 => .comm 3 .mul [.read 4 p2, .const 5 3]
  | 4 => .read 4 p2
  | 5 => .const 5 3
  | 6 => .bin 6 .sub (.read 7 p3) (.read 2 p1)
  | _ => .read 7 p3

def fold : Tup := ⟨[("x", 4), ("y", 2)], true⟩

def lvar : LoopVar := ⟨PtrExample.cvar, ["t", "x", "y", "m"], PtrExample.yvar.g, PtrExample.slot⟩

/-- Step 7, first vector of the rank. -/
def ix : String → Int := fun d => if d = "t" then 7 else 0

/-- The aligned vectors of a point. -/
def orderOf (q : LPt) : List Loc := ((vecElems fold (lvar.offsets q.2)).map VecElem.vec).dedup

/-- A part with the given equations, of which the given points are read; all lanes but 0 and 6. -/
def part (es : List (LPt × Ex LPt)) (rds : List LPt) : PartLoop where
  vars _ := lvar
  fold := fold
  inner := "y"
  opts := PtrExample.opts
  isa := .avx512
  selBit := 8
  prt := ⟨fun i => if i = 2 then 2 else 1, fun i => if i = 1 then 4 else 1, 50, 2⟩
  eqs := es
  aligned i := (rds.filter fun q => decide (q.1 = i)).flatMap fun q => (vecElems fold (lvar.offsets q.2)).map fun ve => lvar.setOffsets q.2 ve.vec
  order := orderOf
  defined _ := []
  mask := 190

def loop : PartLoop := part eqs [p1, p2, p3]

theorem isRead (q : LPt) : loop.IsRead q ↔ q ∈ [p1, p2, p3] := by
  unfold PartLoop.IsRead
  simp [loop, part, eqs, Ex.points, Ex.pointsAll]
  tauto

theorem accessDims : PtrExample.yvar.g.dims.map accessDim = [.step, .domain 4 20, .domain 2 0, .misc] := by
  have h2 : PtrExample.yvar.g.dims.map (fun d => (d.kind, d.varVL, d.rankOfs)) =
      [(.step, 1, 0), (.domain, 4, 20), (.domain, 2, 0), (.misc, 1, 0)] := by decide +kernel
  have h3 : PtrExample.yvar.g.dims.map accessDim = (PtrExample.yvar.g.dims.map (fun d => (d.kind, d.varVL, d.rankOfs))).map
      fun x => match x.1 with | .step => AccessDim.step | .domain => .domain x.2.1 x.2.2 | .misc => .misc := by
    rw [List.map_map]; rfl
  rw [h3, h2]; rfl

theorem api : PtrExample.yvar.g.api = [⟨true, 0, 2, 3⟩, ⟨false, 12, 39, 28⟩, ⟨false, -6, 15, 22⟩, ⟨false, -1, 0, 2⟩] := by decide +kernel

theorem foldOf : FoldOf fold ["t", "x", "y", "m"] PtrExample.yvar.g :=
  ⟨by decide +kernel, by decide +kernel, by decide +kernel, by decide +kernel, by decide +kernel, by decide +kernel, by decide +kernel,
    by decide +kernel⟩

theorem foldable : lvar.foldable fold = true := by decide +kernel

theorem varOk (es : List (LPt × Ex LPt)) (rds : List LPt) (i : Nat) : (part es rds).VarOk Int "y" ix i := by
  have hl := PtrExample.loopOk PtrExample.opts
  refine ⟨⟨PtrExample.yvar, PtrExample.yvar_reachable, rfl⟩, hl.steps, hl.misc, hl.var, ⟨false, 3, hl.allocEq, fun s => ?_⟩, foldOf, rfl, foldable⟩
  have := hl.slots s
  simpa [PtrExample.idx, ix, part, lvar] using this

theorem mem_order (q : LPt) (x : Loc) : x ∈ orderOf q ↔ ∃ ve ∈ vecElems fold (lvar.offsets q.2), ve.vec = x := by
  simp only [orderOf, List.mem_dedup, List.mem_map]

theorem part_order (es : List (LPt × Ex LPt)) (rds : List LPt) (q : LPt) (l : Loc) : l ∈ (part es rds).order q ↔
    ∃ ve ∈ vecElems (part es rds).fold (((part es rds).vars q.1).offsets q.2), ve.vec = l := by
  simp only [part]
  exact mem_order q l

theorem mem_aligned (rds : List LPt) (i : Nat) (p : PtArgs) :
    p ∈ ((rds.filter fun q => decide (q.1 = i)).flatMap fun q => (vecElems fold (lvar.offsets q.2)).map fun ve => lvar.setOffsets q.2 ve.vec) ↔
      ∃ q, q ∈ rds ∧ q.1 = i ∧ ∃ ve ∈ vecElems fold (lvar.offsets q.2), p = lvar.setOffsets q.2 ve.vec := by
  simp only [List.mem_flatMap, List.mem_filter, decide_eq_true_eq, List.mem_map]
  constructor
  · rintro ⟨q, ⟨h1, h2⟩, ve, h3, h4⟩
    exact ⟨q, h1, h2, ve, h3, h4.symm⟩
  · rintro ⟨q, h1, h2, ve, h3, h4⟩
    exact ⟨q, ⟨h1, h2⟩, ve, h3, h4.symm⟩

theorem lens : ∀ q ∈ eqs.map (·.1) ++ [p1, p2, p3], q.2.length = PtrExample.yvar.g.dims.length := by decide +kernel

theorem whole : ∀ e ∈ eqs, WholeVecs (PtrExample.yvar.g.dims.map accessDim) e.1.2 := by
  intro e he
  rw [accessDims]
  simp only [eqs, List.mem_cons, List.not_mem_nil, or_false] at he
  unfold WholeVecs
  rcases he with rfl | rfl <;> simp

theorem vlen : loop.vlen = 8 := by decide +kernel

theorem loopOk : loop.Ok Int "y" ix := by
  refine ⟨fun q hq => ⟨.inl (varOk eqs _ q.1), ?_⟩, fun e he => ⟨varOk eqs _ e.1.1, whole e he⟩, fun i p => ?_,
    fun q _ _ l => part_order _ _ q l, rfl, ⟨⟨3, rfl⟩, ?_⟩, ?_⟩
  · rw [isRead] at hq
    exact lens q (List.mem_append.2 hq)
  · simp only [isRead]
    refine (mem_aligned [p1, p2, p3] i p).trans ?_
    rw [show (loop.vars i).foldable loop.fold = true from foldable]
    simp only [true_and]
    exact Iff.rfl
  · rw [vlen]; exact Nat.le_refl 8
  · intro _
    rw [vlen]
    exact ⟨1, by decide, by decide⟩

/-- The element that a point means. -/
def elem (q : LPt) (j k : Nat) : List Int :=
  loopElem fold ["t", "x", "y", "m"] [.step, .domain 4 20, .domain 2 0, .misc] (iterIndex "y" ix j) q.2 k

theorem elem_eq (es : List (LPt × Ex LPt)) (rds : List LPt) (q : LPt) (j k : Nat) : (part es rds).elem "y" ix q j k = elem q j k := by
  show loopElem fold ["t", "x", "y", "m"] (List.zipWith (loopDim fold) ["t", "x", "y", "m"] PtrExample.yvar.g.dims) _ _ _ = _
  rw [show List.zipWith (loopDim fold) ["t", "x", "y", "m"] PtrExample.yvar.g.dims = PtrExample.yvar.g.dims.map accessDim from
    (varOk es rds 0).dims_eq, accessDims]
  rfl

theorem active {k : Nat} (h : loop.Active k) : k < 8 := by
  rw [← vlen]; exact h.1

def apiDims : List ApiDim := [⟨true, 0, 2, 3⟩, ⟨false, 12, 39, 28⟩, ⟨false, -6, 15, 22⟩, ⟨false, -1, 0, 2⟩]

/-- Lane 5 of `A(t, x-1, y+1, -1)` in iteration 2. -/
example : elem p1 2 5 = [7, 20, 6, -1] := by decide +kernel

/-- A read in iteration `j` by equation `r` is not after a write in iteration `j'` by equation `r'`. -/
def before (j j' r r' : Nat) : Prop := j < j' ∨ j = j' ∧ r ≤ r'

instance (j j' r r' : Nat) : Decidable (before j j' r r') := by unfold before; infer_instance

/-- Point `q` of equation `r` and the point that equation `r'` sets. -/
def orderedAt (r : Nat) (q : LPt) (r' : Nat) (q' : LPt) : Prop := ∀ j < 3, ∀ j' < 3, ∀ k < 8, ∀ k' < 8,
  SameElem apiDims (elem q j k) (elem q' j' k') → before j j' r r'

instance (r : Nat) (q : LPt) (r' : Nat) (q' : LPt) : Decidable (orderedAt r q r' q') := by unfold orderedAt; infer_instance

theorem ordered : ∀ r r' : Fin eqs.length, ∀ q ∈ (eqs[r]).2.points, orderedAt r q r' (eqs[r']).1 := by decide +kernel

theorem apart : loop.Apart "y" ix 3 where
  range q hq j hj k hk := by
    show InRangeButStep PtrExample.yvar.g.api _
    rw [api, show loop.elem "y" ix q j k = elem q j k from elem_eq _ _ q j k]
    have h1 : q ∈ eqs.map (·.1) ++ [p1, p2, p3] := by
      rw [isRead] at hq
      exact List.mem_append.2 hq
    have h : ∀ q ∈ eqs.map (·.1) ++ [p1, p2, p3], ∀ j < 3, ∀ k < 8, InRangeButStep apiDims (elem q j k) := by
      unfold InRangeButStep
      decide +kernel
    exact h q h1 j hj k (active hk)
  writes q hq q' hq' hqq j hj j' hj' k k' hk hk' hs := by
    rw [show loop.elem "y" ix q j k = elem q j k from elem_eq _ _ q j k, show loop.elem "y" ix q' j' k' = elem q' j' k' from elem_eq _ _ q' j' k'] at hs
    change SameElem PtrExample.yvar.g.api _ _ at hs
    rw [api] at hs
    have h : ∀ q ∈ eqs.map (·.1), ∀ q' ∈ eqs.map (·.1), ∀ j < 3, ∀ j' < 3, ∀ k < 8, ∀ k' < 8,
        SameElem apiDims (elem q j k) (elem q' j' k') → q = q' := by decide +kernel
    exact h q hq q' hq' j hj j' hj' k (active hk) k' (active hk') hs
  reads r hr r' hr' q hq hqq j hj j' hj' k k' hk hk' hs := by
    rw [show loop.elem "y" ix q j k = elem q j k from elem_eq _ _ q j k,
      show loop.elem "y" ix (loop.eqs[r']).1 j' k' = elem (loop.eqs[r']).1 j' k' from elem_eq _ _ _ j' k'] at hs
    change SameElem PtrExample.yvar.g.api _ _ at hs
    rw [api] at hs
    exact ordered ⟨r, hr⟩ ⟨r', hr'⟩ q hq j hj j' hj' k (active hk) k' (active hk') hs

/-- The other hypotheses of `C80_lanes_partial` hold for the equations. -/
theorem eqsOk : (loop.eqs.map (·.1)).Nodup ∧ (∀ m, ∀ e ∈ loop.eqs, e.2.All (Ex.NodeOk intArith m node (loop.eqs.map (·.1)))) ∧
    ∀ e ∈ loop.eqs, e.2.Plain intArith := by
  refine ⟨by decide +kernel, ?_, ?_⟩
  · intro m
    simp [loop, part, eqs, p1, p2, p3, Ex.All, Ex.Alls, Ex.NodeOk, Ex.id, node]
  · have h2 : ((3 : ℚ)).den = 1 := by decide
    simp [loop, part, eqs, Ex.Plain, Ex.PlainFold, IntOk, Ex.intOf, intApply, Ex.intFold]
    try norm_num [h2]

/-- An element after `n` iterations. -/
def resultAt (es : List (LPt × Ex LPt)) (rds : List LPt) (n : Nat) (mem : Nat → Int → Int) (x : List Int) : Outcome Int := do
  let m ← (part es rds).run 0 intArith.lanes ix n mem
  let a ← PtrExample.yvar.g.addrOf x
  .ok (m 0 a)

/-- Memory in which each element has its address as value. -/
def mem : Nat → Int → Int := fun _ a => a

def addr (x : List Int) : Outcome Int := PtrExample.yvar.g.addrOf x

/-- Lane 5 of the equations in iteration 2 sets `A(8, 21, 5, 0)` and `A(8, 21, 5, -1)`; lane 6 is not in the mask. -/
example : elem (0, [1, 0, 0, 0]) 2 5 = [8, 21, 5, 0] ∧ elem (0, [1, 0, 0, 0]) 2 6 = [8, 22, 5, 0] ∧
    resultAt eqs [p1, p2, p3] 3 mem [8, 21, 5, 0] = (do let a ← addr [7, 20, 6, -1]; let b ← addr [5, 21, 5, 0]; .ok (a + b * 3)) ∧
    resultAt eqs [p1, p2, p3] 3 mem [8, 21, 5, -1] = (do let a ← addr [7, 21, 3, 0]; let b ← addr [7, 20, 6, -1]; .ok (a - b)) ∧
    resultAt eqs [p1, p2, p3] 3 mem [8, 22, 5, 0] = addr [8, 22, 5, 0] := by decide +kernel

end LoopExample

open LoopExample

/-- C80 is false if an equation reads an element that an earlier one has set: with `A(t+1, x, y, 0) = A(t, x-1, y+1, -1) * 2` and
`A(t+1, x, y, -1) = A(t-2, x, y, 0)`, and storage for three steps, the second equation gets the result of the first. -/
theorem C80_overwritten_wrong :
    let es : List (LPt × Ex LPt) := [((0, [1, 0, 0, 0]), .comm 1 .mul [.read 2 p1, .const 5 2]), ((0, [1, 0, 0, -1]), .read 4 p2)]
    elem (0, [1, 0, 0, -1]) 0 5 = [8, 21, 1, -1] ∧ elem p2 0 5 = [5, 21, 1, 0] ∧
    resultAt es [p1, p2] 1 mem [8, 21, 1, -1] = (do let a ← addr [7, 20, 2, -1]; .ok (a * 2)) ∧
    resultAt es [p1, p2] 1 mem [8, 21, 1, -1] ≠ addr [5, 21, 1, 0] := by decide +kernel

end Yask
