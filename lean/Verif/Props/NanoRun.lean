import Verif.Kernel.NanoRunMem

/-!
# C81: nano-blocks and micro-blocks are evaluated by the generated code

C07 says which points are written when a nano-block is evaluated; C80 says what one run of the generated inner loop computes. Here both
together: the values after the evaluation of a nano-block and of a micro-block. Model: `Kernel/NanoRunModel.lean`; specification:
`Spec/NanoRunSpec.lean`.
-/

namespace Yask
open Spec Var Comp Spec.Cpp Nano

section
variable {V : Type}

/-- C81 (part), for a nano-block: for all begins and ends, folds, pico-block sizes, paths of the loops and either layout of the fold, and
for all parts as in C80: if different equations and points of the block set different elements, and an element that is set at a point is
read at no other point and there by no later equation, then the evaluation is defined; afterwards each equation has been evaluated at
each point of the block, with the values from before the block, and nothing else has changed. -/
theorem C81_nano_block_partial (p : PartAt) (inner : String) (f : LoopFeat) (firstInner : Bool) (ds : List NanoDim)
    (hd : ∀ d ∈ ds, 0 < d.fold ∧ 0 < d.pico ∧ d.fold ≤ d.tile ∧ d.b < d.e) (hnd : ds.length ≤ 8)
    (hpts : numPoints (ds.map NanoDim.fold) ≤ 63) (hf : ∃ f', adjFeatures f ds.length = some f')
    (hfit : p.Fits inner firstInner (ds.map NanoDim.fold) (ds.map NanoDim.rofs)) (hc : p.c.Ok V inner fun _ => p.t)
    (hi : p.Indep (InBox · (ds.map fun d => (d.b, d.e))))
    (u : V) (A : Arith V) (node : Nat → Ex LPt) (hl : (p.c.eqs.map (·.1)).Nodup)
    (hn : ∀ m, ∀ e ∈ p.c.eqs, e.2.All (Ex.NodeOk A m node (p.c.eqs.map (·.1)))) (hp : ∀ e ∈ p.c.eqs, e.2.Plain A) (mem : Nat → Int → V) :
    ∃ mem', p.runNano u A f firstInner ds mem = .ok mem' ∧
      (∀ e ∈ p.c.eqs, ∀ x, InBox x (ds.map fun d => (d.b, d.e)) → ∃ a, (p.c.vars e.1.1).g.addrOf (p.elemAt e.1 x) = .ok a ∧
        mem' e.1.1 a = e.2.value A fun q => match (p.c.vars q.1).g.addrOf (p.elemAt q x) with
          | .ok b => mem q.1 b
          | _ => u) ∧
      ∀ i b, (∀ e ∈ p.c.eqs, e.1.1 = i → ∀ x, InBox x (ds.map fun d => (d.b, d.e)) →
        (p.c.vars i).g.addrOf (p.elemAt e.1 x) ≠ .ok b) → mem' i b = mem i b := by
  have hok : NanoOk f ds := ⟨hd, hnd, by rw [prodVals_eq]; exact hpts, hf⟩
  obtain ⟨rs, r1, r2, r3⟩ := nanoRuns_spec hok firstInner
  obtain ⟨l, l1, l2⟩ := calcNanoBlock_count hok firstInner
  rw [r2] at l1
  injection l1 with l1
  rw [← l1] at l2
  have hnod : (rs.flatMap (runPoints firstInner ds)).Nodup := List.nodup_iff_count_le_one.2 fun x => by rw [l2]; split <;> omega
  have hm : ∀ x, x ∈ rs.flatMap (runPoints firstInner ds) ↔ InBox x (ds.map fun d => (d.b, d.e)) := by
    intro x
    rw [← List.count_pos_iff, l2]
    split <;> simp_all
  obtain ⟨mem', m1, m2⟩ := runInners_evals hfit hc (fun d h => (hd d h).1) u A node hl hn hp rs r3 hnod
    (hi.mono fun x hx => (hm x).1 hx) mem
  refine ⟨mem', ?_, Evals.congr hm m2⟩
  unfold PartAt.runNano
  rw [r1]
  exact m1

/-- C81 (part), for a micro-block: the same for all runs of the inner loop in a micro-block, in whatever order the threads execute them,
if the full bounding boxes of the part contain each point that satisfies its domain condition `P` exactly once (C10): the equations are
evaluated at exactly the points of the micro-block that satisfy the condition. -/
theorem C81_micro_block_partial (p : PartAt) (inner : String) (f g : LoopFeat) (firstInner : Bool) (ms : List MicroDim)
    (bind : Option Binding)
    (hm : ∀ m ∈ ms, 0 < m.fold ∧ 0 < m.nano ∧ 0 < m.align ∧ 0 < m.tile ∧ 0 < m.pico ∧ m.fold ≤ m.nanoTile)
    (hnd : ms.length ≤ 8) (hpts : numPoints (ms.map MicroDim.fold) ≤ 63)
    (hf : ∃ f', adjFeatures f ms.length = some f') (hg : ∃ g', adjFeatures g ms.length = some g')
    (hbind : ∀ b, bind = some b → 0 < b.nbt) (mb : Box) (hmb : mb.length = ms.length)
    (bbs : List Box) (hbl : ∀ bb ∈ bbs, bb.length = ms.length)
    (P : List Int → Prop) [DecidablePred P] (hbbs : ExactCoverOf bbs P)
    (hfit : p.Fits inner firstInner (ms.map MicroDim.fold) (ms.map MicroDim.rofs)) (hc : p.c.Ok V inner fun _ => p.t)
    (hi : p.Indep fun x => InBox x mb ∧ P x)
    (u : V) (A : Arith V) (node : Nat → Ex LPt) (hl : (p.c.eqs.map (·.1)).Nodup)
    (hn : ∀ m, ∀ e ∈ p.c.eqs, e.2.All (Ex.NodeOk A m node (p.c.eqs.map (·.1)))) (hp : ∀ e ∈ p.c.eqs, e.2.Plain A) (mem : Nat → Int → V) :
    ∃ runs, microRuns f g firstInner ms bind bbs mb = some runs ∧ ∀ rs, rs.Perm runs → ∃ mem', p.runInners u A rs mem = .ok mem' ∧
      (∀ e ∈ p.c.eqs, ∀ x, InBox x mb ∧ P x → ∃ a, (p.c.vars e.1.1).g.addrOf (p.elemAt e.1 x) = .ok a ∧
        mem' e.1.1 a = e.2.value A fun q => match (p.c.vars q.1).g.addrOf (p.elemAt q x) with
          | .ok b => mem q.1 b
          | _ => u) ∧
      ∀ i b, (∀ e ∈ p.c.eqs, e.1.1 = i → ∀ x, InBox x mb ∧ P x → (p.c.vars i).g.addrOf (p.elemAt e.1 x) ≠ .ok b) →
        mem' i b = mem i b := by
  have hok : MicroOk f g ms bind := ⟨fun m h => ⟨(hm m h).1, (hm m h).2.1, (hm m h).2.2.1, (hm m h).2.2.2.1, (hm m h).2.2.2.2.1,
      (hm m h).2.2.2.2.2⟩, hnd, by rw [prodVals_eq]; exact hpts, hf, hg, hbind⟩
  obtain ⟨runs, r1, r2, r3⟩ := microRuns_spec hok firstInner mb hmb bbs hbl
  obtain ⟨l, l1, l2⟩ := microWrites_count hok firstInner mb hmb bbs hbl
  rw [r2] at l1
  injection l1 with l1
  rw [← l1] at l2
  have hfo := nanoDims_fold ms mb hmb
  have hro := nanoDims_rofs ms mb hmb
  have hln : (nanoDims ms mb).length = ms.length := by simp [nanoDims, hmb]
  refine ⟨runs, r1, fun rs hrs => ?_⟩
  have hcnt : ∀ x, (rs.flatMap (runPoints firstInner (nanoDims ms mb))).count x = if InBox x mb ∧ P x then 1 else 0 := by
    intro x
    rw [(hrs.flatMap_right _).count_eq, l2, hbbs x]
    by_cases a : InBox x mb <;> by_cases b : P x <;> simp [a, b]
  have hnod : (rs.flatMap (runPoints firstInner (nanoDims ms mb))).Nodup :=
    List.nodup_iff_count_le_one.2 fun x => by rw [hcnt]; split <;> omega
  have hmm : ∀ x, x ∈ rs.flatMap (runPoints firstInner (nanoDims ms mb)) ↔ InBox x mb ∧ P x := by
    intro x
    rw [← List.count_pos_iff, hcnt]
    split <;> simp_all
  obtain ⟨mem', m1, m2⟩ := runInners_evals (ds := nanoDims ms mb) (by rw [hfo, hro]; exact hfit) hc (by
      intro d hd
      have : d.fold ∈ ms.map MicroDim.fold := by rw [← hfo]; exact List.mem_map_of_mem hd
      obtain ⟨m, h1, h2⟩ := List.mem_map.1 this
      rw [← h2]
      exact (hm m h1).1) u A node hl hn hp rs (by
      intro r hr
      rw [hfo, hln]
      exact r3 r (hrs.mem_iff.1 hr)) hnod (hi.mono fun x hx => (hmm x).1 hx) mem
  exact ⟨mem', m1, Evals.congr hmm m2⟩

end

/-! ### An example: the equations of `LoopExample` in a block whose borders are within vectors -/

namespace NanoRunExample
open LoopExample

/-- The part of `LoopExample` in dims `x` and `y`, at step 7. -/
def partAt : PartAt := ⟨loop, ["x", "y"], "t", 7⟩

/-- Points 22 to 28 in `x`, where the rank starts at 20, and 1 to 5 in `y`; the fold is 4 by 2. -/
def ds : List NanoDim := [⟨4, 4, 4, 20, 22, 29⟩, ⟨2, 4, 4, 0, 1, 6⟩]

theorem fits : partAt.Fits "y" true (ds.map NanoDim.fold) (ds.map NanoDim.rofs) := by
  refine ⟨by decide +kernel, by decide, by decide, by decide, by decide, by decide, ?_⟩
  intro q _
  have h : ∀ x ∈ ["t", "x", "y", "m"].zip (PtrExample.yvar.g.dims.map fun d => (d.kind, d.rankOfs)),
      (x.2.1 = .step → x.1 = "t") ∧ (x.2.1 = .domain → (["x", "y"].zip (ds.map NanoDim.rofs)).lookup x.1 = some x.2.2) := by
    decide +kernel
  intro x hx
  have hx2 : (x.1, (x.2.kind, x.2.rankOfs)) ∈ ["t", "x", "y", "m"].zip (PtrExample.yvar.g.dims.map fun d => (d.kind, d.rankOfs)) := by
    rw [List.zip_map_right]
    exact List.mem_map.2 ⟨x, hx, rfl⟩
  obtain ⟨h1, h2⟩ := h _ hx2
  simp only at h1 h2
  cases hk : x.2.kind with
  | step => exact h1 hk
  | domain => exact h2 hk
  | misc => trivial

theorem varOk7 (i : Nat) : partAt.c.VarOk Int "y" (fun _ => partAt.t) i := by
  have hv := varOk eqs [p1, p2, p3] i
  exact ⟨hv.reach, hv.steps, hv.misc, hv.var, hv.slots, hv.fold, hv.inner, hv.foldable⟩

theorem codeOk : partAt.c.Ok Int "y" fun _ => partAt.t where
  var q hq := by
    obtain ⟨_, hl⟩ := loopOk.var q hq
    exact ⟨.inl (varOk7 q.1), hl⟩
  lhs e he := ⟨varOk7 e.1.1, (loopOk.lhs e he).2⟩
  inner := rfl
  aligned := loopOk.aligned
  order := loopOk.order
  selBit := loopOk.selBit
  mask := loopOk.mask

/-- Points of the block. -/
def pt (i j : Nat) : List Int := [22 + (i : Int), 1 + (j : Int)]

theorem box_pt {x : List Int} (h : InBox x (ds.map fun d => (d.b, d.e))) : ∃ i < 7, ∃ j < 5, x = pt i j := by
  simp only [ds, List.map_cons, List.map_nil] at h
  cases h with
  | cons h1 h =>
    cases h with
    | cons h2 h =>
      cases h with
      | nil =>
        rename_i a b
        obtain ⟨h1, h1'⟩ := h1
        obtain ⟨h2, h2'⟩ := h2
        refine ⟨(a - 22).toNat, by simp at *; omega, (b - 1).toNat, by simp at *; omega, ?_⟩
        simp at h1 h2
        simp [pt]
        omega

/-- The element that a point means. -/
def elem (q : LPt) (i j : Nat) : List Int :=
  gridElem (gridIndex "t" 7 ["x", "y"] (pt i j)) ["t", "x", "y", "m"] [.step, .domain 4 20, .domain 2 0, .misc] q.2

theorem elemAt_eq (q : LPt) (i j : Nat) : partAt.elemAt q (pt i j) = elem q i j := by
  show gridElem _ ["t", "x", "y", "m"] (PtrExample.yvar.g.dims.map accessDim) _ = _
  rw [accessDims]
  rfl

/-- `A(t, x-1, y+1, -1)` at `x` = 24 and `y` = 2. -/
example : pt 2 1 = [24, 2] ∧ elem p1 2 1 = [7, 23, 3, -1] := by decide +kernel

def sameAt (i j i' j' r r' : Nat) : Prop := (i = i' ∧ j = j') ∧ r ≤ r'

instance (i j i' j' r r' : Nat) : Decidable (sameAt i j i' j' r r') := by unfold sameAt; infer_instance

def orderedPt (r : Nat) (q : LPt) (r' : Nat) (q' : LPt) : Prop := ∀ i < 7, ∀ j < 5, ∀ i' < 7, ∀ j' < 5,
  SameElem apiDims (elem q i j) (elem q' i' j') → sameAt i j i' j' r r'

instance (r : Nat) (q : LPt) (r' : Nat) (q' : LPt) : Decidable (orderedPt r q r' q') := by unfold orderedPt; infer_instance

theorem orderedPts : ∀ r r' : Fin eqs.length, ∀ q ∈ (eqs[r]).2.points, orderedPt r q r' (eqs[r']).1 := by decide +kernel

def distinct (q q' : LPt) (i j i' j' : Nat) : Prop := q = q' ∧ i = i' ∧ j = j'

instance (q q' : LPt) (i j i' j' : Nat) : Decidable (distinct q q' i j i' j') := by unfold distinct; infer_instance

theorem indep : partAt.Indep (InBox · (ds.map fun d => (d.b, d.e))) where
  range q hq x hx := by
    obtain ⟨i, hi, j, hj, rfl⟩ := box_pt hx
    rw [elemAt_eq]
    show InRangeButStep PtrExample.yvar.g.api _
    rw [api]
    have h1 : q ∈ eqs.map (·.1) ++ [p1, p2, p3] := by
      have := isRead q
      exact List.mem_append.2 (hq.imp id this.1)
    have h : ∀ q ∈ eqs.map (·.1) ++ [p1, p2, p3], ∀ i < 7, ∀ j < 5, InRangeButStep apiDims (elem q i j) := by
      unfold InRangeButStep
      decide +kernel
    exact h q h1 i hi j hj
  writes q hq q' hq' hqq x y hx hy hs := by
    obtain ⟨i, hi, j, hj, rfl⟩ := box_pt hx
    obtain ⟨i', hi', j', hj', rfl⟩ := box_pt hy
    rw [elemAt_eq, elemAt_eq] at hs
    change SameElem PtrExample.yvar.g.api _ _ at hs
    rw [api] at hs
    have h : ∀ q ∈ eqs.map (·.1), ∀ q' ∈ eqs.map (·.1), ∀ i < 7, ∀ j < 5, ∀ i' < 7, ∀ j' < 5,
        SameElem apiDims (elem q i j) (elem q' i' j') → distinct q q' i j i' j' := by decide +kernel
    obtain ⟨h1, h2, h3⟩ := h q hq q' hq' i hi j hj i' hi' j' hj' hs
    exact ⟨h1, by rw [h2, h3]⟩
  reads r hr r' hr' q hq hqq x y hx hy hs := by
    obtain ⟨i, hi, j, hj, rfl⟩ := box_pt hx
    obtain ⟨i', hi', j', hj', rfl⟩ := box_pt hy
    rw [elemAt_eq, elemAt_eq] at hs
    change SameElem PtrExample.yvar.g.api _ _ at hs
    rw [api] at hs
    obtain ⟨⟨h1, h2⟩, h3⟩ := orderedPts ⟨r, hr⟩ ⟨r', hr'⟩ q hq i hi j hj i' hi' j' hj' hs
    exact ⟨by rw [h1, h2], h3⟩

/-- The hypotheses of `C81_nano_block_partial`. -/
example : (∀ d ∈ ds, 0 < d.fold ∧ 0 < d.pico ∧ d.fold ≤ d.tile ∧ d.b < d.e) ∧ ds.length ≤ 8 ∧ numPoints (ds.map NanoDim.fold) ≤ 63 ∧
    (∃ f', adjFeatures { serp := true } ds.length = some f') ∧ partAt.Fits "y" true (ds.map NanoDim.fold) (ds.map NanoDim.rofs) ∧
    (partAt.c.Ok Int "y" fun _ => partAt.t) ∧ partAt.Indep (InBox · (ds.map fun d => (d.b, d.e))) :=
  ⟨by decide, by decide, by decide, ⟨_, rfl⟩, fits, codeOk, indep⟩

/-- The runs of the inner loop: two full vectors in one run, then parts of vectors. -/
example : (nanoRuns { serp := true } true ds).map (fun l => l.map fun r => (r.first, r.n, r.mask.toNat)) =
    some [([1, 1], 2, 2 ^ 64 - 1), ([0, 1], 2, 204), ([2, 1], 2, 17), ([1, 0], 1, 240), ([0, 0], 1, 192), ([2, 0], 1, 16)] := by
  decide +kernel

/-- An element after the evaluation of the block by the code of a part. -/
def after (p : PartAt) (ds : List NanoDim) (mem : Nat → Int → Int) (x : List Int) : Outcome Int := do
  let m ← p.runNano 0 intArith { serp := true } true ds mem
  let a ← PtrExample.yvar.g.addrOf x
  .ok (m 0 a)

/-- The first equation at a point in a full vector, and at one in a partial vector; a point outside the block. -/
example : after partAt ds mem [8, 24, 2, 0] = (do let a ← addr [7, 23, 3, -1]; let b ← addr [5, 24, 2, 0]; .ok (a + b * 3)) ∧
    after partAt ds mem [8, 28, 5, 0] = (do let a ← addr [7, 27, 6, -1]; let b ← addr [5, 28, 5, 0]; .ok (a + b * 3)) ∧
    after partAt ds mem [8, 29, 5, 0] = addr [8, 29, 5, 0] := by decide +kernel

/-- A micro-block with nano-blocks of 4 by 2 points, for a part with one bounding box. -/
def ms : List MicroDim := [⟨4, 4, 4, 20, 4, 4, 4, 20⟩, ⟨2, 2, 2, 0, 2, 2, 2, 0⟩]
def mb : Box := [(20, 32), (1, 8)]
def bb : Box := [(22, 29), (-2, 6)]

theorem micro_box {x : List Int} (h : InBox x mb ∧ InBox x bb) : InBox x (ds.map fun d => (d.b, d.e)) := by
  obtain ⟨h1, h2⟩ := h
  simp only [mb, bb] at h1 h2
  cases h1 with
  | cons a1 h1 =>
    cases h1 with
    | cons a2 h1 =>
      cases h1 with
      | nil =>
        cases h2 with
        | cons b1 h2 =>
          cases h2 with
          | cons b2 h2 =>
            unfold InIvl at a1 a2 b1 b2
            simp only at a1 a2 b1 b2
            refine .cons ⟨?_, ?_⟩ (.cons ⟨?_, ?_⟩ .nil) <;> simp <;> omega

/-- The hypotheses of `C81_micro_block_partial`. -/
example : (∀ m ∈ ms, 0 < m.fold ∧ 0 < m.nano ∧ 0 < m.align ∧ 0 < m.tile ∧ 0 < m.pico ∧ m.fold ≤ m.nanoTile) ∧
    numPoints (ms.map MicroDim.fold) ≤ 63 ∧ (∃ f', adjFeatures { serp := true } ms.length = some f') ∧
    ExactCoverOf [bb] (InBox · bb) ∧ partAt.Fits "y" true (ms.map MicroDim.fold) (ms.map MicroDim.rofs) ∧
    (partAt.c.Ok Int "y" fun _ => partAt.t) ∧ partAt.Indep fun x => InBox x mb ∧ InBox x bb :=
  ⟨by decide, by decide, ⟨_, rfl⟩, fun x => by simp [boxVisits, List.countP_cons], fits, codeOk, indep.mono fun _ h => micro_box h⟩

/-- The runs of the inner loop in the micro-block: nine nano-blocks. -/
example : (microRuns {} { serp := true } true ms none [bb] mb).map List.length = some 9 := by decide +kernel

end NanoRunExample

open LoopExample NanoRunExample

/-- C81 is false if an equation reads an element that is set at another point of the block: with `A(t+1, x, y, 0) = A(t-2, x-1, y, 0) * 2`
and storage for three steps, what is read at `x` = 28 is the result at `x` = 27, but at `x` = 24 it is not the result at `x` = 23. -/
theorem C81_other_point_wrong :
    let p4 : LPt := (0, [-2, -1, 0, 0])
    let q : PartAt := { partAt with c := part [((0, [1, 0, 0, 0]), .comm 1 .mul [.read 2 p4, .const 5 2])] [p4] }
    q.elemAt (0, [1, 0, 0, 0]) [28, 2] = [8, 28, 2, 0] ∧ q.elemAt p4 [28, 2] = [5, 27, 2, 0] ∧
    after q ds mem [8, 28, 2, 0] = (do let a ← addr [5, 26, 2, 0]; .ok (a * 2 * 2)) ∧
    after q ds mem [8, 28, 2, 0] ≠ (do let a ← addr [5, 27, 2, 0]; .ok (a * 2)) ∧
    after q ds mem [8, 24, 2, 0] = (do let a ← addr [5, 23, 2, 0]; .ok (a * 2)) := by decide +kernel

end Yask
