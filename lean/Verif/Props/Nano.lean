import Verif.Kernel.MicroLemmas

/-!
# C07, C11: vectorized evaluation of a nano-block, and nano-blocks of a micro-block
-/

namespace Yask
open Spec Nano

/-- C07, partial: evaluating a nano-block with full vectors plus masked peel and remainder vectors writes
every point of the block exactly once and no other point: for every begin and end (also negative, and
relative to any rank offset), every fold, every pico-block size, every accepted set of loop modifiers and
either layout order of the fold.  Partial because the fold must have at most 63 points and there must be
at most 8 dimensions; for 64 points see `C07_fold_64_wrong`. -/
theorem C07_nano_block_partial (f : LoopFeat) (firstInner : Bool) (ds : List NanoDim)
    (hd : ∀ d ∈ ds, 0 < d.fold ∧ 0 < d.pico ∧ d.fold ≤ d.tile ∧ d.b < d.e) (hnd : ds.length ≤ 8)
    (hpts : numPoints (ds.map NanoDim.fold) ≤ 63) (hf : ∃ f', adjFeatures f ds.length = some f') :
    ∃ writes, calcNanoBlock f firstInner ds = some writes ∧
      ∀ p, writes.count p = if InBox p (ds.map fun d => (d.b, d.e)) then 1 else 0 :=
  calcNanoBlock_count ⟨hd, hnd, by rw [prodVals_eq]; exact hpts, hf⟩ firstInner

/-- C07, finding: masks are built by right-shifting a signed 64-bit word, so with a fold of 64 points (the
number of bits of the mask type) a mask that has bit 63 set stays set: evaluating points 0 to 9 also writes
point 63. -/
theorem C07_fold_64_wrong :
    ∃ d : NanoDim, (0 < d.fold ∧ 0 < d.pico ∧ d.fold ≤ d.tile ∧ d.b < d.e) ∧
      numPoints ([d].map NanoDim.fold) = 64 ∧ (d.b, d.e) = (0, 10) ∧
      ((calcNanoBlock {} true [d]).map fun w => w.count [63]) = some 1 :=
  ⟨⟨64, 64, 64, 0, 0, 10⟩, by decide, by decide, by decide, by decide +kernel⟩

/-- C07 for a whole micro-block of one part, partial in the same way: if the full bounding boxes of the part
contain each point satisfying its domain condition `P` exactly once (property C10), then evaluating the part
on the micro-block `mb` writes exactly the points of `mb` that satisfy `P`, each once, with or without
binding threads. -/
theorem C07_micro_block_partial (f g : LoopFeat) (firstInner : Bool) (ms : List MicroDim)
    (bind : Option Binding)
    (hm : ∀ m ∈ ms, 0 < m.fold ∧ 0 < m.nano ∧ 0 < m.align ∧ 0 < m.tile ∧ 0 < m.pico ∧ m.fold ≤ m.nanoTile)
    (hnd : ms.length ≤ 8) (hpts : numPoints (ms.map MicroDim.fold) ≤ 63)
    (hf : ∃ f', adjFeatures f ms.length = some f') (hg : ∃ g', adjFeatures g ms.length = some g')
    (hbind : ∀ b, bind = some b → 0 < b.nbt) (mb : Box) (hl : mb.length = ms.length)
    (bbs : List Box) (hbl : ∀ bb ∈ bbs, bb.length = ms.length)
    (P : List Int → Prop) [DecidablePred P] (hbbs : ExactCoverOf bbs P) :
    ∃ writes, microWrites f g firstInner ms bind bbs mb = some writes ∧
      ∀ p, writes.count p = if InBox p mb ∧ P p then 1 else 0 := by
  obtain ⟨l, h1, h2⟩ := microWrites_count (f := f) (g := g) (bind := bind)
    ⟨fun m h => ⟨(hm m h).1, (hm m h).2.1, (hm m h).2.2.1, (hm m h).2.2.2.1, (hm m h).2.2.2.2.1,
      (hm m h).2.2.2.2.2⟩, hnd, by rw [prodVals_eq]; exact hpts, hf, hg, hbind⟩ firstInner mb hl bbs hbl
  refine ⟨l, h1, fun p => ?_⟩
  rw [h2 p, hbbs p]
  by_cases a : InBox p mb <;> by_cases b : P p <;> simp [a, b]

/-- C11: with bound threads, every inner thread goes through all nano-blocks of the (trimmed) micro-block
and evaluates those whose slab belongs to it; together the threads evaluate nano-blocks that cover the box
exactly once.  Holds for every slab width, number of threads, alignment and position (also negative). -/
theorem C11_thread_binding (f : LoopFeat) (ms : List MicroDim) (posn : Nat) (slab : Int) (nbt : Nat)
    (bx : Box) (hm : ∀ m ∈ ms, 0 < m.fold ∧ 0 < m.nano ∧ 0 < m.align ∧ 0 < m.tile)
    (hl : bx.length = ms.length) (hn : 0 < nbt) (hne : ∀ r ∈ bx, r.1 < r.2)
    (hf : ∃ f', adjFeatures f ms.length = some f') :
    ∃ byThread : Nat → List Box,
      (∀ thr, threadNanoBlocks f ms posn slab nbt bx thr = some (byThread thr)) ∧
      ExactBoxCover ((List.range nbt).flatMap byThread) bx := by
  -- the pico settings do not matter here
  set ms' := ms.map fun m => { m with pico := 1, nanoTile := m.fold } with hms'
  have e : ∀ thr, threadNanoBlocks f ms posn slab nbt bx thr =
      threadNanoBlocks f ms' posn slab nbt bx thr := by
    intro thr
    unfold threadNanoBlocks boundNanoBlocks
    congr 3
    rw [hms', List.zipIdx_map, List.zipWith_map_left]
    rfl
  obtain ⟨parts, h1, h2, _⟩ := threads_cover f ms' posn slab nbt bx (by
    intro m' h'
    obtain ⟨m, h, rfl⟩ := List.mem_map.1 h'
    obtain ⟨a, b, c, d⟩ := hm m h
    exact ⟨a, b, c, d, by simp, by simp⟩) (by simpa [hms'] using hl) hn hne (by simpa [hms'] using hf)
  exact ⟨parts, fun thr => by rw [e]; exact h1 thr, h2⟩

/-- C11: a nano-block is evaluated by exactly one thread, and two nano-blocks whose first index in the
binding dimension lies in the same slab are evaluated by the same thread. -/
theorem C11_one_thread (slab : Int) (nbt : Nat) (hn : 0 < nbt) (start : Int) :
    (∃! thr : Nat, thr < nbt ∧ (thr : Int) = bindThread slab nbt start) ∧
      ∀ start', 0 < slab → (start + 0x1000) / slab = (start' + 0x1000) / slab →
        bindThread slab nbt start = bindThread slab nbt start' := by
  have h0 := imodFlr_nonneg (idivFlr (start + 0x1000) slab) (b := (nbt : Int)) (by omega)
  have h1 := imodFlr_lt (idivFlr (start + 0x1000) slab) (b := (nbt : Int)) (by omega)
  constructor
  · refine ⟨(bindThread slab nbt start).toNat, ?_, ?_⟩
    · show (bindThread slab nbt start).toNat < nbt ∧ _
      unfold bindThread
      constructor <;> omega
    · rintro t ⟨_, ht⟩
      omega
  · intro start' hs he
    unfold bindThread
    rw [idivFlr_eq _ _ hs, idivFlr_eq _ _ hs, he]

-- Peel, full and remainder in one dimension; a block inside one vector in the other; negative indices.
example : ((calcNanoBlock { serp := true } true
    [⟨4, 4, 8, 2, -5, 7⟩, ⟨4, 4, 4, 0, 5, 7⟩]).map List.length) = some (12 * 2) := by decide +kernel

example : (calcNanoBlock {} true [⟨4, 4, 4, 0, -1, 5⟩]) =
    some [[0], [1], [2], [3], [-1], [4]] := by decide +kernel

-- Two bound threads and two bounding boxes.
example : ((microWrites {} { serp := true } true [⟨2, 4, 2, 0, 4, 2, 2, 0⟩, ⟨2, 4, 2, 0, 4, 2, 2, 0⟩]
    (some ⟨1, 4, 2⟩) [[(0, 3), (0, 9)], [(3, 5), (2, 4)]] [(1, 8), (1, 8)]).map List.length) =
    some (2 * 7 + 2 * 2) := by decide +kernel

example : (List.range 3).map (fun thr => threadNanoBlocks {} [⟨1, 4, 1, 0, 1, 1, 1, 0⟩] 0 4 3 [(-6, 9)] thr) =
    [some [[(-4, 0)], [(8, 9)]], some [[(0, 4)]], some [[(-6, -4)], [(4, 8)]]] := by decide +kernel

end Yask
