import Verif.Kernel.BBMerge
import Verif.Props.Nano

/-!
# Bounding boxes of conditional equations: properties C10 and C07

`ExactCoverOf l P` (Spec/Cover) says that every point with `P` is in exactly one box of `l` and every
other point in none.
-/

namespace Yask
open Spec BB

/-- C10: for every condition, every overall box with at least one dimension, and every number of scanning
threads, the search ends, the rectangles it finds contain every point of the overall box that satisfies the
condition exactly once and no other point, and none of them is empty. -/
theorem C10_rectangles_exact (cond : List Int → Bool) (nthreads : Int) (hn : 0 < nthreads) (maxBB : Box)
    (hd : maxBB ≠ []) (hord : ∀ r ∈ maxBB, r.1 ≤ r.2) (maxPts : Int) :
    ∃ res, findBoundingBoxes (some cond) nthreads maxBB maxPts = some res ∧
      ExactCoverOf res.list (fun p => InBox p maxBB ∧ cond p = true) ∧
      ∀ bb ∈ res.list, bb.length = maxBB.length ∧ ∀ r ∈ bb, r.1 < r.2 := by
  cases maxBB with
  | nil => exact absurd rfl hd
  | cons r rs =>
    unfold findBoundingBoxes
    by_cases h0 : boxSize (r :: rs) = 0
    · rw [if_pos h0]
      refine ⟨_, rfl, ?_, by simp⟩
      intro p
      rw [if_neg]
      · simp [boxVisits]
      · rintro ⟨h, _⟩
        have := boxPoints_length (r :: rs) hord
        rw [h0] at this
        have hz : RunCfg.boxPoints (r :: rs) = [] := by
          rw [← List.length_eq_zero_iff]; omega
        have := (mem_boxPoints _ _).2 h
        rw [hz] at this
        simp at this
    · rw [if_neg h0]
      have hne : ∀ x ∈ r :: rs, x.1 < x.2 := by
        intro x hx
        have := hord x hx
        by_contra hc
        apply h0
        unfold boxSize
        rw [prodVals_eq]
        apply List.prod_eq_zero_iff.2
        unfold boxLen
        exact List.mem_map.2 ⟨x, hx, by omega⟩
      obtain ⟨n, rfl⟩ := Int.eq_ofNat_of_zero_le (Int.le_of_lt hn)
      obtain ⟨ls, h1, h2, h3⟩ := threads_spec cond n (by omega) r rs hne
      have hinv : MergeInv rs.length (r :: rs) [] ⟨[], r :: rs, 0⟩ :=
        ⟨by simp, fun _ => rfl, rfl, fun _ => rfl, by simp, by simp, by simp, by simp⟩
      have hm := merge_spec ls.flatten [] _ hinv h2
      simp only [boxLen, List.map_cons, List.headD_cons, Int.toNat_natCast]
      rw [h1]
      refine ⟨_, rfl, ?_, ?_⟩
      · intro p
        rw [hm.count p]
        exact h3 p
      · intro bb hb
        exact hm.proper bb hb

/-- C10: the reported number of points is the number of points of the overall box that satisfy the condition:
the length of any list without repetition of exactly those points; such a list exists. -/
theorem C10_num_points_exact (cond : List Int → Bool) (nthreads : Int) (hn : 0 < nthreads) (maxBB : Box)
    (hd : maxBB ≠ []) (hne : ∀ r ∈ maxBB, r.1 < r.2) (maxPts : Int) :
    ∃ res, findBoundingBoxes (some cond) nthreads maxBB maxPts = some res ∧
      ∃ pts : List (List Int), pts.Nodup ∧ (∀ p, p ∈ pts ↔ InBox p maxBB ∧ cond p = true) ∧
        res.numPoints = pts.length := by
  cases maxBB with
  | nil => exact absurd rfl hd
  | cons r rs =>
    unfold findBoundingBoxes
    rw [if_neg (by have := boxSize_pos (n := rs.length + 1) ⟨rfl, hne⟩; omega)]
    obtain ⟨n, rfl⟩ := Int.eq_ofNat_of_zero_le (Int.le_of_lt hn)
    obtain ⟨ls, h1, h2, h3⟩ := threads_spec cond n (by omega) r rs hne
    have hinv : MergeInv rs.length (r :: rs) [] ⟨[], r :: rs, 0⟩ :=
      ⟨by simp, fun _ => rfl, rfl, fun _ => rfl, by simp, by simp, by simp, by simp⟩
    have hm := merge_spec ls.flatten [] _ hinv h2
    simp only [boxLen, List.map_cons, List.headD_cons, Int.toNat_natCast]
    rw [h1]
    obtain ⟨p1, p2⟩ := points_of_cover ls.flatten _ h3
    refine ⟨_, rfl, _, p1, p2, ?_⟩
    rw [hm.num, List.nil_append]
    clear h1 h3 hm p1 p2
    generalize ls.flatten = l at h2
    induction l with
    | nil => rfl
    | cons b l ih =>
      rw [List.map_cons, List.sum_cons, List.flatMap_cons, List.length_append,
        ih fun x hx => h2 x (List.mem_cons_of_mem _ hx)]
      push_cast
      rw [boxPoints_length b fun x hx => Int.le_of_lt ((h2 b List.mem_cons_self).2 x hx)]

/-- C10: if some point satisfies the condition, the overall box reported for the part is the smallest box that
contains all such points. -/
theorem C10_overall_box_least (cond : List Int → Bool) (nthreads : Int) (hn : 0 < nthreads) (maxBB : Box)
    (p0 : List Int) (h0 : InBox p0 maxBB) (hd : maxBB ≠ []) (hc0 : cond p0 = true) (maxPts : Int) :
    ∃ res, findBoundingBoxes (some cond) nthreads maxBB maxPts = some res ∧
      (∀ p, InBox p maxBB → cond p = true → InBox p res.bb) ∧
      ∀ c : Box, (∀ p, InBox p maxBB → cond p = true → InBox p c) →
        List.Forall₂ (fun (x y : Ivl) => y.1 ≤ x.1 ∧ x.2 ≤ y.2) res.bb c := by
  have hne : ∀ r ∈ maxBB, r.1 < r.2 := by
    intro r hr
    obtain ⟨i, hi, rfl⟩ := List.mem_iff_getElem.1 hr
    have hl := inBox_length h0
    have := List.Forall₂.get h0 (i := i) (by omega) hi
    simp only [List.get_eq_getElem] at this
    omega
  cases maxBB with
  | nil => exact absurd rfl hd
  | cons r rs =>
    unfold findBoundingBoxes
    rw [if_neg (by have := boxSize_pos (n := rs.length + 1) ⟨rfl, hne⟩; omega)]
    obtain ⟨n, rfl⟩ := Int.eq_ofNat_of_zero_le (Int.le_of_lt hn)
    obtain ⟨ls, h1, h2, h3⟩ := threads_spec cond n (by omega) r rs hne
    have hinv : MergeInv rs.length (r :: rs) [] ⟨[], r :: rs, 0⟩ :=
      ⟨by simp, fun _ => rfl, rfl, fun _ => rfl, by simp, by simp, by simp, by simp⟩
    have hm := merge_spec ls.flatten [] _ hinv h2
    rw [List.nil_append] at hm
    simp only [boxLen, List.map_cons, List.headD_cons, Int.toNat_natCast]
    rw [h1]
    have hin : ∀ p, InBox p (r :: rs) → cond p = true → ∃ b ∈ ls.flatten, InBox p b := by
      intro p hp hc
      rw [← boxVisits_pos, h3 p, if_pos ⟨hp, hc⟩]
      omega
    have hlne : ls.flatten ≠ [] := by
      obtain ⟨b, hb, _⟩ := hin p0 h0 hc0
      exact List.ne_nil_of_mem hb
    refine ⟨_, rfl, ?_, ?_⟩
    · intro p hp hc
      obtain ⟨b, hb, hpb⟩ := hin p hp hc
      have hi := hm.above hlne b hb
      revert hpb
      generalize (List.foldl mergeStep _ _).bb = B at hi
      intro hpb
      clear hm hb hin hp hc
      unfold Inside at hi
      induction hi generalizing p with
      | nil => exact hpb
      | cons h _ ih =>
        cases hpb with
        | cons a b => exact .cons ⟨Int.le_trans h.1 a.1, Int.lt_of_lt_of_le a.2 h.2⟩ (ih _ b)
    · intro c hc
      apply hm.least hlne c
      intro b hb
      apply inside_of_points (h2 b hb)
      intro p hp
      have hpos : 0 < boxVisits ls.flatten p := (boxVisits_pos _ _).2 ⟨b, hb, hp⟩
      rw [h3 p] at hpos
      split at hpos
      · next h => exact hc p h.1 h.2
      · omega

/-- C10: a part without a condition gets the overall box. -/
theorem C10_unconditional (nthreads : Int) (maxBB : Box) (hord : ∀ r ∈ maxBB, r.1 ≤ r.2) (maxPts : Int) :
    ∃ res, findBoundingBoxes none nthreads maxBB maxPts = some res ∧
      ExactCoverOf res.list (fun p => InBox p maxBB) ∧ res.bb = maxBB ∧ res.numPoints = maxPts := by
  unfold findBoundingBoxes
  by_cases h0 : boxSize maxBB = 0
  · rw [if_pos h0]
    refine ⟨_, rfl, ?_, rfl, rfl⟩
    intro p
    rw [if_neg]
    · simp [boxVisits]
    · intro h
      have := boxPoints_length maxBB hord
      rw [h0] at this
      have hz : RunCfg.boxPoints maxBB = [] := by
        rw [← List.length_eq_zero_iff]; omega
      have := (mem_boxPoints _ _).2 h
      rw [hz] at this
      simp at this
  · rw [if_neg h0]
    exact ⟨_, rfl, fun p => boxVisits_singleton _ _, rfl, rfl⟩

/-- C10 and C07 together: the points written when a conditional part is evaluated on the micro-block `mb` are
exactly the points of `mb` inside the overall box that satisfy the part's condition, each written once. -/
theorem C07_conditional_part_partial (cond : List Int → Bool) (nthreads : Int) (hn : 0 < nthreads)
    (maxBB : Box) (hd : maxBB ≠ []) (hord : ∀ r ∈ maxBB, r.1 ≤ r.2) (maxPts : Int)
    (f g : LoopFeat) (firstInner : Bool) (ms : List Nano.MicroDim) (bind : Option Nano.Binding)
    (hm : ∀ m ∈ ms, 0 < m.fold ∧ 0 < m.nano ∧ 0 < m.align ∧ 0 < m.tile ∧ 0 < m.pico ∧ m.fold ≤ m.nanoTile)
    (hnd : ms.length ≤ 8) (hpts : numPoints (ms.map Nano.MicroDim.fold) ≤ 63)
    (hf : ∃ f', adjFeatures f ms.length = some f') (hg : ∃ g', adjFeatures g ms.length = some g')
    (hbind : ∀ b, bind = some b → 0 < b.nbt) (mb : Box) (hl : mb.length = ms.length)
    (hml : maxBB.length = ms.length) :
    ∃ res writes, findBoundingBoxes (some cond) nthreads maxBB maxPts = some res ∧
      Nano.microWrites f g firstInner ms bind res.list mb = some writes ∧
      ∀ p, writes.count p = if InBox p mb ∧ InBox p maxBB ∧ cond p = true then 1 else 0 := by
  obtain ⟨res, h1, h2, h3⟩ := C10_rectangles_exact cond nthreads hn maxBB hd hord maxPts
  obtain ⟨w, h4, h5⟩ := C07_micro_block_partial f g firstInner ms bind hm hnd hpts hf hg hbind mb hl
    res.list (fun bb hb => by rw [(h3 bb hb).1, hml]) _ h2
  exact ⟨res, w, h1, h4, h5⟩

/-- Not vacuous: an L-shaped condition scanned by one and by two threads. -/
example : findBoundingBoxes (some fun p => decide (p.getD 0 0 < 2 ∨ p.getD 1 0 < 1)) 1 [(0, 4), (0, 3)] 12 =
    some ⟨[[(0, 2), (0, 3)], [(2, 4), (0, 1)]], [(0, 4), (0, 3)], 8⟩ := by decide +kernel
example : findBoundingBoxes (some fun p => decide (p.getD 0 0 < 2 ∨ p.getD 1 0 < 1)) 2 [(0, 4), (0, 3)] 12 =
    some ⟨[[(0, 2), (0, 3)], [(2, 4), (0, 1)]], [(0, 4), (0, 3)], 8⟩ := by decide +kernel
example : findBoundingBoxes (some fun p => decide (p.getD 1 0 < 1)) 3 [(-1, 4), (0, 3)] 15 =
    some ⟨[[(-1, 4), (0, 1)]], [(-1, 4), (0, 1)], 5⟩ := by decide +kernel

end Yask
