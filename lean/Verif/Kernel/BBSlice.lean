import Verif.Kernel.BBScan

/-! Helper lemmas about the search for bounding boxes: one slice, and all threads. -/

namespace Yask.BB
open Spec

theorem inBox_cons' (x : Int) (p : List Int) (r : Ivl) (bx : Box) :
    InBox (x :: p) (r :: bx) ↔ InIvl x r ∧ InBox p bx := List.forall₂_cons

theorem isInBB_iff (bb : Box) (p : List Int) (h : p.length = bb.length) :
    isInBB bb p = true ↔ InBox p bb := by
  induction bb generalizing p with
  | nil =>
    have : p = [] := by simpa using h
    subst this
    simp [isInBB, InBox]
  | cons r bb ih =>
    cases p with
    | nil => simp at h
    | cons x p =>
      rw [inBox_cons', ← ih p (by simpa using h)]
      simp [isInBB, InIvl]

theorem boxVisits_pos (l : List Box) (p : List Int) : 0 < boxVisits l p ↔ ∃ bb ∈ l, InBox p bb := by
  unfold boxVisits
  rw [List.countP_pos_iff]
  simp

theorem isFresh_iff (cond : List Int → Bool) (cur : List Box) (p : List Int)
    (h : ∀ bb ∈ cur, bb.length = p.length) :
    isFresh cond cur p = true ↔ cond p = true ∧ boxVisits cur p = 0 := by
  have e : (cur.any fun bb => isInBB bb p) = true ↔ 0 < boxVisits cur p := by
    rw [boxVisits_pos, List.any_eq_true]
    constructor
    · rintro ⟨bb, h1, h2⟩; exact ⟨bb, h1, (isInBB_iff bb p (h bb h1).symm).1 h2⟩
    · rintro ⟨bb, h1, h2⟩; exact ⟨bb, h1, (isInBB_iff bb p (h bb h1).symm).2 h2⟩
  unfold isFresh
  rw [Bool.and_eq_true, Bool.not_eq_true', ← Bool.not_eq_true, e]
  constructor <;> rintro ⟨a, b⟩ <;> exact ⟨a, by omega⟩

/-- A box without empty ranges, of `n` dimensions. -/
def Proper (n : Nat) (bx : Box) : Prop := bx.length = n ∧ ∀ r ∈ bx, r.1 < r.2

theorem rest_lens (slice : Box) (pt : List Int) (h : InBox pt slice) :
    (List.zipWith (fun (r : Ivl) x => r.2 - x) slice pt).length = pt.length ∧
    (∀ l ∈ List.zipWith (fun (r : Ivl) x => r.2 - x) slice pt, 0 < l) ∧
    (List.zipWith (fun (r : Ivl) x => r.2 - x) slice pt).sum ≤ (boxLen slice).sum := by
  unfold InBox at h
  induction h with
  | nil => simp [boxLen]
  | @cons x r p bx h t ih =>
    obtain ⟨h1, h2, h3⟩ := ih
    refine ⟨by simp [h1], ?_, ?_⟩
    · intro l hl
      rcases List.mem_cons.1 hl with rfl | hl
      · have := h.2; show 0 < r.2 - x; omega
      · exact h2 l hl
    · simp only [List.zipWith_cons_cons, List.sum_cons, boxLen, List.map_cons]
      have := h.1
      unfold boxLen at h3
      omega

/-- Points of the box from `pt` with lengths `lens`. -/
theorem inBox_from (pt lens p : List Int) (hl : pt.length = lens.length) :
    InBox p (List.zipWith (fun x l => (x, x + l)) pt lens) ↔
      ∃ q, InSpace lens q ∧ p = addPts pt q := by
  induction pt generalizing lens p with
  | nil =>
    have : lens = [] := by simpa using hl.symm
    subst this
    constructor
    · intro h
      have : p = [] := by cases h; rfl
      exact ⟨[], .nil, this⟩
    · rintro ⟨q, _, rfl⟩; exact .nil
  | cons x pt ih =>
    cases lens with
    | nil => simp at hl
    | cons l lens =>
      have hl' : pt.length = lens.length := by simpa using hl
      rw [List.zipWith_cons_cons]
      constructor
      · intro h
        cases h with
        | @cons y _ p' _ h1 h2 =>
          obtain ⟨q, hq, rfl⟩ := (ih lens p' hl').1 h2
          have a := h1.1
          have b := h1.2
          simp only at a b
          refine ⟨(y - x) :: q, .cons ⟨by omega, by omega⟩ hq, ?_⟩
          unfold addPts
          rw [List.zipWith_cons_cons]
          congr 1
          omega
      · rintro ⟨q, hq, rfl⟩
        unfold InSpace at hq
        cases hq with
        | @cons a _ q' _ h1 h2 =>
          unfold addPts
          rw [List.zipWith_cons_cons, inBox_cons']
          refine ⟨⟨by simp only; omega, by simp only; omega⟩, (ih lens _ hl').2 ⟨q', h2, rfl⟩⟩

theorem rest_in_slice (slice : Box) (pt q : List Int) (h : InBox pt slice)
    (hq : InSpace (List.zipWith (fun (r : Ivl) x => r.2 - x) slice pt) q) : InBox (addPts pt q) slice := by
  unfold InBox at h
  induction h generalizing q with
  | nil => exact .nil
  | @cons x r p bx h t ih =>
    unfold InSpace at hq
    rw [List.zipWith_cons_cons] at hq
    cases hq with
    | @cons a _ q' _ h1 h2 =>
      unfold addPts
      rw [List.zipWith_cons_cons, inBox_cons']
      have := h.1
      exact ⟨⟨by omega, by omega⟩, ih q' h2⟩

theorem inBox_length {p : List Int} {bx : Box} (h : InBox p bx) : p.length = bx.length := h.length_eq

theorem findRect_spec (cond : List Int → Bool) (slice : Box) (cur : List Box) (pt : List Int)
    (hcur : ∀ bb ∈ cur, bb.length = slice.length) (hin : InBox pt slice)
    (hf : isFresh cond cur pt = true) :
    ∃ bb, findRect cond slice cur pt = some bb ∧ Proper slice.length bb ∧ InBox pt bb ∧
      ∀ p, InBox p bb → InBox p slice ∧ cond p = true ∧ boxVisits cur p = 0 := by
  obtain ⟨h1, h2, h3⟩ := rest_lens slice pt hin
  obtain ⟨r, hr, hle, hpos, hall⟩ := scanLoop_spec (isFresh cond cur) pt hf
    ((sumVals (boxLen slice)).toNat + 1) _ h1.symm h2 (by
      have e : sumVals (boxLen slice) = (boxLen slice).sum := by
        unfold sumVals
        have : ∀ (l : List Int) (a : Int), l.foldl (· + ·) a = a + l.sum := by
          intro l
          induction l with
          | nil => simp
          | cons b l ih => intro a; rw [List.foldl_cons, ih, List.sum_cons]; omega
        cases boxLen slice with
        | nil => rfl
        | cons a l => simp only [this, List.sum_cons]
      rw [e]
      push_cast
      omega)
  have hrl : pt.length = r.length := by rw [hle.length_eq, h1]
  have hsl := inBox_length hin
  refine ⟨_, by unfold findRect; rw [hr]; rfl, ⟨?_, ?_⟩, ?_, ?_⟩
  · simp; omega
  · intro x hx
    rw [List.mem_iff_getElem] at hx
    obtain ⟨i, hi, rfl⟩ := hx
    simp only [List.length_zipWith] at hi
    simp only [List.getElem_zipWith]
    have := hpos r[i] (List.getElem_mem _)
    omega
  · rw [inBox_from pt r pt hrl]
    refine ⟨r.map fun _ => 0, ?_, ?_⟩
    · unfold InSpace
      clear hr hle hall hrl
      induction r with
      | nil => exact .nil
      | cons a r ih =>
        exact .cons ⟨Int.le_refl _, hpos a List.mem_cons_self⟩ (ih fun l hl => hpos l (List.mem_cons_of_mem _ hl))
    · rw [addPts_zero _ _ (by simp [hrl])]
      intro o ho
      simp only [List.mem_map] at ho
      obtain ⟨_, _, rfl⟩ := ho
      rfl
  · intro p hp
    obtain ⟨q, hq, rfl⟩ := (inBox_from pt r p hrl).1 hp
    have hin' := rest_in_slice slice pt q hin (inSpace_mono hle hq)
    have hfr := hall q hq
    rw [isFresh_iff _ _ _ fun bb hb => by rw [hcur bb hb, inBox_length hin']] at hfr
    exact ⟨hin', hfr⟩

/-! ### One slice -/

/-- Invariant of the list of boxes of a slice. -/
structure SliceInv (cond : List Int → Bool) (slice : Box) (cur : List Box) : Prop where
  proper : ∀ bb ∈ cur, Proper slice.length bb
  le_one : ∀ p, boxVisits cur p ≤ 1
  sound : ∀ p, 0 < boxVisits cur p → InBox p slice ∧ cond p = true

theorem boxVisits_append (a b : List Box) (p : List Int) :
    boxVisits (a ++ b) p = boxVisits a p + boxVisits b p := by
  unfold boxVisits; rw [List.countP_append]

theorem boxVisits_singleton (bb : Box) (p : List Int) :
    boxVisits [bb] p = if InBox p bb then 1 else 0 := by
  unfold boxVisits
  simp [List.countP_cons]

theorem slicePoint_spec (cond : List Int → Bool) (slice : Box) (cur : List Box)
    (h : SliceInv cond slice cur) (pt : List Int) (hin : InBox pt slice) :
    ∃ cur', slicePoint cond slice (some cur) pt = some cur' ∧ SliceInv cond slice cur' ∧
      (cond pt = true → boxVisits cur' pt = 1) ∧ ∀ p, boxVisits cur p ≤ boxVisits cur' p := by
  have hfi := isFresh_iff cond cur pt fun bb hb => by rw [(h.proper bb hb).1, inBox_length hin]
  unfold slicePoint
  rw [Option.bind_some]
  by_cases hf : isFresh cond cur pt = true
  · rw [if_pos hf]
    obtain ⟨bb, h1, h2, h3, h4⟩ := findRect_spec cond slice cur pt (fun bb hb => (h.proper bb hb).1) hin hf
    refine ⟨cur ++ [bb], by rw [h1]; rfl, ⟨?_, ?_, ?_⟩, ?_, ?_⟩
    · intro b hb
      rcases List.mem_append.1 hb with hb | hb
      · exact h.proper b hb
      · rw [List.mem_singleton] at hb; subst hb; exact h2
    · intro p
      rw [boxVisits_append, boxVisits_singleton]
      split
      · next hp => have := (h4 p hp).2.2; omega
      · have := h.le_one p; omega
    · intro p hp
      rw [boxVisits_append, boxVisits_singleton] at hp
      split at hp
      · next hp' => exact ⟨(h4 p hp').1, (h4 p hp').2.1⟩
      · exact h.sound p (by omega)
    · intro _
      rw [boxVisits_append, boxVisits_singleton, if_pos h3, (hfi.1 hf).2]
    · intro p; rw [boxVisits_append]; omega
  · rw [if_neg hf]
    refine ⟨cur, rfl, h, ?_, fun p => Nat.le_refl _⟩
    intro hc
    rw [hfi, not_and] at hf
    have := hf hc
    have := h.le_one pt
    omega

theorem slice_fold (cond : List Int → Bool) (slice : Box) (pts : List (List Int))
    (hpts : ∀ p ∈ pts, InBox p slice) (cur : List Box) (h : SliceInv cond slice cur) :
    ∃ cur', pts.foldl (slicePoint cond slice) (some cur) = some cur' ∧ SliceInv cond slice cur' ∧
      (∀ p ∈ pts, cond p = true → boxVisits cur' p = 1) ∧ ∀ p, boxVisits cur p ≤ boxVisits cur' p := by
  induction pts generalizing cur with
  | nil => exact ⟨cur, rfl, h, by simp, fun p => Nat.le_refl _⟩
  | cons pt pts ih =>
    obtain ⟨c1, a1, a2, a3, a4⟩ := slicePoint_spec cond slice cur h pt (hpts pt List.mem_cons_self)
    obtain ⟨c2, b1, b2, b3, b4⟩ := ih (fun p hp => hpts p (List.mem_cons_of_mem _ hp)) c1 a2
    refine ⟨c2, by rw [List.foldl_cons, a1, b1], b2, ?_, fun p => Nat.le_trans (a4 p) (b4 p)⟩
    intro p hp hc
    rcases List.mem_cons.1 hp with rfl | hp
    · have := a3 hc
      have := b4 p
      have := b2.le_one p
      omega
    · exact b3 p hp hc

theorem box_from_begin (slice : Box) :
    List.zipWith (fun x l => (x, x + l)) (slice.map Prod.fst) (boxLen slice) = slice := by
  unfold boxLen
  induction slice with
  | nil => rfl
  | cons r s ih =>
    simp only [List.map_cons, List.zipWith_cons_cons, ih]
    congr 1
    exact Prod.ext rfl (by simp only; omega)

theorem findInSlice_spec (cond : List Int → Bool) (slice : Box) (hne : ∀ r ∈ slice, r.1 < r.2) :
    ∃ l, findInSlice cond slice = some l ∧ (∀ bb ∈ l, Proper slice.length bb) ∧
      ∀ p, boxVisits l p = if InBox p slice ∧ cond p = true then 1 else 0 := by
  have hpos : ∀ d ∈ boxLen slice, 0 < d := by
    intro d hd
    unfold boxLen at hd
    obtain ⟨r, hr, rfl⟩ := List.mem_map.1 hd
    have := hne r hr
    omega
  have hlen : (slice.map Prod.fst).length = (boxLen slice).length := by simp [boxLen]
  have hmem : ∀ p, InBox p slice ↔ ∃ q, InSpace (boxLen slice) q ∧ p = addPts (slice.map Prod.fst) q := by
    intro p
    rw [← inBox_from _ _ p hlen, box_from_begin]
  have e : findInSlice cond slice =
      (((List.range (numPoints (boxLen slice)).toNat).map (unlayoutVals true (boxLen slice))).map
        (addPts (slice.map Prod.fst))).foldl (slicePoint cond slice) (some []) := by
    unfold findInSlice
    rw [C38_visit_indices true _ hpos, foldUntil_true]
    simp only [List.foldl_map]
  obtain ⟨hnd, hcomp⟩ := C38_points_complete true (boxLen slice) hpos
  obtain ⟨l, h1, h2, h3, h4⟩ := slice_fold cond slice
    (((List.range (numPoints (boxLen slice)).toNat).map (unlayoutVals true (boxLen slice))).map
        (addPts (slice.map Prod.fst)))
    (by
      intro p hp
      obtain ⟨q, hq, rfl⟩ := List.mem_map.1 hp
      exact (hmem _).2 ⟨q, (hcomp q).1 hq, rfl⟩) []
    ⟨by simp, by simp [boxVisits], by simp [boxVisits]⟩
  refine ⟨l, by rw [e, h1], h2.proper, fun p => ?_⟩
  split
  · next hp =>
    obtain ⟨q, hq, rfl⟩ := (hmem p).1 hp.1
    exact h3 _ (List.mem_map.2 ⟨q, (hcomp q).2 hq, rfl⟩) hp.2
  · next hp =>
    by_contra hc
    exact hp (h2.sound p (by omega))

/-! ### All threads -/

theorem threads_spec (cond : List Int → Bool) (n : Nat) (hn : 0 < n) (r : Ivl) (rs : Box)
    (hne : ∀ x ∈ r :: rs, x.1 < x.2) :
    ∃ ls, ((List.range n).mapM fun (start : Nat) =>
        threadBoxes cond (r :: rs) (ceilDiv (r.2 - r.1) n) start) = some ls ∧
      (∀ bb ∈ ls.flatten, Proper (rs.length + 1) bb) ∧
      ExactCoverOf ls.flatten fun p => InBox p (r :: rs) ∧ cond p = true := by
  have hr := hne r List.mem_cons_self
  have hcd := ceilDiv_spec (a := r.2 - r.1) (b := n) (by omega) (by omega)
  have hlp : 0 < ceilDiv (r.2 - r.1) n := by
    by_contra hc
    have : ceilDiv (r.2 - r.1) n * n ≤ 0 := Int.mul_nonpos_of_nonpos_of_nonneg (by omega) (by omega)
    omega
  generalize ceilDiv (r.2 - r.1) n = len at *
  have step : ∀ i : Nat, ∃ l, threadBoxes cond (r :: rs) len i = some l ∧
      (∀ bb ∈ l, Proper (rs.length + 1) bb) ∧
      ∀ p, boxVisits l p = if InBox p ((r.1 + i * len, min r.2 (r.1 + i * len + len)) :: rs) ∧
        cond p = true then 1 else 0 := by
    intro i
    unfold threadBoxes sliceOf
    simp only
    by_cases he : min r.2 (r.1 + ↑i * len + len) ≤ r.1 + ↑i * len
    · rw [if_pos he]
      refine ⟨[], rfl, by simp, fun p => ?_⟩
      rw [if_neg]
      · simp [boxVisits]
      · rintro ⟨h, _⟩
        cases h with
        | cons h _ =>
          have h1 := h.1
          have h2 := h.2
          simp only at h1 h2
          omega
    · rw [if_neg he]
      obtain ⟨l, h1, h2, h3⟩ := findInSlice_spec cond
        ((r.1 + ↑i * len, min r.2 (r.1 + ↑i * len + len)) :: rs) (by
          intro x hx
          rcases List.mem_cons.1 hx with rfl | hx
          · simp only; omega
          · exact hne x (List.mem_cons_of_mem _ hx))
      exact ⟨l, h1, fun bb hb => by simpa using h2 bb hb, h3⟩
  choose f hf1 hf2 hf3 using step
  refine ⟨(List.range n).map f, Nano.mapM_some _ _ _ fun i _ => hf1 i, ?_, ?_⟩
  · intro bb hb
    simp only [List.mem_flatten, List.mem_map] at hb
    obtain ⟨_, ⟨i, _, rfl⟩, hb⟩ := hb
    exact hf2 i bb hb
  · intro p
    rw [← List.flatMap_def]
    unfold boxVisits
    rw [countP_flatMap_eq (List.range n) f _ (fun (i : Nat) =>
      decide (InBox p ((r.1 + i * len, min r.2 (r.1 + i * len + len)) :: rs) ∧ cond p = true))
      (fun i _ => by
        have := hf3 i p
        unfold boxVisits at this
        rw [this]
        simp only [decide_eq_true_eq])]
    cases p with
    | nil =>
      rw [if_neg (by rintro ⟨h, _⟩; cases h), List.countP_eq_zero]
      intro i _
      simp only [decide_eq_true_eq]
      rintro ⟨h, _⟩; cases h
    | cons x p =>
      by_cases hp : InBox p rs ∧ cond (x :: p) = true
      · have hc := exactCover_chain_clip (fun i => r.1 + i * len) n r.1 r.2
          (by
            intro i _
            have : ((i + 1 : Nat) : Int) * len = i * len + len := by push_cast; ring
            omega) (by simp) (by have := Int.mul_comm len n; omega) x
        unfold visits at hc
        rw [List.countP_map] at hc
        have e : (if InBox (x :: p) (r :: rs) ∧ cond (x :: p) = true then 1 else 0) =
            (if r.1 ≤ x ∧ x < r.2 then 1 else 0 : Nat) := by
          by_cases h : InIvl x r
          · rw [if_pos ⟨(inBox_cons' _ _ _ _).2 ⟨h, hp.1⟩, hp.2⟩, if_pos h]
          · rw [if_neg (fun c => h ((inBox_cons' _ _ _ _).1 c.1).1), if_neg h]
        rw [e, ← hc]
        apply List.countP_congr
        intro i _
        have hm : ((i + 1 : Nat) : Int) * len = i * len + len := by push_cast; ring
        have hi : 0 ≤ (i : Int) * len := Int.mul_nonneg (by omega) (by omega)
        simp only [decide_eq_true_eq, Function.comp, inBox_cons', InIvl, hm]
        constructor
        · rintro ⟨⟨h, _⟩, _⟩; omega
        · intro h; exact ⟨⟨by omega, hp.1⟩, hp.2⟩
      · rw [if_neg (fun c => hp ⟨((inBox_cons' _ _ _ _).1 c.1).2, c.2⟩), List.countP_eq_zero]
        intro i _
        simp only [decide_eq_true_eq, inBox_cons']
        exact fun c => hp ⟨c.1.2, c.2⟩

end Yask.BB
