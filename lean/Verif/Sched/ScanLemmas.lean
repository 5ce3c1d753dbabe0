import Verif.Sched.SchedModel
import Verif.Sched.ChainLemmas
import Verif.Sched.TraceLemmas

/-! Helper lemmas: scans over several dimensions, boxes and points accessed dimension by dimension. -/

namespace Yask
open Spec

/-- Coordinate `j` of an index vector or point. -/
abbrev at_ (l : List Int) (j : Nat) : Int := l.getD j 0

theorem forall₂_map_range {R : Int → β → Prop} (nd : Nat) (n : Nat → β) (pt : List Int) :
    List.Forall₂ R pt ((List.range nd).map n) ↔
      pt.length = nd ∧ ∀ j < nd, R (at_ pt j) (n j) := by
  rw [List.forall₂_iff_get]
  constructor
  · rintro ⟨h1, h2⟩
    simp only [List.length_map, List.length_range] at h1
    refine ⟨h1, fun j hj => ?_⟩
    have := h2 j (by omega) (by simpa using hj)
    simpa [at_, List.getD_eq_getElem?_getD, List.getElem?_eq_getElem (by omega : j < pt.length)]
      using this
  · rintro ⟨h1, h2⟩
    refine ⟨by simpa using h1, fun j hj hj' => ?_⟩
    have := h2 j (by omega)
    simpa [at_, List.getD_eq_getElem?_getD, List.getElem?_eq_getElem hj] using this

theorem getD_map_range {β : Type*} (nd : Nat) (f : Nat → β) (d : β) {j : Nat} (hj : j < nd) :
    ((List.range nd).map f).getD j d = f j := by
  simp [List.getD_eq_getElem?_getD, List.getElem?_map, List.getElem?_range hj]

theorem lt_not_le_at (l l' : List Int) (h : l < l') (hlen : l.length = l'.length)
    (hle : ∀ j < l.length, at_ l' j ≤ at_ l j) : False := by
  induction l generalizing l' with
  | nil =>
    cases l' with
    | nil => exact lt_irrefl _ h
    | cons _ _ => simp at hlen
  | cons x xs ih =>
    cases l' with
    | nil => simp at hlen
    | cons y ys =>
      have h0 := hle 0 (by simp)
      simp only [at_, List.getD_cons_zero] at h0
      rcases List.cons_lt_cons_iff.1 h with h1 | ⟨rfl, h1⟩
      · omega
      · refine ih ys h1 (by simpa using hlen) (fun j hj => ?_)
        have := hle (j + 1) (by simpa using hj)
        simpa [at_] using this

theorem ext_at {l l' : List Int} (hlen : l.length = l'.length)
    (h : ∀ j < l.length, at_ l j = at_ l' j) : l = l' := by
  apply List.ext_getElem hlen
  intro j h1 h2
  have := h j h1
  simpa [at_, List.getD_eq_getElem?_getD, List.getElem?_eq_getElem h1, List.getElem?_eq_getElem h2]
    using this

/-- An index vector of a scan. -/
def IsIdx (nd : Nat) (D : Nat → LoopDim) (idx : List Int) : Prop :=
  idx.length = nd ∧ ∀ j < nd, 0 ≤ at_ idx j ∧ at_ idx j < (D j).numIters true

theorem mem_scanIdx (nd : Nat) (D : Nat → LoopDim) (idx : List Int) :
    idx ∈ nestedIndices ((List.range nd).map fun (j : Nat) => (D j).numIters true) ↔ IsIdx nd D idx := by
  rw [mem_nestedIndices]
  exact forall₂_map_range nd _ idx

theorem scan_eq (nd : Nat) (D : Nat → LoopDim) :
    RunCfg.scan ((List.range nd).map D) =
      (nestedIndices ((List.range nd).map fun (j : Nat) => (D j).numIters true)).map
        (bodyBox true ((List.range nd).map D)) := by
  unfold RunCfg.scan loopBodies
  simp only [nestIndices, groupIndices, List.map_map, if_true, List.flatMap_cons, List.flatMap_nil,
    List.append_nil, List.map_flatMap, List.map_cons, List.map_nil]
  rw [show (LoopDim.numIters true ∘ D) = fun (j : Nat) => (D j).numIters true from rfl]
  generalize nestedIndices _ = L
  induction L with
  | nil => rfl
  | cons a L ih => simp [ih]

theorem bodyBox_at (nd : Nat) (D : Nat → LoopDim) (idx : List Int) (hl : idx.length = nd) {j : Nat}
    (hj : j < nd) :
    (bodyBox true ((List.range nd).map D) idx).getD j (0, 0) = (D j).range true (at_ idx j) := by
  unfold bodyBox
  simp [List.getD_eq_getElem?_getD, List.getElem?_zipWith, List.getElem?_range hj,
    List.getElem?_eq_getElem (by omega : j < idx.length), at_]

/-- The dimensions of a scan are proper. -/
def DimsOk (nd : Nat) (D : Nat → LoopDim) : Prop :=
  ∀ j < nd, 0 < (D j).stride ∧ 0 < (D j).align ∧ (D j).begin_ < (D j).end_

theorem DimsOk.chain {nd : Nat} {D : Nat → LoopDim} (h : DimsOk nd D) {j : Nat} (hj : j < nd) :
    Chain (D j).begin_ (D j).end_ ((D j).numIters true) (D j).cut :=
  LoopDim.chain _ (h j hj).1 (h j hj).2.1 (h j hj).2.2

/-- `bx` is the box of the scan for index vector `idx`. -/
def IsPiece (nd : Nat) (D : Nat → LoopDim) (idx : List Int) (bx : Box) : Prop :=
  ∀ j < nd, bx.getD j (0, 0) = ((D j).cut (at_ idx j), (D j).cut (at_ idx j + 1))

theorem isPiece_bodyBox {nd : Nat} {D : Nat → LoopDim} (hD : DimsOk nd D) {idx : List Int}
    (hi : IsIdx nd D idx) : IsPiece nd D idx (bodyBox true ((List.range nd).map D) idx) := by
  intro j hj
  rw [bodyBox_at nd D idx hi.1 hj]
  exact LoopDim.range_eq_cut _ (hD j hj).1 (hD j hj).2.1 (hD j hj).2.2 _ (hi.2 j hj).1 (hi.2 j hj).2

/-- The box of a scan for an index vector. -/
abbrev pieceBox (nd : Nat) (D : Nat → LoopDim) (idx : List Int) : Box :=
  bodyBox true ((List.range nd).map D) idx

theorem good_seq_scan {α : Type*} {ok : α → α → Prop} (nd : Nat) (D : Nat → LoopDim)
    (f : Box → Traces α) (P : List Int → α → Prop)
    (hg : ∀ idx, IsIdx nd D idx → Good ok (f (pieceBox nd D idx)) (P idx))
    (hne : ∀ idx idx' a, IsIdx nd D idx → IsIdx nd D idx' → P idx a → P idx' a →
      ∀ j < nd, at_ idx j = at_ idx' j)
    (hok : ∀ idx idx' a b, IsIdx nd D idx → IsIdx nd D idx' → P idx a → P idx' b → ¬ ok a b →
      ∀ j < nd, at_ idx' j ≤ at_ idx j) :
    Good ok (doSeq ((RunCfg.scan ((List.range nd).map D)).map f))
      (fun a => ∃ idx, IsIdx nd D idx ∧ P idx a) := by
  rw [scan_eq, List.map_map]
  refine (good_seq _ (f ∘ bodyBox true ((List.range nd).map D)) P ?_ ?_).congr ?_
  · intro idx hidx
    rw [mem_scanIdx] at hidx
    exact hg idx hidx
  · have hs := nestedIndices_sorted ((List.range nd).map fun (j : Nat) => (D j).numIters true)
    refine List.Pairwise.imp_of_mem ?_ hs
    intro i i' hi hi' hlt a b ha hb
    rw [mem_scanIdx] at hi hi'
    refine ⟨?_, ?_⟩
    · rintro rfl
      exact lt_irrefl _ (ext_at (hi.1.trans hi'.1.symm) (fun j hj => hne i i' a hi hi' ha hb j
        (hi.1 ▸ hj)) ▸ hlt)
    · by_contra hc
      exact lt_not_le_at i i' hlt (hi.1.trans hi'.1.symm)
        (fun j hj => hok i i' a b hi hi' ha hb hc j (hi.1 ▸ hj))
  · intro a
    simp only [mem_scanIdx]

theorem good_par_scan {α : Type*} {ok : α → α → Prop} (nd : Nat) (D : Nat → LoopDim)
    (f : Box → Traces α) (P : List Int → α → Prop)
    (hg : ∀ idx, IsIdx nd D idx → Good ok (f (pieceBox nd D idx)) (P idx))
    (hne : ∀ idx idx' a, IsIdx nd D idx → IsIdx nd D idx' → P idx a → P idx' a →
      ∀ j < nd, at_ idx j = at_ idx' j)
    (hok : ∀ idx idx' a b, IsIdx nd D idx → IsIdx nd D idx' → P idx a → P idx' b → ¬ ok a b →
      ∀ j < nd, at_ idx' j = at_ idx j) :
    Good ok (doPar ((RunCfg.scan ((List.range nd).map D)).map f))
      (fun a => ∃ idx, IsIdx nd D idx ∧ P idx a) := by
  rw [scan_eq, List.map_map]
  refine (good_par _ (f ∘ bodyBox true ((List.range nd).map D)) P ?_ ?_).congr ?_
  · intro idx hidx
    rw [mem_scanIdx] at hidx
    exact hg idx hidx
  · have hs := nestedIndices_sorted ((List.range nd).map fun (j : Nat) => (D j).numIters true)
    refine List.Pairwise.imp_of_mem ?_ hs
    intro i i' hi hi' hlt a b ha hb
    rw [mem_scanIdx] at hi hi'
    refine ⟨?_, ?_, ?_⟩
    · rintro rfl
      exact lt_irrefl _ (ext_at (hi.1.trans hi'.1.symm) (fun j hj => hne i i' a hi hi' ha hb j
        (hi.1 ▸ hj)) ▸ hlt)
    · by_contra hc
      exact lt_not_le_at i i' hlt (hi.1.trans hi'.1.symm)
        (fun j hj => (hok i i' a b hi hi' ha hb hc j (hi.1 ▸ hj)).le)
    · by_contra hc
      exact lt_not_le_at i i' hlt (hi.1.trans hi'.1.symm)
        (fun j hj => (hok i' i b a hi' hi hb ha hc j (hi.1 ▸ hj)).symm.le)
  · intro a
    simp only [mem_scanIdx]

/-! ### Points of a box -/

theorem mem_boxPoints (bx : Box) (p : List Int) : p ∈ RunCfg.boxPoints bx ↔ InBox p bx := by
  induction bx generalizing p with
  | nil => simp [RunCfg.boxPoints, InBox]
  | cons r rs ih =>
    simp only [RunCfg.boxPoints, List.mem_flatMap, List.mem_range, List.mem_map, ih, InBox]
    constructor
    · rintro ⟨i, hi, q, hq, rfl⟩
      exact List.Forall₂.cons ⟨by omega, by omega⟩ hq
    · intro h
      cases h with
      | @cons x _ q _ h1 h2 =>
        exact ⟨(x - r.1).toNat, by omega, q, h2, by rw [Int.toNat_of_nonneg (by omega)]; simp⟩

theorem boxPoints_nodup (bx : Box) : (RunCfg.boxPoints bx).Nodup := by
  induction bx with
  | nil => simp [RunCfg.boxPoints]
  | cons r rs ih =>
    unfold RunCfg.boxPoints
    rw [List.nodup_flatMap]
    constructor
    · intro i _
      exact ih.map (fun a b h => (List.cons.inj h).2)
    · refine List.nodup_range.imp ?_
      intro i i' hne
      simp only [Function.onFun, List.disjoint_left, List.mem_map]
      rintro _ ⟨q, _, rfl⟩ ⟨q', _, h⟩
      have := (List.cons.inj h).1
      omega

theorem mem_boxPoints_range (nd : Nat) (r : Nat → Ivl) (p : List Int) :
    p ∈ RunCfg.boxPoints ((List.range nd).map r) ↔
      p.length = nd ∧ ∀ j < nd, InIvl (at_ p j) (r j) := by
  rw [mem_boxPoints]
  exact forall₂_map_range nd r p

end Yask
