import Verif.Loops.LoopLemmas

/-! Helper lemmas: the cut points of a scan in one dimension. -/

namespace Yask
open Spec

/-- `cut 0 = b < cut 1 < … < cut n = e`. -/
structure Chain (b e n : Int) (cut : Int → Int) : Prop where
  pos : 0 < n
  zero : cut 0 = b
  last : cut n = e
  lt_succ : ∀ i, 0 ≤ i → i < n → cut i < cut (i + 1)

namespace Chain

variable {b e n : Int} {cut : Int → Int}

theorem lt (h : Chain b e n cut) {i k : Int} (h0 : 0 ≤ i) (hik : i < k) (hk : k ≤ n) :
    cut i < cut k := by
  obtain ⟨m, rfl⟩ : ∃ m : Nat, k = i + 1 + m := ⟨(k - i - 1).toNat, by omega⟩
  clear hik
  induction m with
  | zero => simpa using h.lt_succ i h0 (by omega)
  | succ m ih =>
    have h1 := ih (by push_cast at hk; omega)
    have h2 := h.lt_succ (i + 1 + m) (by omega) (by push_cast at hk; omega)
    push_cast
    rw [show i + 1 + ((m : Int) + 1) = i + 1 + m + 1 by ring]
    omega

theorem le (h : Chain b e n cut) {i k : Int} (h0 : 0 ≤ i) (hik : i ≤ k) (hk : k ≤ n) :
    cut i ≤ cut k := by
  rcases eq_or_lt_of_le hik with rfl | hlt
  · exact le_refl _
  · exact le_of_lt (h.lt h0 hlt hk)

theorem first_iff (h : Chain b e n cut) {i : Int} (h0 : 0 ≤ i) (hi : i < n) : cut i ≤ b ↔ i = 0 := by
  constructor
  · intro hc
    by_contra hne
    have := h.lt (le_refl 0) (by omega : 0 < i) (by omega)
    rw [h.zero] at this; omega
  · rintro rfl; exact h.zero.le

theorem last_iff (h : Chain b e n cut) {i : Int} (h0 : 0 ≤ i) (hi : i < n) :
    e ≤ cut (i + 1) ↔ i = n - 1 := by
  constructor
  · intro hc
    by_contra hne
    have := h.lt (by omega : 0 ≤ i + 1) (by omega : i + 1 < n) (le_refl n)
    rw [h.last] at this; omega
  · rintro rfl; rw [show n - 1 + 1 = n by ring, h.last]

theorem idx_le (h : Chain b e n cut) {i k x y : Int} (hi : i < n) (hk : 0 ≤ k)
    (h1 : cut i ≤ x) (h2 : y < cut (k + 1)) (hxy : x ≤ y) : i ≤ k := by
  by_contra hc
  have := h.le (by omega : 0 ≤ k + 1) (by omega : k + 1 ≤ i) (by omega)
  omega

theorem exists_idx (h : Chain b e n cut) {x : Int} (hb : b ≤ x) (he : x < e) :
    ∃ i, 0 ≤ i ∧ i < n ∧ cut i ≤ x ∧ x < cut (i + 1) := by
  have key : ∀ m : Nat, (m : Int) ≤ n → x < cut m → ∃ i, 0 ≤ i ∧ i < n ∧ cut i ≤ x ∧ x < cut (i + 1) := by
    intro m
    induction m with
    | zero =>
      intro _ hx
      have := h.zero
      simp only [Nat.cast_zero] at hx
      omega
    | succ m ih =>
      intro hm hx
      push_cast at hm hx
      by_cases hc : x < cut m
      · exact ih (by omega) hc
      · exact ⟨m, by omega, by omega, by omega, hx⟩
  have hn := h.pos
  refine key n.toNat (by omega) ?_
  rw [Int.toNat_of_nonneg (by omega), h.last]; exact he

end Chain

/-- Cut points of a generated loop. -/
def LoopDim.cut (d : LoopDim) (i : Int) : Int :=
  min (max (d.alignedBegin true + i * d.stride) d.begin_) d.end_

theorem LoopDim.idx_bounds (d : LoopDim) (hs : 0 < d.stride) (i : Int) (hlt : i < d.numIters true) :
    d.alignedBegin true + i * d.stride < d.end_ := by
  have h2 := ceilIdivFlr_spec (d.end_ - d.alignedBegin true) hs
  have : (i + 1) * d.stride ≤ d.numIters true * d.stride := by
    apply mul_le_mul_of_nonneg_right <;> omega
  have h5 : (i + 1) * d.stride = i * d.stride + d.stride := by ring
  unfold LoopDim.numIters at this
  omega

theorem LoopDim.range_eq_cut (d : LoopDim) (hs : 0 < d.stride) (ha : 0 < d.align)
    (hbe : d.begin_ < d.end_) (i : Int) (h0 : 0 ≤ i) (hlt : i < d.numIters true) :
    d.range true i = (d.cut i, d.cut (i + 1)) := by
  have h1 := LoopDim.alignedBegin_spec true d hs ha
  have h2 := d.idx_bounds hs i hlt
  have h3 : 0 ≤ i * d.stride := by positivity
  have h5 : (i + 1) * d.stride = i * d.stride + d.stride := by ring
  simp only [LoopDim.range, if_true, LoopDim.cut, Prod.mk.injEq]
  constructor
  · omega
  · omega

theorem LoopDim.chain (d : LoopDim) (hs : 0 < d.stride) (ha : 0 < d.align)
    (hbe : d.begin_ < d.end_) : Chain d.begin_ d.end_ (d.numIters true) d.cut := by
  have h1 := LoopDim.alignedBegin_spec true d hs ha
  have h2 := ceilIdivFlr_spec (d.end_ - d.alignedBegin true) hs
  refine ⟨?_, ?_, ?_, ?_⟩
  · by_contra hc
    have : d.numIters true * d.stride ≤ 0 :=
      mul_nonpos_of_nonpos_of_nonneg (by omega) (by omega)
    unfold LoopDim.numIters at this
    omega
  · unfold LoopDim.cut; simp only [zero_mul, add_zero]; omega
  · unfold LoopDim.cut LoopDim.numIters; omega
  · intro i h0 hi
    have h3 := d.idx_bounds hs i hi
    have h4 : 0 ≤ i * d.stride := by positivity
    have h5 : (i + 1) * d.stride = i * d.stride + d.stride := by ring
    unfold LoopDim.cut
    omega

/-- A piece that is neither first nor last is a full stride long. -/
theorem LoopDim.cut_full (d : LoopDim) (hs : 0 < d.stride) (ha : 0 < d.align)
    (i : Int) (h0 : 0 < i) (hi : i + 1 < d.numIters true) :
    d.cut (i + 1) = d.cut i + d.stride := by
  have h1 := LoopDim.alignedBegin_spec true d hs ha
  have h3 := d.idx_bounds hs (i + 1) hi
  have h5 : (i + 1) * d.stride = i * d.stride + d.stride := by ring
  have h6 : (1 : Int) * d.stride ≤ i * d.stride := mul_le_mul_of_nonneg_right (by omega) (by omega)
  unfold LoopDim.cut
  omega

/-- The stride chosen to make a single piece does make a single piece. -/
theorem LoopDim.one_piece (d : LoopDim) (ha : 0 < d.align) (hbe : d.begin_ < d.end_)
    (hst : d.stride = roundUp (d.end_ - d.begin_) d.align * 2) : d.numIters true ≤ 1 := by
  have hr := roundUp_spec (a := d.end_ - d.begin_) (b := d.align) (by omega) ha
  have hs : 0 < d.stride := by omega
  have hra : d.align ≤ roundUp (d.end_ - d.begin_) d.align :=
    Int.le_of_dvd (by omega) hr.2.2
  have h1 : d.begin_ < d.alignedBegin true + d.align := by
    unfold LoopDim.alignedBegin LoopDim.adjAlign
    have := roundDownFlr_spec (d.begin_ - d.alignOfs) (b := min d.align d.stride) (by omega)
    simp only [if_true]
    omega
  by_contra hc
  have := d.idx_bounds hs 1 (by omega)
  omega

end Yask
