import Verif.Common.ParForLemmas

/-!
# C34, C35, C36: integer division, work division, parallel-for
-/

namespace Yask
open Spec

/-! ## C34 -/

/-- C34: `idiv_flr(a,b)` is the floor of the quotient: the unique integer `q` with
`b*q ≤ a < b*(q+1)`, for every integer `a` (negative too) and positive `b`. -/
theorem C34_idiv_flr (a b : Int) (hb : 0 < b) (q : Int) :
    idivFlr a b = q ↔ (b * q ≤ a ∧ a < b * (q + 1)) := by
  rw [idivFlr_eq a b hb, Int.ediv_eq_iff_of_pos hb]
  constructor <;> rintro ⟨h1, h2⟩ <;> constructor <;> nlinarith

example : idivFlr (-7) 3 = -3 := (C34_idiv_flr (-7) 3 (by decide) (-3)).2 (by decide)

/-- C34: quotient and remainder reconstruct the dividend and the remainder is in `[0,b)`. -/
theorem C34_div_mod (a b : Int) (hb : 0 < b) :
    a = b * idivFlr a b + imodFlr a b ∧ 0 ≤ imodFlr a b ∧ imodFlr a b < b := by
  refine ⟨?_, imodFlr_nonneg a hb, imodFlr_lt a hb⟩
  rw [idivFlr_eq a b hb, imodFlr_eq a b hb, Int.mul_ediv_add_emod]

example : idivFlr (-7) 3 = -3 ∧ imodFlr (-7) 3 = 2 := by decide

/-- C34: `round_down_flr` is the largest multiple of `b` not above `a`. -/
theorem C34_round_down (a b : Int) (hb : 0 < b) :
    b ∣ roundDownFlr a b ∧ roundDownFlr a b ≤ a ∧
      ∀ m, b ∣ m → m ≤ a → m ≤ roundDownFlr a b := by
  obtain ⟨h1, h2, h3⟩ := roundDownFlr_spec a hb
  refine ⟨h3, h1, ?_⟩
  rintro m ⟨k, rfl⟩ hm
  obtain ⟨j, hj⟩ := h3
  rw [hj] at h2 ⊢
  have : k < j + 1 := by
    by_contra hlt
    have : b * (j + 1) ≤ b * k := Int.mul_le_mul_of_nonneg_left (by omega) (by omega)
    nlinarith
  exact Int.mul_le_mul_of_nonneg_left (by omega) (by omega)

/-- C34: `round_up_flr` is the smallest multiple of `b` not below `a`. -/
theorem C34_round_up (a b : Int) (hb : 0 < b) :
    b ∣ roundUpFlr a b ∧ a ≤ roundUpFlr a b ∧
      ∀ m, b ∣ m → a ≤ m → roundUpFlr a b ≤ m := by
  obtain ⟨h1, h2, h3⟩ := roundUpFlr_spec a hb
  refine ⟨h3, h1, ?_⟩
  rintro m ⟨k, rfl⟩ hm
  obtain ⟨j, hj⟩ := h3
  rw [hj] at h2 ⊢
  have : j < k + 1 := by
    by_contra hlt
    have : b * (k + 1) ≤ b * j := Int.mul_le_mul_of_nonneg_left (by omega) (by omega)
    nlinarith
  exact Int.mul_le_mul_of_nonneg_left (by omega) (by omega)

example : roundDownFlr (-7) 4 = -8 ∧ roundUpFlr (-7) 4 = -4 := by decide

/-- C34: the macros `CEIL_DIV`, `ROUND_UP`, `ROUND_DOWN` agree with the flooring versions
for nonnegative arguments. -/
theorem C34_macros_nonneg (a b : Int) (ha : 0 ≤ a) (hb : 0 < b) :
    ceilDiv a b = ceilIdivFlr a b ∧ roundUp a b = roundUpFlr a b ∧
      roundDown a b = roundDownFlr a b := by
  refine ⟨?_, ?_, ?_⟩
  · rw [ceilDiv_eq ha hb, ceilIdivFlr_eq a b hb]
  · rw [roundUp_eq ha hb, roundUpFlr_eq a b hb]
  · rw [roundDown_eq ha, roundDownFlr_eq a b hb]

/-- C34: the macro `ROUND_DOWN`, in contrast, does not round down for negative arguments
(so it is only usable where the argument is known to be nonnegative). -/
theorem C34_macro_round_down_negative : ∃ a b : Int, 0 < b ∧ a < roundDown a b :=
  ⟨-1, 4, by decide⟩

/-! ## C35 -/

/-- C35: the parts `[cumu(n-1), cumu(n))` for `n = 0 .. nparts-1` cover `[0, num)` exactly. -/
theorem C35_parts_cover (num : Int) (nparts : Nat) (hnum : 0 ≤ num) (hnp : 0 < nparts) :
    ExactCover
      ((List.range nparts).map fun (n : Nat) =>
        (divEquallyCumuSizeN num nparts ((n : Int) - 1), divEquallyCumuSizeN num nparts n))
      0 num := by
  have h := exactCover_chain (fun n : Nat => divEquallyCumuSizeN num nparts ((n : Int) - 1)) nparts
    (fun i _ => by
      have := divEquallyCumu_mono (np := (nparts : Int)) hnum (by omega) i
      simpa using this)
  have h0 : divEquallyCumuSizeN num nparts (((0 : Nat) : Int) - 1) = 0 := by
    simp [divEquallyCumuSizeN]
  have h1 := divEquallyCumu_last (np := (nparts : Int)) hnum (by omega)
  rw [h0, h1] at h
  simpa using h

example : (List.range 4).map (fun (n : Nat) => divEquallyCumuSizeN 6 4 n) = [2, 4, 5, 6] := by
  decide

/-- C35: part `n` has size `div_equally_size_n`, and any two parts differ by at most one. -/
theorem C35_parts_even (num : Int) (nparts : Nat) (hnum : 0 ≤ num) (n m : Nat)
    (hn : n < nparts) :
    divEquallyCumuSizeN num nparts n - divEquallyCumuSizeN num nparts ((n : Int) - 1) =
        divEquallySizeN num nparts n ∧
      divEquallySizeN num nparts n ≤ divEquallySizeN num nparts m + 1 := by
  constructor
  · rw [divEquallyCumu_step hnum (by omega : (0 : Int) < nparts) (by omega : (0 : Int) ≤ n)]
    omega
  · unfold divEquallySizeN
    split <;> split <;> omega

/-- C35: `div_equally_all_sizes` lists the same sizes; there are `nparts` of them and they
sum to `num`. -/
theorem C35_all_sizes (num : Int) (nparts : Nat) (hnum : 0 ≤ num) (hnp : 0 < nparts) :
    (divEquallyAllSizes num nparts).length = nparts ∧
      (∀ n, n < nparts → (divEquallyAllSizes num nparts)[n]? =
        some (divEquallySizeN num nparts n)) ∧
      (divEquallyAllSizes num nparts).sum = num := by
  refine ⟨by simp [divEquallyAllSizes], ?_, ?_⟩
  · intro n h
    simp [divEquallyAllSizes, divEquallySizeN, List.getElem?_map, List.getElem?_range h]
  · have key : ∀ k : Nat, ((List.range k).map fun (i : Nat) =>
        num.tdiv nparts + (if (i : Int) < num.tmod nparts then 1 else 0)).sum =
        divEquallyCumuSizeN num nparts ((k : Int) - 1) := by
      intro k
      induction k with
      | zero => simp [divEquallyCumuSizeN]
      | succ k ih =>
        rw [List.range_succ, List.map_append, List.sum_append, ih]
        have := divEquallyCumu_step hnum (by omega : (0 : Int) < nparts) (by omega : (0 : Int) ≤ k)
        push_cast
        rw [show (k : Int) + 1 - 1 = k by ring, this]
        simp [divEquallySizeN]
    unfold divEquallyAllSizes
    rw [key, divEquallyCumu_last hnum (by omega)]

example : divEquallyAllSizes 6 4 = [2, 2, 1, 1] := by decide

/-! ## C36 -/

/-- C36 (partial: the nested-parallel branch is covered only for `begin = 0`).
The sub-ranges passed to the visitor cover `[begin, end)` exactly once; each starts a whole
number of strides after `begin`, is at most one stride long and is not empty.
The full statement (for every `begin` in the nested branch, too) is false, see
`C36_parallel_for_nested_begin_ignored`. -/
theorem C36_parallel_for_partial (env : ParForEnv) (b e s : Int) (hs : 1 ≤ s)
    (h : parForNested env b e s = false ∨ b = 0) :
    ExactCover (parallelFor env b e s) b e := by
  unfold parallelFor
  split
  · next h0 => exact exactCover_nil h0
  · next h0 =>
    split
    · exact exactCover_single
    · split
      · next hn =>
        have hb : b = 0 := by
          rcases h with h | h
          · rw [h] at hn; cases hn
          · exact h
        subst hb
        have hthr : 0 < env.nthr0 := by
          unfold parForNested at hn
          simp only [Bool.and_eq_true, Bool.not_eq_true', Bool.or_eq_false_iff,
            decide_eq_false_iff_not] at hn
          omega
        have := parForNested_cover env 0 e s (by omega) (by omega) hthr
        have h1 : min e (parForNiter 0 e s * s) = e := by
          have := (ceilDiv_spec (a := e - 0) (b := s) (by omega) (by omega)).1
          unfold parForNiter
          omega
        rwa [h1] at this
      · exact seqLoop_cover _ _ _ (by omega)

example : parForNested ⟨true, false, 2, 2, 2⟩ 0 10 3 = true ∧
    parallelFor ⟨true, false, 2, 2, 2⟩ 0 10 3 = [(0, 3), (3, 6), (6, 9), (9, 10)] := by
  decide +kernel

/-- C36: in the sequential and non-nested branches each sub-range starts a whole number of
strides after `begin`, is not empty and is at most one stride long. -/
theorem C36_parallel_for_chunks (env : ParForEnv) (b e s : Int) (hs : 1 ≤ s)
    (h : parForNested env b e s = false) :
    ∀ r ∈ parallelFor env b e s,
      ∃ k : Nat, r.1 = b + k * s ∧ r.1 < r.2 ∧ r.2 ≤ r.1 + s ∧ (r.2 = e ∨ r.2 = b + (k + 1) * s) := by
  intro r hr
  unfold parallelFor at hr
  split at hr
  · simp at hr
  · next h0 =>
    split at hr
    · next h1 =>
      simp only [List.mem_singleton] at hr
      subst hr
      have := (ceilDiv_spec (a := e - b) (b := s) (by omega) (by omega)).1
      unfold parForNiter at h1
      rw [h1] at this
      exact ⟨0, by simp, by simp; omega, by simp; omega, Or.inl rfl⟩
    · split at hr
      · next hn => rw [h] at hn; cases hn
      · obtain ⟨k, h1, h2, h3⟩ := seqLoop_mem (by omega) hr
        refine ⟨k, h1, by omega, by omega, ?_⟩
        rw [h3, h1]
        have : b + (k + 1) * s = b + k * s + s := by ring
        rw [this]
        omega

/-- C36, finding: in the nested-parallel branch the `begin` argument is ignored (the thread's
range is computed from 0, `src/common/common_utils.hpp:270-272`), so for `begin ≠ 0` the
range `[begin, end)` is not covered. -/
theorem C36_parallel_for_nested_begin_ignored :
    ∃ (env : ParForEnv) (b e s : Int), 1 ≤ s ∧ b < e ∧ ¬ ExactCover (parallelFor env b e s) b e := by
  refine ⟨⟨true, false, 2, 2, 2⟩, 10, 13, 1, by decide, by decide, ?_⟩
  intro h
  have := h 12
  revert this
  decide +kernel

end Yask
