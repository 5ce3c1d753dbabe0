import Verif.Common.ParForModel
import Verif.Common.IdivLemmas
import Verif.Common.CoverLemmas

namespace Yask
open Spec

theorem divEquallyCumu_nonneg_eq {num np n : Int} (hnum : 0 ≤ num) (hn : 0 ≤ n) :
    divEquallyCumuSizeN num np n =
      num / np * (n + 1) + (if n < num % np then n + 1 else num % np) := by
  unfold divEquallyCumuSizeN
  rw [tdiv_nonneg_eq hnum, tmod_nonneg_eq hnum]
  simp [show ¬ n < 0 by omega]

theorem divEquallyCumu_neg {num np n : Int} (hn : n < 0) :
    divEquallyCumuSizeN num np n = 0 := by
  unfold divEquallyCumuSizeN; simp [hn]

theorem divEquallyCumu_last {num np : Int} (hnum : 0 ≤ num) (hnp : 0 < np) :
    divEquallyCumuSizeN num np (np - 1) = num := by
  rw [divEquallyCumu_nonneg_eq hnum (by omega)]
  have e1 := Int.mul_ediv_add_emod num np
  have e3 := Int.emod_lt_of_pos num hnp
  have : num / np * (np - 1 + 1) = np * (num / np) := by ring
  rw [this]
  split <;> omega

theorem divEquallySize_nonneg {num np n : Int} (hnum : 0 ≤ num) (hnp : 0 < np) :
    0 ≤ divEquallySizeN num np n := by
  unfold divEquallySizeN
  rw [tdiv_nonneg_eq hnum, tmod_nonneg_eq hnum]
  have := Int.ediv_nonneg hnum (by omega : 0 ≤ np)
  split <;> omega

/-- Cumulative sizes: the difference of consecutive cumulative sizes is the part size. -/
theorem divEquallyCumu_step {num np n : Int} (hnum : 0 ≤ num) (hnp : 0 < np) (hn : 0 ≤ n) :
    divEquallyCumuSizeN num np n =
      divEquallyCumuSizeN num np (n - 1) + divEquallySizeN num np n := by
  have e2 := Int.emod_nonneg num (by omega : np ≠ 0)
  rw [divEquallyCumu_nonneg_eq hnum hn]
  unfold divEquallySizeN
  rw [tdiv_nonneg_eq hnum, tmod_nonneg_eq hnum]
  by_cases h0 : n = 0
  · subst h0
    rw [divEquallyCumu_neg (by omega)]
    split <;> simp <;> omega
  · rw [divEquallyCumu_nonneg_eq hnum (by omega)]
    have : num / np * (n + 1) = num / np * (n - 1 + 1) + num / np := by ring
    rw [this]
    split <;> split <;> omega

theorem divEquallyCumu_mono {num np : Int} (hnum : 0 ≤ num) (hnp : 0 < np) (n : Nat) :
    divEquallyCumuSizeN num np ((n : Int) - 1) ≤ divEquallyCumuSizeN num np n := by
  rw [divEquallyCumu_step hnum hnp (by omega : (0 : Int) ≤ n)]
  have := divEquallySize_nonneg (n := (n : Int)) hnum hnp
  omega

theorem seqLoop_cover (i e s : Int) (hs : 0 < s) : ExactCover (seqLoop i e s) i e := by
  intro x
  fun_induction seqLoop i e s with
  | case1 i h ih =>
    unfold visits at *
    rw [List.countP_cons, ih]
    simp only [decide_eq_true_eq, InIvl]
    split <;> split <;> split <;> omega
  | case2 i h =>
    simp only [visits, List.countP_nil]; split <;> omega

theorem seqLoop_mem {i e s : Int} (hs : 0 < s) {r : Ivl} (h : r ∈ seqLoop i e s) :
    ∃ k : Nat, r.1 = i + k * s ∧ r.1 < e ∧ r.2 = min (r.1 + s) e := by
  fun_induction seqLoop i e s with
  | case1 i hi ih =>
    rcases List.mem_cons.1 h with h | h
    · subst h; exact ⟨0, by simp, hi.2, rfl⟩
    · obtain ⟨k, h1, h2, h3⟩ := ih h
      refine ⟨k + 1, ?_, h2, h3⟩
      rw [h1]; push_cast; ring
  | case2 i hi => simp at h

theorem parForOuterThread_cover (env : ParForEnv) (b e s : Int) (hs : 0 < s) (n0 : Nat) :
    ExactCover (parForOuterThread env b e s n0)
      (divEquallyCumuSizeN (parForNiter b e s) env.nthr0 ((n0 : Int) - 1) * s)
      (min (divEquallyCumuSizeN (parForNiter b e s) env.nthr0 n0 * s) e) := by
  unfold parForOuterThread
  simp only
  split
  · next h => exact exactCover_nil h
  · split
    · exact exactCover_single
    · exact seqLoop_cover _ _ _ hs

theorem parForNested_cover (env : ParForEnv) (b e s : Int) (hs : 0 < s) (hbe : b < e)
    (hn : 0 < env.nthr0) :
    ExactCover ((List.range env.nthr0.toNat).flatMap fun n0 => parForOuterThread env b e s n0)
      0 (min e (parForNiter b e s * s)) := by
  have hni : 0 ≤ parForNiter b e s := by
    unfold parForNiter
    rw [ceilDiv_eq (by omega) hs]
    exact Int.ediv_nonneg (by omega) (by omega)
  set f : Nat → Int := fun n => divEquallyCumuSizeN (parForNiter b e s) env.nthr0 ((n : Int) - 1) * s
    with hf
  have hf1 : ∀ n : Nat, f (n + 1) = divEquallyCumuSizeN (parForNiter b e s) env.nthr0 n * s := by
    intro n; simp [hf]
  have hmono : ∀ i, i < env.nthr0.toNat → f i ≤ f (i + 1) := by
    intro i _
    rw [hf1]
    exact Int.mul_le_mul_of_nonneg_right (divEquallyCumu_mono hni hn i) (by omega)
  have hlast : f env.nthr0.toNat = parForNiter b e s * s := by
    simp only [hf]
    rw [Int.toNat_of_nonneg (by omega), divEquallyCumu_last hni hn]
  have h0 : f 0 = 0 := by simp [hf, divEquallyCumuSizeN]
  intro x
  unfold visits
  rw [countP_flatMap_eq (hitA := fun n => decide (f n ≤ x ∧ x < f (n + 1)) && decide (x < e))]
  · by_cases hx : x < e
    · have : (List.range env.nthr0.toNat).countP
          (fun n => decide (f n ≤ x ∧ x < f (n + 1)) && decide (x < e)) =
          (List.range env.nthr0.toNat).countP (fun n => decide (f n ≤ x ∧ x < f (n + 1))) := by
        apply List.countP_congr
        intro i _
        simp [hx]
      rw [this, countP_chain f _ hmono x, h0, hlast]
      split <;> split <;> omega
    · have : (List.range env.nthr0.toNat).countP
          (fun n => decide (f n ≤ x ∧ x < f (n + 1)) && decide (x < e)) = 0 := by
        rw [List.countP_eq_zero]; intro i _; simp [hx]
      rw [this]; split <;> omega
  · intro n _
    have := parForOuterThread_cover env b e s hs n x
    unfold visits at this
    rw [this, ← hf1 n]
    simp only [Bool.and_eq_true, decide_eq_true_eq, hf]
    split <;> split <;> omega

end Yask
