import Verif.Common.TupleLemmas
import Mathlib.Data.List.Perm.Basic
import Mathlib.Data.List.Perm.Subperm
import Mathlib.Data.List.Nodup
import Mathlib.Data.List.NodupEquivFin

namespace Yask
open Spec

/-! ### `yask_parallel_for(0, n, 1, …)` calls its visitor once for each of `0 .. n-1` -/

theorem parallelFor_unit (env : ParForEnv) (n : Int) (r : Ivl)
    (hr : r ∈ parallelFor env 0 n 1) : r.2 = r.1 + 1 := by
  unfold parallelFor at hr
  split at hr
  · simp at hr
  · next h0 =>
    split at hr
    · next h1 =>
      simp only [List.mem_singleton] at hr
      subst hr
      have := ceilDiv_spec (a := n - 0) (b := 1) (by omega) (by omega)
      unfold parForNiter at h1
      rw [h1] at this
      simp only
      omega
    · split at hr
      · obtain ⟨n0, _, hn0⟩ := List.mem_flatMap.1 hr
        unfold parForOuterThread at hn0
        simp only at hn0
        split at hn0
        · simp at hn0
        · split at hn0
          · simp only [List.mem_singleton] at hn0
            subst hn0
            simp only
            omega
          · obtain ⟨k, h1, h2, h3⟩ := seqLoop_mem (by omega) hn0
            omega
      · obtain ⟨k, h1, h2, h3⟩ := seqLoop_mem (by omega) hr
        omega

theorem parallelFor_unit_perm (env : ParForEnv) (n : Nat) :
    ((parallelFor env 0 n 1).map Prod.fst).Perm ((List.range n).map Int.ofNat) := by
  have hc : ExactCover (parallelFor env 0 n 1) 0 n := by
    have h0 : ((0 : Int) ≤ n) := by omega
    unfold parallelFor
    split
    · next h0 => exact exactCover_nil h0
    · next h0 =>
      split
      · exact exactCover_single
      · split
        · next hn =>
          have hthr : 0 < env.nthr0 := by
            unfold parForNested at hn
            simp only [Bool.and_eq_true, Bool.not_eq_true', Bool.or_eq_false_iff,
              decide_eq_false_iff_not] at hn
            omega
          have := parForNested_cover env 0 n 1 (by omega) (by omega) hthr
          have h1 : min (n : Int) (parForNiter 0 n 1 * 1) = n := by
            have := (ceilDiv_spec (a := n - 0) (b := 1) (by omega) (by omega)).1
            unfold parForNiter
            omega
          rwa [h1] at this
        · exact seqLoop_cover _ _ _ (by omega)
  rw [List.perm_iff_count]
  intro x
  have hx := hc x
  have h1 : ((parallelFor env 0 n 1).map Prod.fst).count x = visits (parallelFor env 0 n 1) x := by
    unfold visits List.count
    rw [List.countP_map]
    apply List.countP_congr
    intro r hr
    have := parallelFor_unit env n r hr
    simp only [Function.comp, beq_iff_eq, decide_eq_true_eq, InIvl]
    omega
  rw [h1, hx]
  by_cases hin : 0 ≤ x ∧ x < n
  · have hnd : ((List.range n).map Int.ofNat).Nodup :=
      (List.nodup_map_iff (fun a b h => by simpa using h)).2 List.nodup_range
    have hm : x ∈ (List.range n).map Int.ofNat :=
      List.mem_map.2 ⟨x.toNat, List.mem_range.2 (by omega), by simp [Int.toNat_of_nonneg hin.1]⟩
    rw [if_pos hin, List.count_eq_one_of_mem hnd hm]
  · rw [if_neg hin, eq_comm, List.count_eq_zero]
    intro hm
    obtain ⟨k, hk, rfl⟩ := List.mem_map.1 hm
    rw [List.mem_range] at hk
    apply hin
    simp only [Int.ofNat_eq_natCast]
    omega

/-- Concatenating consecutive ranges. -/
theorem flatMap_range'_chain (c : Nat → Nat) (n : Nat) (hc : ∀ i, i < n → c i ≤ c (i + 1)) :
    (List.range n).flatMap (fun i => List.range' (c i) (c (i + 1) - c i)) =
      List.range' (c 0) (c n - c 0) ∧ c 0 ≤ c n := by
  induction n with
  | zero => simp
  | succ n ih =>
    obtain ⟨h1, h2⟩ := ih (fun i hi => hc i (by omega))
    have h3 := hc n (by omega)
    refine ⟨?_, by omega⟩
    rw [List.range_succ, List.flatMap_append, h1]
    simp only [List.flatMap_cons, List.flatMap_nil, List.append_nil]
    have h4 : c n = c 0 + 1 * (c n - c 0) := by omega
    conv_lhs => rw [h4]
    have h5 : c (n + 1) - (c 0 + 1 * (c n - c 0)) = (c (n+1) - c n) := by omega
    rw [show c 0 + 1 * (c n - c 0) - c 0 = c n - c 0 by omega, h5, List.range'_append]
    congr 1
    omega

/-- What one parallel iteration visits, in closed form. -/
theorem parallel_chunk_eq (f : Bool) (sizes : List Int) (h : ∀ d ∈ sizes, 0 < d) (start stop : Int)
    (h0 : 0 ≤ start) :
    (if stop ≤ start then []
      else threadVisits f sizes (stop - start).toNat start.toNat
        (unlayoutVals f sizes start.toNat)) =
    (List.range' start.toNat (stop.toNat - start.toNat)).map
      fun k => (unlayoutVals f sizes k, k) := by
  split
  · next hle =>
    have : stop.toNat - start.toNat = 0 := by omega
    rw [this]; rfl
  · rw [threadVisits_eq f sizes h]
    congr 2
    omega

theorem parallel_visits_perm (env : ParForEnv) (nthr : Nat) (hn : 0 < nthr) (f : Bool)
    (sizes : List Int) (h : ∀ d ∈ sizes, 0 < d) :
    ((parallelFor env 0 nthr 1).flatMap fun r =>
      let start := divEquallyCumuSizeN (prodVals sizes) nthr (r.1 - 1)
      let stop := divEquallyCumuSizeN (prodVals sizes) nthr r.1
      if stop ≤ start then []
      else threadVisits f sizes (stop - start).toNat start.toNat
        (unlayoutVals f sizes start.toNat)).Perm
    ((List.range (prodVals sizes).toNat).map fun k => (unlayoutVals f sizes k, k)) := by
  have hpos := prodVals_pos sizes h
  set ne := prodVals sizes
  set c : Nat → Int := fun i => divEquallyCumuSizeN ne nthr ((i : Int) - 1) with hc
  have hcm : ∀ i, c i ≤ c (i + 1) := by
    intro i
    have := divEquallyCumu_mono (num := ne) (np := nthr) (by omega) (by omega) i
    simpa [hc] using this
  have hc0 : c 0 = 0 := by simp [hc, divEquallyCumuSizeN]
  have hcn : c nthr = ne := divEquallyCumu_last (by omega) (by omega)
  have hcpos : ∀ i, 0 ≤ c i := by
    intro i
    induction i with
    | zero => rw [hc0]
    | succ i ih => exact le_trans ih (hcm i)
  -- rewrite each chunk
  set g : Int → List (List Int × Nat) := fun x =>
    if divEquallyCumuSizeN ne nthr x ≤ divEquallyCumuSizeN ne nthr (x - 1) then []
      else threadVisits f sizes (divEquallyCumuSizeN ne nthr x - divEquallyCumuSizeN ne nthr (x - 1)).toNat
        (divEquallyCumuSizeN ne nthr (x - 1)).toNat
        (unlayoutVals f sizes (divEquallyCumuSizeN ne nthr (x - 1)).toNat) with hg
  have e1 : ((parallelFor env 0 nthr 1).flatMap fun r => g r.1) =
      ((parallelFor env 0 nthr 1).map Prod.fst).flatMap g := by
    rw [List.flatMap_map]
  show ((parallelFor env 0 nthr 1).flatMap fun r => g r.1).Perm _
  rw [e1]
  refine (List.Perm.flatMap_right g (parallelFor_unit_perm env nthr)).trans ?_
  rw [List.flatMap_map]
  have e2 : ∀ i : Nat, g (Int.ofNat i) =
      (List.range' (c i).toNat ((c (i + 1)).toNat - (c i).toNat)).map
        fun k => (unlayoutVals f sizes k, k) := by
    intro i
    have := parallel_chunk_eq f sizes h (c i) (c (i + 1)) (hcpos i)
    rw [← this]
    simp [hg, hc]
  have e3 : ((List.range nthr).flatMap fun i => g (Int.ofNat i)) =
      ((List.range nthr).flatMap fun i =>
        List.range' (c i).toNat ((c (i + 1)).toNat - (c i).toNat)).map
          fun k => (unlayoutVals f sizes k, k) := by
    rw [List.map_flatMap]
    congr 1
    funext i
    exact e2 i
  rw [e3, (flatMap_range'_chain (fun i => (c i).toNat) nthr (fun i _ => by have := hcm i; omega)).1]
  simp only [hc0, hcn, Int.toNat_zero, Nat.sub_zero, List.range_eq_range']
  exact List.Perm.refl _

end Yask
