import Verif.Common.ComboLemmas
import Mathlib.Data.Finset.Sort

/-!
# C41: binomial coefficients and numbered combinations
-/

namespace Yask

/-- C41: `n_choose_k` returns the binomial coefficient, without overflowing an `int`, for every
`n ≤ 29` and every `k ≥ 0` (including `k > n`, where it is 0). -/
theorem C41_choose (n k : Nat) (hn : n ≤ 29) : nChooseK n k = some (n.choose k : Int) :=
  nChooseK_eq n k (by omega)

/-- C41: for `r < n_choose_k(n, k)` and `k ≤ 8`, `n_choose_k_set(n, k, r)` is defined, and the bits of
its result form a set of exactly `k` numbers below `n`. -/
theorem C41_set_members (n k r : Nat) (hn : n ≤ 29) (hk : k ≤ 8) (hr : r < n.choose k) :
    ∃ m, nChooseKSet n k r = some m ∧
      ∃ S : Finset Nat, S.card = k ∧ (∀ b ∈ S, b < n) ∧ ∀ b, isBitSet m b = true ↔ b ∈ S := by
  obtain ⟨l, m, h1, h2, h3⟩ := nChooseKSet_spec n k r (by omega) hk hr
  have hl := (mem_combos 0 n k l).1 (List.mem_of_getElem? h1)
  refine ⟨m, h2, l.toFinset, ?_, ?_, ?_⟩
  · rw [List.toFinset_card_of_nodup (hl.2.1.imp (fun h => by omega)), hl.1]
  · intro b hb
    have := hl.2.2 b (List.mem_toFinset.1 hb); omega
  · intro b; rw [h3, List.mem_toFinset]; simp

/-- C41: every `k`-element subset of `{0, …, n-1}` is the result for exactly one `r` below
`n_choose_k(n, k)`: looping over `r` visits every combination exactly once. -/
theorem C41_set_bijection (n k : Nat) (hn : n ≤ 29) (hk : k ≤ 8) (S : Finset Nat)
    (hc : S.card = k) (hS : ∀ b ∈ S, b < n) :
    ∃! r : Nat, r < n.choose k ∧ ∃ m, nChooseKSet n k r = some m ∧
      ∀ b, isBitSet m b = true ↔ b ∈ S := by
  have hmem : S.sort (· ≤ ·) ∈ combos 0 n k := by
    rw [mem_combos]
    refine ⟨by simp [hc], (Finset.sortedLT_sort S).pairwise, fun x hx => ?_⟩
    have := hS x ((Finset.mem_sort (· ≤ ·)).1 hx); omega
  obtain ⟨r, hr, he⟩ := List.mem_iff_getElem.1 hmem
  have hr' := hr
  rw [combos_length] at hr'
  refine ⟨r, ⟨hr', ?_⟩, ?_⟩
  · obtain ⟨l, m, h1, h2, h3⟩ := nChooseKSet_spec n k r (by omega) hk hr'
    rw [List.getElem?_eq_getElem hr, Option.some.injEq, he] at h1
    exact ⟨m, h2, fun b => by rw [h3, ← h1]; simp⟩
  · rintro r' ⟨hr2, m, h2, h3⟩
    obtain ⟨l', m', g1, g2, g3⟩ := nChooseKSet_spec n k r' (by omega) hk hr2
    rw [g2, Option.some.injEq] at h2
    subst h2
    have hl := (mem_combos 0 n k l').1 (List.mem_of_getElem? g1)
    have hlt : r' < (combos 0 n k).length := by rw [combos_length]; exact hr2
    have : l' = S.sort (· ≤ ·) := by
      have hp : l'.Perm (S.sort (· ≤ ·)) := by
        rw [List.perm_ext_iff_of_nodup (hl.2.1.imp (fun h => by omega)) (Finset.sort_nodup _ _)]
        intro b
        rw [Finset.mem_sort, ← h3, g3]; simp
      exact hp.eq_of_pairwise (le := (· ≤ ·)) (fun a b _ _ h1 h2 => le_antisymm h1 h2)
        (hl.2.1.imp (fun h => by omega)) (Finset.pairwise_sort _ _)
    rw [List.getElem?_eq_getElem hlt, Option.some.injEq, this, ← he] at g1
    exact (combos_nodup 0 n k).getElem_inj_iff.1 g1

/-- C41, finding: the working array has 8 entries although the declared domain is `n ≤ 64`; choosing 9
of 9 elements writes past its end. -/
theorem C41_set_array_overflow : nChooseKSet 9 9 0 = none := by decide +kernel

/-- C41, finding: the intermediate product overflows `int` at `n = 30`, although the result fits. -/
theorem C41_choose_overflow : nChooseK 30 15 = none ∧ (Nat.choose 30 15 : Int) ≤ 2147483647 := by
  decide +kernel

example : (List.range 6).map (fun r => nChooseKSet 4 2 (r : Int)) =
    [some 3, some 5, some 9, some 6, some 10, some 12] := by decide +kernel
example : ∃ S : Finset Nat, S.card = 3 ∧ ∀ b ∈ S, b < 5 := ⟨{0, 2, 4}, by decide, by decide⟩

end Yask
