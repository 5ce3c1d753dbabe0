import Verif.Spec.PrefetchSpec
import Mathlib.Data.List.Induction

/-!
# C101: prefetch distances are the last ones requested
-/

namespace Yask
open Prefetch

theorem get_level (d : Dists) (level : Int) (h : level = 1 ∨ level = 2) : get d level = .ok ((d level).getD 0) := by
  unfold Prefetch.get
  rw [if_neg (by omega)]
  cases d level <;> rfl

theorem apply_requests (d : Dists) (o : Op) (level v : Int) (h : Requests o level v) : ((o.apply d).1 level).getD 0 = v := by
  cases o with
  | set l dist =>
    obtain ⟨rfl, rfl, h1, h2⟩ := h
    simp only [Op.apply, get_level d l h1]
    rw [if_neg (by omega)]
    simp
  | options l1 l2 =>
    rcases h with ⟨rfl, rfl⟩ | ⟨rfl, rfl⟩
    · cases l2 <;> simp [Op.apply, assign, Function.update_apply]
    · simp [Op.apply, assign]

theorem apply_others (d : Dists) (o : Op) (level : Int) (hl : level = 1 ∨ level = 2) (h : ∀ v, ¬ Requests o level v) :
    ((o.apply d).1 level).getD 0 = (d level).getD 0 := by
  cases o with
  | set l dist =>
    by_cases h1 : l = 1 ∨ l = 2
    · simp only [Op.apply, get_level d l h1]
      by_cases h2 : dist < 0
      · rw [if_pos h2]
      · rw [if_neg h2]
        have : level ≠ l := fun e => h dist ⟨e.symm, rfl, hl, by omega⟩
        simp [Function.update_apply, this]
    · have : get d l = .throws := by unfold Prefetch.get; rw [if_pos (by omega)]
      simp [Op.apply, this]
  | options l1 l2 =>
    have h1 : level = 1 → l1 = none := fun e => by
      cases hx : l1 with
      | none => rfl
      | some x => exact absurd (Or.inl ⟨e, hx⟩) (h x)
    have h2 : level = 2 → l2 = none := fun e => by
      cases hx : l2 with
      | none => rfl
      | some x => exact absurd (Or.inr ⟨e, hx⟩) (h x)
    rcases hl with rfl | rfl
    · rw [h1 rfl]
      cases l2 <;> simp [Op.apply, assign, touch, Function.update_apply]
    · rw [h2 rfl]
      cases l1 <;> simp [Op.apply, assign, touch, Function.update_apply]

theorem run_snoc (ops : List Op) (o : Op) : run (ops ++ [o]) = (o.apply (run ops)).1 := by
  unfold run; rw [List.foldl_append]; rfl

theorem run_requested (ops : List Op) (level : Int) (hl : level = 1 ∨ level = 2) :
    Requested ops level (((run ops) level).getD 0) := by
  induction ops using List.reverseRecOn with
  | nil => right; exact ⟨by simp, rfl⟩
  | append_singleton ops o ih =>
    rw [run_snoc]
    by_cases h : ∃ v, Requests o level v
    · obtain ⟨v, hv⟩ := h
      left
      refine ⟨ops, o, [], rfl, ?_, by simp⟩
      rw [apply_requests _ o level v hv]
      exact hv
    · have h : ∀ v, ¬ Requests o level v := fun v hv => h ⟨v, hv⟩
      rw [apply_others _ o level hl h]
      rcases ih with ⟨pre, o', post, rfl, h1, h2⟩ | ⟨h1, h2⟩
      · left
        refine ⟨pre, o', post ++ [o], by simp, h1, fun x hx => ?_⟩
        rcases List.mem_append.1 hx with hx | hx
        · exact h2 x hx
        · rw [List.mem_singleton.1 hx]; exact h
      · right
        refine ⟨fun x hx => ?_, h2⟩
        rcases List.mem_append.1 hx with hx | hx
        · exact h1 x hx
        · rw [List.mem_singleton.1 hx]; exact h

/-- After any calls, `get_prefetch_dist()` returns the distance last requested for the level, by a call that did not throw or by an
option, or 0 if there is none; it throws exactly for levels other than 1 and 2. -/
theorem C101_get (ops : List Op) (level : Int) :
    ((level = 1 ∨ level = 2) → ∃ v, get (run ops) level = .ok v ∧ Requested ops level v) ∧
    (get (run ops) level = .throws ↔ level ≠ 1 ∧ level ≠ 2) := by
  constructor
  · intro hl
    exact ⟨_, get_level _ level hl, run_requested ops level hl⟩
  · by_cases hl : level = 1 ∨ level = 2
    · rw [get_level _ level hl]
      constructor
      · intro h; cases h
      · omega
    · unfold Prefetch.get
      rw [if_pos (by omega)]
      simp only [true_iff]
      omega

/-- `set_prefetch_dist()` throws exactly if the level is not 1 or 2 or the distance is negative, and then changes nothing. -/
theorem C101_set_throws (d : Dists) (level dist : Int) :
    ((Op.set level dist).apply d).2 = true ↔ ¬ ((level = 1 ∨ level = 2) ∧ 0 ≤ dist) := by
  by_cases hl : level = 1 ∨ level = 2
  · simp only [Op.apply, get_level d level hl]
    by_cases h : dist < 0
    · rw [if_pos h]; simp only [true_iff]; omega
    · rw [if_neg h]; simp only [Bool.false_eq_true, false_iff, not_not]; omega
  · have : get d level = .throws := by unfold Prefetch.get; rw [if_pos (by omega)]
    simp [Op.apply, this, hl]

theorem C101_set_throws_unchanged (d : Dists) (o : Op) (h : (o.apply d).2 = true) : (o.apply d).1 = d := by
  cases o with
  | options l1 l2 => cases h
  | set level dist =>
    simp only [Op.apply] at h ⊢
    cases hg : get d level with
    | ok v =>
      rw [hg] at h
      simp only at h ⊢
      by_cases hd : dist < 0
      · rw [if_pos hd]
      · rw [if_neg hd] at h; cases h
    | throws => rfl
    | undefined => rfl

/-- The inner loop prefetches to a cache exactly if its distance is positive, that many iterations ahead of the furthest read. -/
theorem C101_prefetches (ops : List Op) (hi level ofs : Int) :
    (level, ofs) ∈ prefetches (run ops) hi ↔ ∃ v, get (run ops) level = .ok v ∧ 0 < v ∧ ofs = hi + v := by
  generalize run ops = d
  have key : ∀ l : Int, (l = 1 ∨ l = 2) → ∀ x, (match d l with
      | none => none
      | some pfd => if pfd < 1 then none else some (l, hi + (pfd - 1) + 1)) = some x ↔
      0 < (d l).getD 0 ∧ x = (l, hi + (d l).getD 0) := by
    intro l hl x
    cases d l with
    | none => simp
    | some p =>
      simp only [Option.getD_some]
      by_cases hp : p < 1
      · rw [if_pos hp]
        constructor
        · intro h; cases h
        · intro h; omega
      · rw [if_neg hp, Option.some.injEq]
        have e : hi + (p - 1) + 1 = hi + p := by omega
        rw [e]
        exact ⟨fun h => ⟨by omega, h.symm⟩, fun h => h.2.symm⟩
  unfold prefetches
  simp only [List.mem_filterMap, List.mem_cons, List.not_mem_nil, or_false]
  constructor
  · rintro ⟨l, hl, h⟩
    obtain ⟨h1, h2⟩ := (key l hl _).1 h
    injection h2 with h3 h4
    subst h3
    exact ⟨_, get_level d level hl, h1, h4⟩
  · rintro ⟨v, h1, h2, h3⟩
    have hl : level = 1 ∨ level = 2 := by
      by_contra hn
      unfold Prefetch.get at h1
      rw [if_pos (by omega)] at h1
      cases h1
    rw [get_level d level hl] at h1
    injection h1 with h1
    refine ⟨level, hl, (key level hl _).2 ⟨by omega, ?_⟩⟩
    rw [h3, h1]

/-- C101, finding: the options accept negative distances, which `get_prefetch_dist()` then returns, and which
`set_prefetch_dist()` refuses; there is no prefetching with them. -/
theorem C101_negative_option : get (run [.set 1 4, .options (some (-3)) none]) 1 = .ok (-3) ∧
    prefetches (run [.set 1 4, .options (some (-3)) none]) 2 = [] := by decide +kernel

example : get (run [.set 1 4, .set 3 2, .options none (some 5), .set 1 (-1)]) 1 = .ok 4 ∧
    prefetches (run [.set 1 4, .set 3 2, .options none (some 5), .set 1 (-1)]) 2 = [(1, 6), (2, 7)] := by decide +kernel

end Yask
