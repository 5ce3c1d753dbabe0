import Verif.Compiler.FoldOptLemmas

/-!
# C93: the fold lengths requested are the last ones written

Lengths are requested in `-fold` and by `set_fold_len()`, in any order and any number of times, and forgotten by
`clear_folding()`.  What `-fold` accepts is `dim=number[,dim=number[,...]]`.
-/

namespace Yask
open FoldOpt Options
open Args (Str)

/-- After requests that are well formed, with values that fit `int`, none has thrown, and the length requested of a dim
is the last one written for it since the lengths were last cleared, if any. -/
theorem C93_last (os : List Op) (es : List (Str × Int)) (hw : Written os es)
    (hz : ∀ arg, Op.option arg ∈ os → NoNull arg)
    (hr : ∀ arg ps, Op.option arg ∈ os → Assigns arg ps → ∀ e ∈ ps, IntRange e.2) :
    (applyAll [] os).2 = false ∧ ∀ d, lookup (applyAll [] os).1 d = lastOf es d := by
  induction hw with
  | nil => exact ⟨rfl, fun d => rfl⟩
  | option os es arg ps hw ha ih =>
    obtain ⟨i1, i2⟩ := ih (fun a h => hz a (by simp [h])) (fun a p h => hr a p (by simp [h]))
    rw [applyAll_snoc _ _ _ i1]
    have hr' := hr arg ps (by simp) ha
    have hz' := hz arg (by simp)
    obtain ⟨ss, rfl, hc, hp⟩ := ha
    show (pieces _ (splitComma [] _)).2 = false ∧ ∀ d, lookup (pieces _ (splitComma [] _)).1 d = _
    rw [split_assigns hc hp]
    exact pieces_last hp (fun s hs h => hz' (mem_intercalate hs h)) hr' _ _ i2
  | set os es d n hw ih =>
    obtain ⟨i1, i2⟩ := ih (fun a h => hz a (by simp [h])) (fun a p h => hr a p (by simp [h]))
    rw [applyAll_snoc _ _ _ i1]
    refine ⟨rfl, fun d' => ?_⟩
    show lookup (addBack _ d n) d' = _
    rw [lookup_addBack, mem_of_reverse_find, i2]
  | clear os es hw ih =>
    obtain ⟨i1, i2⟩ := ih (fun a h => hz a (by simp [h])) (fun a p h => hr a p (by simp [h]))
    rw [applyAll_snoc _ _ _ i1]
    exact ⟨rfl, fun d' => rfl⟩

/-- `is_folding_set()` tells whether anything has been written since the lengths were last cleared. -/
theorem C93_is_set (os : List Op) (es : List (Str × Int)) (hw : Written os es)
    (hz : ∀ arg, Op.option arg ∈ os → NoNull arg)
    (hr : ∀ arg ps, Op.option arg ∈ os → Assigns arg ps → ∀ e ∈ ps, IntRange e.2) :
    isSet (applyAll [] os).1 = true ↔ es ≠ [] := by
  obtain ⟨_, h⟩ := C93_last os es hw hz hr
  have key : (applyAll [] os).1 = [] ↔ es = [] := by
    constructor
    · intro e
      rcases List.eq_nil_or_concat es with h0 | ⟨es', x, h0⟩
      · exact h0
      · have := h x.1
        rw [e, h0, List.concat_eq_append, show x = (x.1, x.2) from rfl, mem_of_reverse_find] at this
        simp [lookup] at this
    · intro e
      cases hl : (applyAll [] os).1 with
      | nil => rfl
      | cons x l =>
        have := h x.1
        rw [hl, e] at this
        simp [lookup, lastOf] at this
  unfold isSet
  rw [decide_eq_true_iff, List.length_pos_iff, ne_eq, key]

/-- What `-fold` accepts: a list of assignments of numbers to dims separated by commas, with at most one comma after the
last; anything else throws. -/
theorem C93_accepted (l : Tup) (arg : Str) (hz : NoNull arg) :
    ((Op.option arg).apply l).2 = false ↔
      ∃ ps, Assigns arg ps ∨ ∃ a, arg = a ++ [','] ∧ a ≠ [] ∧ Assigns a ps := by
  have clean : ∀ p ∈ splitComma [] arg, NoNull p := by
    obtain ⟨_, h | h⟩ := splitComma_back [] arg (by simp)
    · intro p hp hm
      exact hz (by rw [← List.nil_append arg, h]; exact mem_intercalate hp hm)
    · intro p hp hm
      exact hz (by rw [← List.nil_append arg, h]; exact List.mem_append_left _ (mem_intercalate hp hm))
  constructor
  · intro h
    obtain ⟨ps, hps⟩ := pieces_ok clean h
    obtain ⟨hc, hb⟩ := splitComma_back [] arg (by simp)
    refine ⟨ps, ?_⟩
    rcases hb with hb | hb
    · exact .inl ⟨_, by simpa using hb, hc, hps⟩
    · refine .inr ⟨_, by simpa using hb, ?_, _, rfl, hc, hps⟩
      intro e
      rw [e] at hb
      simp only [List.nil_append] at hb
      rw [hb] at hps
      have : splitComma [] [','] = [[]] := by decide
      rw [this] at hps
      cases hps with
      | cons h1 _ => exact assign_ne h1 rfl
  · rintro ⟨ps, h⟩
    have main : ∀ ss : List Str, splitComma [] arg = ss → List.Forall₂ Assign ss ps →
        ((Op.option arg).apply l).2 = false := by
      intro ss hs hp
      show (pieces l (splitComma [] arg)).2 = false
      rw [hs] at clean ⊢
      clear hs hz h
      induction hp generalizing l with
      | nil => rfl
      | cons h1 _ ih =>
        unfold pieces
        rw [piece_of (clean _ (List.mem_cons_self ..)) h1]
        exact ih _ fun s hs => clean s (List.mem_cons_of_mem _ hs)
    rcases h with ⟨ss, rfl, hc, hp⟩ | ⟨a, rfl, ha, ss, rfl, hc, hp⟩
    · exact main ss (split_assigns hc hp) hp
    · refine main ss ?_ hp
      exact split_assigns_comma hc hp ha

/-- A value that does not fit `int` is not rejected: another is requested. -/
theorem C93_wraps :
    (applyAll [] [.option "x=4294967300".toList]).2 = false ∧
      lookup (applyAll [] [.option "x=4294967300".toList]).1 "x".toList = some 4 := by decide +kernel

/-- An option that throws has already changed the lengths before the string at fault. -/
theorem C93_not_all_or_nothing :
    ((Op.option "x=4,y".toList).apply [("x".toList, 2)]).2 = true ∧
      lookup ((Op.option "x=4,y".toList).apply [("x".toList, 2)]).1 "x".toList = some 4 := by decide +kernel

/-- Two options, a call and a clear in between: the last values count. -/
example :
    let os := [.set "z".toList 8, .clear, .option "x=4,y=2".toList, .set "x".toList 2, .option "y=0x8".toList]
    (applyAll [] os).2 = false ∧
      (lookup (applyAll [] os).1 "x".toList = some 2 ∧ lookup (applyAll [] os).1 "y".toList = some 8) ∧
      (lookup (applyAll [] os).1 "z".toList = none ∧ isSet (applyAll [] os).1 = true) := by decide +kernel

/-- The hypotheses of `C93_last` hold of an option and a call after it. -/
example : Written [.option "x=4,y=2".toList, .set "x".toList 2]
    [("x".toList, 4), ("y".toList, 2), ("x".toList, 2)] := by
  refine Written.set [_] [_, _] _ _ ?_
  refine Written.option [] [] _ _ .nil ⟨["x=4".toList, "y=2".toList], by decide, by decide, ?_⟩
  refine .cons ⟨"4".toList, by decide, by decide, by decide, ?_, by unfold IdxRange; decide⟩
    (.cons ⟨"2".toList, by decide, by decide, by decide, ?_, by unfold IdxRange; decide⟩ .nil)
  · exact (of_idxVal "4".toList 4 (by unfold NoNull; decide) (by decide +kernel)).1
  · exact (of_idxVal "2".toList 2 (by unfold NoNull; decide) (by decide +kernel)).1

end Yask
