import Verif.Common.OptLineLemmas

/-!
# Options of a solution: property C76

`apply_command_line_options()` gives every setting the value written for it on the command line, in both the requested
settings and those in use; later options override earlier ones; words that are not options are returned.  The meaning of
the words is given in `Verif.Spec.OptSpec`.
-/

namespace Yask

open Options
open Args (Str)

/-- C76: a value is accepted for an option with an integer exactly if it is written as an integer of C that fits, and
then the option gets that integer. -/
theorem C76_number_iff (s : Str) (hz : NoNull s) (n : Int) : idxVal s = some n ↔ Numeral s n ∧ IdxRange n :=
  ⟨of_idxVal s n hz, fun h => idxVal_of s n hz h.1 h.2⟩

/-- Not vacuous; octal and hexadecimal integers are understood, other text is not. -/
example : idxVal "128".toList = some 128 ∧ idxVal "-0x1F".toList = some (-31) ∧ idxVal " +010".toList = some 8 ∧
    idxVal "12k".toList = none ∧ idxVal "".toList = none ∧ idxVal " ".toList = none ∧ idxVal "0x".toList = none ∧
    idxVal "9223372036854775807".toList = none ∧ idxVal "9223372036854775806".toList = some 9223372036854775806 := by
  decide +kernel
example : Numeral "-0x1F".toList (-31) :=
  .minus [] "0x1F".toList 31 (by simp) (.hex 'x' "1F".toList [15, 1] (Or.inl rfl) (by decide)
    (.cons ⟨Or.inr (by decide), by decide⟩ (.cons ⟨Or.inl (by decide), by decide⟩ .nil)))

/-- C76: for every well-formed command line, in a solution whose dims have usable names, the call succeeds; every setting
has the last value given to it or, if none was given, its old one, both in the settings in use and in the requested ones;
and the words that are not options are returned, in order. -/
theorem C76_applied {D : Type} (strtod : Str → Option D) (mpi : Bool) (step : Str) (dom : List Str)
    (hg : GoodDims step dom) (o : Opts D) (words : List Str) (given : List (Key × Val D)) (left : List Str)
    (h : Line strtod mpi step dom words given left) :
    applyOptions strtod mpi step dom o words =
      (⟨after o.actl given, after o.req given⟩, some (Args.joinRem left)) := by
  unfold applyOptions
  simp only
  rw [line_parse strtod mpi step dom hg words given left h o.actl,
    line_parse strtod mpi step dom hg words given left h o.req]
  rfl

/-- C76: an option without a dim is a shortcut for the options of all domain dims. -/
theorem C76_shortcut {D : Type} (strtod : Str → Option D) (mpi : Bool) (step : Str) (dom : List Str)
    (hg : GoodDims step dom) (o : Opts D) (k : SizeKind) (p t : Str) (n : Int) (hp : SizePrefix mpi k p)
    (hz : NoNull t) (ht : Numeral t n) (hn : IdxRange n) :
    applyOptions strtod mpi step dom o ['-' :: p, t] =
      applyOptions strtod mpi step dom o (dom.flatMap fun d => ['-' :: (p ++ d), t]) := by
  have h1 := Line.cons (Item.sizes (strtod := strtod) (dom := dom) (step := step) k p t n hp hz ht hn) .nil
  have h2 : ∀ l : List Str, (∀ d ∈ l, d ∈ dom) → Line strtod mpi step dom (l.flatMap fun d => ['-' :: (p ++ d), t])
      (l.map fun d => (.size k d, .int n)) [] := by
    intro l
    induction l with
    | nil => intro _; exact .nil
    | cons d l ih =>
      intro hl
      exact .cons (Item.size k p d t n hp (Or.inl (hl d List.mem_cons_self)) hz ht hn)
        (ih fun x hx => hl x (List.mem_cons_of_mem _ hx))
  have e1 := C76_applied strtod mpi step dom hg o _ _ _ h1
  rw [C76_applied strtod mpi step dom hg o _ _ _ (h2 dom fun _ h => h)]
  simpa using e1

/-- C76 (part): if a size is missing or is not an integer, the call throws; the options before it have been applied to
the settings in use, but not to the requested settings.  The full property would leave all settings alone. -/
theorem C76_bad_number_partial {D : Type} (strtod : Str → Option D) (mpi : Bool) (step : Str) (dom : List Str)
    (hg : GoodDims step dom) (o : Opts D) (words : List Str) (given : List (Key × Val D)) (left : List Str)
    (h : Line strtod mpi step dom words given left) (k : SizeKind) (p d : Str) (hp : SizePrefix mpi k p)
    (hd : SizeDim step dom k d) (rest : List Str)
    (hr : ∀ v, rest.head? = some v → NoNull v ∧ ∀ n, IdxRange n → ¬ Numeral v n) :
    applyOptions strtod mpi step dom o (words ++ ('-' :: (p ++ d)) :: rest) = (⟨after o.actl given, o.req⟩, none) := by
  have hs : step ∉ dom := (List.nodup_cons.1 hg.nodup).1
  have hm := (mem_optTable mpi step dom hg _).2 (size_mem mpi step dom k p d hs hp hd)
  have hl := line_consumes strtod mpi step dom hg words given left h o.actl (('-' :: (p ++ d)) :: rest)
  have hb : ∀ st : Settings D, parseLoop strtod (optTable mpi step dom) 0 st (('-' :: (p ++ d)) :: rest) = (st, none) := by
    intro st
    rw [parseLoop, checkAny_mem strtod _ (optTable_distinct mpi step dom hg) st _ rest _ hm (by simp [spell])]
    simp only [checkArg, if_true]
    cases hv : rest.head? with
    | none => rfl
    | some v =>
      simp only
      cases hx : idxVal v with
      | none => rfl
      | some n =>
        obtain ⟨h1, h2⟩ := of_idxVal v n (hr v hv).1 hx
        exact absurd h1 ((hr v hv).2 n h2)
  unfold applyOptions
  simp only
  rw [hl, hb, assignAll_after]
  rfl

/-! ### A solution with dims `t`, `x` and `y` -/

def exOptStep : Str := "t".toList
def exOptDom : List Str := ["x".toList, "y".toList]

/-- Settings that are all zero. -/
def exOptZero : Opts Nat := ⟨fun _ => .int 0, fun _ => .int 0⟩

/-- Not vacuous: the hypotheses of `C76_applied` hold for `-b 32 -bx 0x40 -no-auto_tune -max_threads 4 foo`. -/
theorem exOpt_good : GoodDims exOptStep exOptDom := ⟨by decide, by decide, by decide +kernel⟩

example : Line (fun _ => (none : Option Nat)) false exOptStep exOptDom
    (["-b".toList, "7".toList] ++ (["-bx".toList, "0x4".toList] ++ (["-no-auto_tune".toList] ++ (["foo".toList] ++ []))))
    ([(.size .block "x".toList, .int 7), (.size .block "y".toList, .int 7)] ++
      ([(.size .block "x".toList, .int 4)] ++ ([(.flag .autoTune, .bool false)] ++ ([] ++ []))))
    ([] ++ ([] ++ ([] ++ (["foo".toList] ++ [])))) := by
  refine .cons (.sizes .block "b".toList "7".toList 7 rfl (by unfold NoNull; decide +kernel) ?_ (by unfold IdxRange; omega))
    (.cons (.size .block "b".toList "x".toList "0x4".toList 4 rfl (Or.inl (by decide)) (by unfold NoNull; decide +kernel) ?_
      (by unfold IdxRange; omega)) (.cons (.off .autoTune (by simp [NeedsMpi])) (.cons (.other _ ?_) .nil)))
  · exact .plain [] _ 7 (by simp) (.dec _ [7] (by decide) (by decide) (.cons ⟨Or.inl (by decide), by decide⟩ .nil))
  · exact .plain [] _ 4 (by simp) (.hex 'x' "4".toList [4] (Or.inl rfl) (by decide)
      (.cons ⟨Or.inl (by decide), by decide⟩ .nil))
  · intro h
    generalize hs : "foo".toList = s at h
    cases h <;> simp at hs

example : ((applyOptions (fun _ => (none : Option Nat)) false exOptStep exOptDom exOptZero
      ["-b".toList, "7".toList, "-bx".toList, "0x4".toList, "-bt".toList, "2".toList, "-no-auto_tune".toList,
        "foo".toList, "-auto_tune_targets".toList, "b,nb".toList]).1.req (.size .block "x".toList),
    (applyOptions (fun _ => (none : Option Nat)) false exOptStep exOptDom exOptZero
      ["-b".toList, "7".toList, "-bx".toList, "0x4".toList, "-bt".toList, "2".toList, "-no-auto_tune".toList,
        "foo".toList, "-auto_tune_targets".toList, "b,nb".toList]).1.actl .targets,
    (applyOptions (fun _ => (none : Option Nat)) false exOptStep exOptDom exOptZero
      ["-b".toList, "7".toList, "-nrx".toList, "4".toList]).2) =
    (.int 4, .strs ["b".toList, "nb".toList], some "-nrx 4".toList) := by
  decide +kernel

/-- C76, finding: a call that throws changes the settings in use, which the getters report, but not the requested
settings. -/
theorem C76_failed_call_wrong :
    (applyOptions (fun _ => (none : Option Nat)) false exOptStep exOptDom exOptZero
      ["-bx".toList, "8".toList, "-by".toList, "8k".toList]).2 = none ∧
    (applyOptions (fun _ => (none : Option Nat)) false exOptStep exOptDom exOptZero
      ["-bx".toList, "8".toList, "-by".toList, "8k".toList]).1.actl (.size .block "x".toList) = .int 8 ∧
    (applyOptions (fun _ => (none : Option Nat)) false exOptStep exOptDom exOptZero
      ["-bx".toList, "8".toList, "-by".toList, "8k".toList]).1.req (.size .block "x".toList) = .int 0 := by
  decide +kernel

/-- C76, finding: a list with an unknown word replaces the old list by the words before it, although the call throws. -/
theorem C76_failed_list_wrong :
    (applyOptions (fun _ => (none : Option Nat)) false exOptStep exOptDom
      ⟨fun _ => .strs ["b".toList], fun _ => .strs ["b".toList]⟩
      ["-auto_tune_targets".toList, "nb,zz".toList]).2 = none ∧
    (applyOptions (fun _ => (none : Option Nat)) false exOptStep exOptDom
      ⟨fun _ => .strs ["b".toList], fun _ => .strs ["b".toList]⟩
      ["-auto_tune_targets".toList, "nb,zz".toList]).1.actl .targets = .strs ["nb".toList] := by
  decide +kernel

/-- C76, finding: integers that do not fit into an `int` are accepted and reduced modulo 2^32. -/
theorem C76_int_wraps_wrong :
    (applyOptions (fun _ => (none : Option Nat)) false exOptStep exOptDom exOptZero
      ["-max_threads".toList, "4294967298".toList]).2 = some [] ∧
    (applyOptions (fun _ => (none : Option Nat)) false exOptStep exOptDom exOptZero
      ["-max_threads".toList, "4294967298".toList]).1.req (.int .maxThreads) = .int 2 := by
  decide +kernel

/-- C76, finding: if a domain dim is called `lock_threads`, its block size cannot be set by itself: the option sets the
number of threads. -/
theorem C76_clash_wrong :
    (applyOptions (fun _ => (none : Option Nat)) false "t".toList ["lock_threads".toList] exOptZero
      ["-block_threads".toList, "8".toList]).1.req (.size .block "lock_threads".toList) = .int 0 ∧
    (applyOptions (fun _ => (none : Option Nat)) false "t".toList ["lock_threads".toList] exOptZero
      ["-block_threads".toList, "8".toList]).1.req (.int .innerThreads) = .int 8 := by
  decide +kernel

end Yask
