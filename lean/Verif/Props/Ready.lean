import Verif.Kernel.ReadyLemmas

/-!
# Runs of prepared solutions: property C71
-/

namespace Yask
open Ready

/-- C71: after any history of calls, if the solution is ready, `run_solution()` is not rejected: all storage exists, halos
are exchanged, and it uses the settings that were prepared. -/
theorem C71_ready_runs (hasScratch : Bool) (calls : List Op) (h : Ready calls) :
    (Sol.after calls).run hasScratch = .ok ⟨true, true⟩ := by
  obtain ⟨b, l, rfl, hl⟩ := h
  rw [Ready.after_append, List.foldl_cons, Ready.keeps_all hl]
  simp [Sol.step, Sol.run]

/-- C71: `run_solution()` throws if the solution was never prepared, whatever else was called. -/
theorem C71_never_prepared (hasScratch : Bool) (calls : List Op) (h : ∀ e, .prepare e ∉ calls) :
    (Sol.after calls).run hasScratch = .throws := by
  have : (Sol.after calls).flag = false := by
    induction calls using List.reverseRecOn with
    | nil => rfl
    | append_singleton a c ih =>
      rw [Ready.after_snoc]
      have ih := ih (fun e he => h e (by simp [he]))
      cases c with
      | prepare e => exact absurd (by simp) (h e)
      | _ => first | exact ih | rfl
  simp [Sol.run, this]

/-- C71: after a call that sets the numbers or indices of ranks or the sizes of domains or blocks, `run_solution()` throws until
`prepare_solution()` is called again, whatever was called before and in between. -/
theorem C71_sizes_changed (hasScratch : Bool) (before later : List Op) (h : ∀ e, .prepare e ∉ later) :
    (Sol.after (before ++ .setSize :: later)).run hasScratch = .throws := by
  have : (Sol.after (before ++ .setSize :: later)).flag = false := by
    induction later using List.reverseRecOn with
    | nil => rw [Ready.after_append]; rfl
    | append_singleton a c ih =>
      rw [← List.cons_append, ← List.append_assoc, Ready.after_snoc]
      have ih := ih (fun e he => h e (by simp [he]))
      cases c with
      | prepare e => exact absurd (by simp) (h e)
      | _ => first | exact ih | rfl
  simp [Sol.run, this]

/-- C71, for applications that do not call `end_solution()` or `apply_command_line_options()`, and in which no call of
`prepare_solution()` throws: `run_solution()` runs, on what was prepared, if the solution is ready, and otherwise throws.
What is missing: without these conditions this is false, see below. -/
theorem C71_tracked_partial (hasScratch : Bool) (calls : List Op) (h : ∀ c ∈ calls, tracked c = true) :
    (Ready calls ∧ (Sol.after calls).run hasScratch = .ok ⟨true, true⟩) ∨
    (¬ Ready calls ∧ (Sol.after calls).run hasScratch = .throws) := by
  by_cases hr : Ready calls
  · exact .inl ⟨hr, C71_ready_runs hasScratch calls hr⟩
  · refine .inr ⟨hr, ?_⟩
    have : (Sol.after calls).flag = false := by
      induction calls using List.reverseRecOn with
      | nil => rfl
      | append_singleton a c ih =>
        rw [Ready.after_snoc]
        rw [Ready.ready_snoc, not_or, not_and] at hr
        have hc := h c (by simp)
        by_cases hk : keeps c = true
        · rw [Ready.keeps_step hk]
          exact ih (fun d hd => h d (by simp [hd])) (hr.2 hk)
        · cases c with
          | setSize => rfl
          | setMinPad => exact absurd rfl hk
          | run => exact absurd rfl hk
          | tune => exact absurd rfl hk
          | options => cases hc
          | endSoln => cases hc
          | prepare e =>
            cases e with
            | setupFails => cases hc
            | allocFails => cases hc
            | done => exact absurd rfl hr.1
    simp [Sol.run, this]

/-- The hypotheses of the theorems above hold in usual applications. -/
example : Ready [.setSize, .run, .prepare .done, .setMinPad, .run, .run] ∧
    (∀ c ∈ [Op.setSize, .run, .prepare .done, .setMinPad, .run, .run, .setSize], tracked c = true) ∧
    (Sol.after [.setSize, .run, .prepare .done, .run, .setSize]).run true = .throws :=
  ⟨⟨[.setSize, .run], [.setMinPad, .run, .run], rfl, by decide⟩, by decide, by decide⟩

/-- C71 fails after `end_solution()`: the solution still counts as prepared, and a run accesses released storage. -/
theorem C71_after_end_undefined (hasScratch : Bool) :
    (Sol.after [.setSize, .prepare .done, .run, .endSoln]).run hasScratch = .undefined := by
  cases hasScratch <;> decide

/-- C71 fails if `prepare_solution()` throws after an earlier success: a run is not rejected and uses settings that were
not prepared. Options were changed before, e.g., to sizes that do not fit. -/
theorem C71_failed_prepare_wrong (hasScratch : Bool) :
    (Sol.after [.setSize, .prepare .done, .options, .prepare .setupFails]).run hasScratch = .ok ⟨false, true⟩ := by
  cases hasScratch <;> decide

/-- C71 fails if an allocation fails: the solution counts as prepared although its vars have no storage. -/
theorem C71_failed_alloc_undefined (hasScratch : Bool) :
    (Sol.after [.setSize, .prepare .allocFails]).run hasScratch = .undefined := by
  cases hasScratch <;> decide

/-- C71 fails after `apply_command_line_options()`: with the same options as for the setters, a run is not rejected. -/
theorem C71_options_wrong (hasScratch : Bool) :
    (Sol.after [.prepare .done, .options]).run hasScratch = .ok ⟨false, true⟩ := by
  cases hasScratch <;> decide

end Yask
