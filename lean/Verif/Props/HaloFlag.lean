import Verif.Kernel.HaloFlagLemmas

/-!
# C98: runs exchange halos as requested
-/

namespace Yask
open HaloFlag Spec

/-- Each run outside of the tuner exchanges halos as the last option says, or always if there was none, whatever exceptions there are in
runs and whatever registered functions do, e.g., tune in a run or give the option while tuning. Missing: executions in which
`run_auto_tuner_now()` throws (`C98_tuner_throws`). -/
theorem C98_requested_partial (cs : List Cmd) {f' : Bool} {tr : List (Bool × ExchEv)} {r : Res}
    (h : Exec false (.cmds cs) true tr f' r) (hn : ∀ k, (k, ExchEv.tunerThrew) ∉ tr) : asRequested true tr :=
  (h.requested rfl hn).1

/-- Whatever has happened before, giving the option puts the exchange right for the runs that follow it. -/
theorem C98_option_repairs (b : Bool) (cs : List Cmd) {f f' : Bool} {tr : List (Bool × ExchEv)} {r : Res}
    (h : Exec false (.cmds (.option b :: cs)) f tr f' r) (hn : ∀ k, (k, ExchEv.tunerThrew) ∉ tr) :
    ∃ tr', tr = (false, .option b) :: tr' ∧ asRequested b tr' := by
  cases h with
  | stop h => cases h
  | cons h1 h2 =>
    cases h1
    exact ⟨_, rfl, (h2.requested rfl fun k hm => hn k (by simp [hm])).1⟩

/-- While tuning no halos are exchanged, so that a rank does not wait for others that have made other numbers of runs, unless a
registered function gives the option. -/
theorem C98_tuning {k f f' : Bool} {tr : List (Bool × ExchEv)} {r : Res} (h : Exec k (.cmd .tune) f tr f' r)
    (hn : ∀ b, (true, ExchEv.option b) ∉ tr) : (true, ExchEv.steps true) ∉ tr := by
  cases h with
  | tuneRefused => simp
  | tune h => exact (h.noExchange rfl rfl hn).2
  | tuneThrows h =>
    intro hm
    rcases List.mem_append.1 hm with h' | h'
    · exact (h.noExchange rfl rfl fun b hb => hn b (by simp [hb])).2 h'
    · simp at h'

/-- If a run throws while tuning, and the exception is caught, the exchange stays switched off: the next run computes its steps without
exchanging halos, although it was never requested. -/
theorem C98_tuner_throws : ∃ (tr : List (Bool × ExchEv)) (f' : Bool), Exec false (.cmds [.tune, .run]) true tr f' .ok ∧
    (∀ k b, (k, ExchEv.option b) ∉ tr) ∧ (false, ExchEv.steps false) ∈ tr ∧ ¬ asRequested true tr :=
  ⟨[(false, .tunerThrew), (false, .steps false)], false,
    .cons (tr := [(false, .tunerThrew)]) (.tuneThrows (tr := []) (.loopLast (.runThrows (cs := []) .nil)))
      (.cons (tr := [(false, .steps false)]) (tr2 := []) (.run (cs := []) (cs' := []) (tr := []) (tr2 := []) (r := .ok) (r' := .ok) .nil .nil (by intro h; cases h)) .nil),
    by intro k b; simp, by simp, by simp [asRequested]⟩

/-- A run, tuning in two runs of which the second one gives the option at its end, and another run. -/
theorem HaloFlag.example1 : Exec false (.cmds [.run, .tune, .run]) true
    [(false, .steps true), (true, .steps false), (true, .steps false), (true, .option true), (false, .steps true)] true .ok := by
  have r0 : ∀ k f, Exec k (.cmd .run) f [(k, .steps f)] f .ok := fun k f =>
    .run (cs := []) (cs' := []) (tr := []) (tr2 := []) (r := .ok) .nil .nil (by intro h; cases h)
  refine .cons (tr := [_]) (r0 _ _) (.cons (tr := [_, _, _]) (.tune (f1 := true) (.loopNext (tr := [_]) (tr2 := [_, _]) (r0 _ _) (.loopLast ?_)))
    (.cons (tr := [_]) (tr2 := []) (r0 _ _) .nil))
  exact .run (cs := []) (cs' := [.option true]) (tr := []) (tr2 := [(true, .option true)]) (r := .ok) .nil
    (.cons (tr := [_]) (tr2 := []) .option .nil) (by intro h; cases h)

example : asRequested true
    [(false, .steps true), (true, .steps false), (true, .steps false), (true, .option true), (false, .steps true)] :=
  C98_requested_partial _ HaloFlag.example1 (by intro k; simp)

end Yask
