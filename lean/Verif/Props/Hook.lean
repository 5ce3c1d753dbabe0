import Verif.Kernel.HookLemmas

/-!
# C91: registered functions are called once each, in the order in which they were registered
-/

namespace Yask
open Hook Spec

variable {user : User} {strideT dirT : Int}

/-- What a call of `prepare_solution()` does itself, if functions `bs` are registered for the beginning and `as` for the end. -/
def Spec.prepareEvents (bs as : List Nat) : List HookEv :=
  bs.map (fun h => .called .beforePrepare h none) ++ .setup :: as.map (fun h => .called .afterPrepare h none)

/-- What a call of `run_solution(first, last)` does itself. -/
def Spec.runEvents (first last : Int) (bs as : List Nat) : List HookEv :=
  bs.map (fun h => .called .beforeRun h (some (first, last))) ++ .steps first last :: as.map (fun h => .called .afterRun h (some (first, last)))

/-- Functions are kept in the order of the calls that register them. -/
theorem C91_registered (n : Nat) (regs : List (HookAt × Nat)) {s s' : St} {tr : List (Nat × HookEv)} {r : Res}
    (h : Exec user strideT dirT n (.cmds (regs.map fun e => .register e.1 e.2)) s tr s' r) (w : HookAt) :
    r = .ok ∧ tr = [] ∧ s'.hooks w = s.hooks w ++ (regs.filter fun e => decide (e.1 = w)).map Prod.snd := by
  induction regs generalizing s tr with
  | nil =>
    cases h
    exact ⟨rfl, rfl, (List.append_nil _).symm⟩
  | cons e regs ih =>
    rw [List.map_cons] at h
    cases h with
    | stop h1 hr =>
      cases h1
      exact absurd rfl hr
    | cons h1 h2 =>
      cases h1
      obtain ⟨i1, i2, i3⟩ := ih h2
      refine ⟨i1, by rw [i2]; rfl, ?_⟩
      rw [i3]
      unfold St.register
      simp only
      by_cases hw : w = e.1
      · rw [if_pos hw, List.filter_cons, if_pos (by simpa using hw.symm), List.map_cons, List.append_assoc]
        rfl
      · rw [if_neg hw, List.filter_cons, if_neg (by simpa using fun hh => hw hh.symm)]

/-- Registered functions stay registered, in the same order, whatever is called and however it ends. -/
theorem C91_kept {n : Nat} {k : Task} {s s' : St} {tr : List (Nat × HookEv)} {r : Res} (h : Exec user strideT dirT n k s tr s' r)
    (w : HookAt) : s.hooks w <+: s'.hooks w := h.grows w

/-- What a function does in a call, at any depth, is what the user has written for the steps with which it is called. -/
theorem C91_answered {n : Nat} {k : Task} {s s' : St} {tr : List (Nat × HookEv)} {r : Res} (h : Exec user strideT dirT n k s tr s' r)
    (m : Nat) (w : HookAt) (f : Nat) (a : Option (Int × Int)) (hc : (m, HookEv.called w f a) ∈ tr) : ∃ cs thr, user f a cs thr :=
  h.answered m w f a hc

/-- A call of `prepare_solution()` that returns: each function that was registered for the beginning is called once, in order, then the
solution is set up, then each function that is registered for the end (also by a function called at the beginning) is called once, in
order. What the functions do makes no difference, even if they call `prepare_solution()` or `run_solution()`. -/
theorem C91_prepare {n : Nat} {s s' : St} {tr : List (Nat × HookEv)} (h : Exec user strideT dirT n (.cmd .prepare) s tr s' .ok) :
    ownEvents n tr = prepareEvents (s.hooks .beforePrepare) (s'.hooks .afterPrepare) := by
  cases h with
  | prepHook _ hr => exact absurd rfl hr
  | prep h1 h2 =>
    have e1 := (h1.own_hooks _ _ _ rfl).1 rfl
    have e2 := (h2.own_hooks _ _ _ rfl).1 rfl
    rw [own_append, own_cons, e1.1, e2.1, e2.2]
    rfl

/-- The same for `run_solution()`: the functions get the steps of this call. -/
theorem C91_run {n : Nat} {a b : Int} {s s' : St} {tr : List (Nat × HookEv)} (h : Exec user strideT dirT n (.cmd (.run a b)) s tr s' .ok) :
    ownEvents n tr = runEvents a b (s.hooks .beforeRun) (s'.hooks .afterRun) := by
  cases h with
  | runHook _ hr => exact absurd rfl hr
  | run h1 _ h2 =>
    have e1 := (h1.own_hooks _ _ _ rfl).1 rfl
    have e2 := (h2.own_hooks _ _ _ rfl).1 rfl
    rw [own_append, own_cons, e1.1, e2.1, e2.2]
    rfl

/-- A call that does not return normally, e.g., because a function throws, does an initial part of that. -/
theorem C91_prepare_part {n : Nat} {s s' : St} {tr : List (Nat × HookEv)} {r : Res} (h : Exec user strideT dirT n (.cmd .prepare) s tr s' r) :
    ownEvents n tr <+: prepareEvents (s.hooks .beforePrepare) (s'.hooks .afterPrepare) := by
  cases h with
  | prepHook h1 hr =>
    obtain ⟨-, i, -, e⟩ := h1.own_hooks _ _ _ rfl
    rw [e]
    exact ((List.take_prefix i _).map _).trans (List.prefix_append _ _)
  | prepThrows h1 =>
    rw [((h1.own_hooks _ _ _ rfl).1 rfl).1]
    exact List.prefix_append _ _
  | prep h1 h2 =>
    obtain ⟨-, i, -, e⟩ := h2.own_hooks _ _ _ rfl
    rw [own_append, own_cons, ((h1.own_hooks _ _ _ rfl).1 rfl).1, e]
    refine (List.prefix_append_right_inj _).2 (List.cons_prefix_cons.2 ⟨rfl, List.IsPrefix.map _ ?_⟩)
    exact (List.take_prefix i _).trans (h2.grows .afterPrepare)

theorem C91_run_part {n : Nat} {a b : Int} {s s' : St} {tr : List (Nat × HookEv)} {r : Res}
    (h : Exec user strideT dirT n (.cmd (.run a b)) s tr s' r) :
    ownEvents n tr <+: runEvents a b (s.hooks .beforeRun) (s'.hooks .afterRun) := by
  cases h with
  | runHook h1 hr =>
    obtain ⟨-, i, -, e⟩ := h1.own_hooks _ _ _ rfl
    rw [e]
    exact ((List.take_prefix i _).map _).trans (List.prefix_append _ _)
  | runThrows h1 =>
    rw [((h1.own_hooks _ _ _ rfl).1 rfl).1]
    exact List.prefix_append _ _
  | run h1 _ h2 =>
    obtain ⟨-, i, -, e⟩ := h2.own_hooks _ _ _ rfl
    rw [own_append, own_cons, ((h1.own_hooks _ _ _ rfl).1 rfl).1, e]
    refine (List.prefix_append_right_inj _).2 (List.cons_prefix_cons.2 ⟨rfl, List.IsPrefix.map _ ?_⟩)
    exact (List.take_prefix i _).trans (h2.grows .afterRun)

/-- Behaviour is defined if no registered function registers functions. -/
theorem C91_defined_partial {n : Nat} {k : Task} {s s' : St} {tr : List (Nat × HookEv)} {r : Res}
    (h : Exec user strideT dirT n k s tr s' r) (hu : ∀ h a cs thr, user h a cs thr → ∀ w h', Cmd.register w h' ∉ cs) : r ≠ .undefined :=
  (h.defined hu).1

/-- A function called before a run that registers another such function: each execution of a run is undefined, because the list is
changed while it is visited. -/
theorem C91_register_undefined (a b : Int) (user : User) (hu : ∀ st cs thr, user 0 st cs thr → cs = [.register .beforeRun 1] ∧ thr = false)
    {n : Nat} {tr : List (Nat × HookEv)} {s' : St} {r : Res}
    (h : Exec user strideT dirT n (.cmd (.run a b)) ⟨fun w => if w = .beforeRun then [0] else [], true⟩ tr s' r) : r = .undefined := by
  have key : ∀ {tr s' r}, Exec user strideT dirT n (.hooks .beforeRun (some (a, b)) [0])
      ⟨fun w => if w = .beforeRun then [0] else [], true⟩ tr s' r → r = .undefined := by
    intro tr s' r h
    have body : ∀ {n cs thr tr s' r} {st : Option (Int × Int)}, user 0 st cs thr →
        Exec user strideT dirT n (.cmds cs) ⟨fun w => if w = .beforeRun then [0] else [], true⟩ tr s' r →
        r = .ok ∧ s'.hooks .beforeRun = [0, 1] ∧ thr = false := by
      intro n cs thr tr s' r st h1 h2
      obtain ⟨rfl, ht⟩ := hu _ _ _ h1
      obtain ⟨e1, -, e3⟩ := C91_registered n [(.beforeRun, 1)] h2 .beforeRun
      exact ⟨e1, e3, ht⟩
    cases h with
    | hookStop h1 h2 hr => exact absurd (body h1 h2).1 hr
    | hookThrows h1 h2 => exact absurd (body h1 h2).2.2 (by decide)
    | hookGrown _ _ _ => rfl
    | hookNext h1 h2 hl _ =>
      rw [(body h1 h2).2.1] at hl
      exact absurd hl (by decide)
  cases h with
  | runHook h1 _ => exact key h1
  | runThrows h1 _ => cases key h1
  | run h1 _ _ => cases key h1

namespace HookExample

/-- Function 0 does nothing; function 1 registers function 0 to be called after runs; function 2 calls `run_solution(5, 5)`; function 3
throws. -/
inductive fns : User
  | zero {st} : fns 0 st [] false
  | one {st} : fns 1 st [.register .afterRun 0] false
  | two {st} : fns 2 st [.run 5 5] false
  | three {st} : fns 3 st [] true

/-- Function 1 is called before a run. -/
def s1 : St := ⟨fun w => if w = .beforeRun then [1, 0] else [], true⟩

/-- A case for `C91_run`: the function that is registered before the run is called after it. -/
theorem run1 : Exec fns 1 1 0 (.cmd (.run 3 4)) s1 [(0, .called .beforeRun 1 (some (3, 4))), (0, .called .beforeRun 0 (some (3, 4))),
    (0, .steps 3 4), (0, .called .afterRun 0 (some (3, 4)))] (s1.register .afterRun 0) .ok :=
  .run (tr := [(0, .called .beforeRun 1 (some (3, 4))), (0, .called .beforeRun 0 (some (3, 4)))]) (s1 := s1.register .afterRun 0)
    (.hookNext (tr := []) (tr2 := [(0, .called .beforeRun 0 (some (3, 4)))]) fns.one (.cons (tr := []) .register .nil) rfl
      (.hookNext (tr := []) (tr2 := []) fns.zero .nil rfl .hooksDone))
    rfl (.hookNext (tr := []) (tr2 := []) fns.zero .nil rfl .hooksDone)

example : ownEvents 0 [(0, .called .beforeRun 1 (some (3, 4))), (0, .called .beforeRun 0 (some (3, 4))), (0, .steps 3 4),
    (0, .called .afterRun 0 (some (3, 4)))] = runEvents 3 4 [1, 0] [0] := C91_run run1

/-- Function 2 is called after the preparation and runs a step; the events of that run are deeper. -/
def s2 : St := ⟨fun w => if w = .afterPrepare then [2] else if w = .afterRun then [0] else [], false⟩

/-- A run with one function at its end. -/
theorem runOnce (n : Nat) (a b : Int) (s : St) (hp : s.prepared = true) (h1 : s.hooks .beforeRun = []) (h2 : s.hooks .afterRun = [0]) :
    Exec fns 1 1 n (.cmd (.run a b)) s [(n, .steps a b), (n, .called .afterRun 0 (some (a, b)))] s .ok :=
  .run (tr := []) (by rw [h1]; exact .hooksDone) hp (by rw [h2]; exact .hookNext (tr := []) (tr2 := []) fns.zero .nil rfl .hooksDone)

theorem prep2 : Exec fns 1 1 0 (.cmd .prepare) s2 [(0, .setup), (0, .called .afterPrepare 2 none), (1, .steps 5 5),
    (1, .called .afterRun 0 (some (5, 5)))] { s2 with prepared := true } .ok :=
  .prep (tr := []) .hooksDone (.hookNext (tr := [(1, .steps 5 5), (1, .called .afterRun 0 (some (5, 5)))]) (tr2 := []) fns.two
    (.cons (tr := [(1, .steps 5 5), (1, .called .afterRun 0 (some (5, 5)))]) (tr2 := []) (runOnce 1 5 5 _ rfl rfl rfl) .nil) rfl .hooksDone)

/-- A run with one function at its beginning. -/
theorem runFirst (d n : Nat) (a b : Int) (s : St) (hp : s.prepared = true) (h1 : s.hooks .beforeRun = [0]) (h2 : s.hooks .afterRun = []) :
    Exec fns d 1 n (.cmd (.run a b)) s [(n, .called .beforeRun 0 (some (a, b))), (n, .steps a b)] s .ok :=
  .run (tr := [(n, .called .beforeRun 0 (some (a, b)))])
    (by rw [h1]; exact .hookNext (tr := []) (tr2 := []) fns.zero .nil rfl .hooksDone) hp (by rw [h2]; exact .hooksDone)

example : ownEvents 0 [(0, .setup), (0, .called .afterPrepare 2 none), (1, .steps 5 5), (1, .called .afterRun 0 (some (5, 5)))]
    = prepareEvents [] [2] := C91_prepare prep2

end HookExample

/-- Functions registered for runs are also called by the auto-tuner, with steps that the user has passed to no call of `run_solution()`:
the user's program registers a function, prepares the solution and calls `run_auto_tuner_now()`. -/
theorem C91_tuner_calls : ∃ (tr : List (Nat × HookEv)) (s' : St),
    Exec HookExample.fns 2 1 0 (.cmds [.register .beforeRun 0, .prepare, .tune]) St.init tr s' .ok ∧
      ownEvents 0 tr = [.setup, .called .beforeRun 0 (some (0, 1)), .steps 0 1, .called .beforeRun 0 (some (2, 3)), .steps 2 3] :=
  ⟨[(0, .setup), (0, .called .beforeRun 0 (some (0, 1))), (0, .steps 0 1), (0, .called .beforeRun 0 (some (2, 3))), (0, .steps 2 3)],
    { St.init.register .beforeRun 0 with prepared := true },
    .cons (tr := []) .register (.cons (tr := [(0, .setup)]) (.prep (tr := []) (tr2 := []) .hooksDone .hooksDone)
      (.cons (tr := [(0, .called .beforeRun 0 (some (0, 1))), (0, .steps 0 1), (0, .called .beforeRun 0 (some (2, 3))), (0, .steps 2 3)]) (tr2 := [])
        (.tune rfl (.tuneNext (tr := [(0, .called .beforeRun 0 (some (0, 1))), (0, .steps 0 1)])
          (tr2 := [(0, .called .beforeRun 0 (some (2, 3))), (0, .steps 2 3)])
          (HookExample.runFirst 2 0 0 1 _ rfl rfl rfl) (.tuneLast (HookExample.runFirst 2 0 2 3 _ rfl rfl rfl)))) .nil)), by decide +kernel⟩

/-- A run that is refused because the solution is not prepared has called the functions for the beginning of a run, and does not call
those for its end. -/
theorem C91_refused_run_calls : ∃ (tr : List (Nat × HookEv)) (s' : St),
    Exec HookExample.fns 1 1 0 (.cmds [.register .beforeRun 0, .register .afterRun 0, .run 3 4]) St.init tr s' .throws ∧
      ownEvents 0 tr = [.called .beforeRun 0 (some (3, 4))] :=
  ⟨[(0, .called .beforeRun 0 (some (3, 4)))], _,
    .cons (tr := []) .register (.cons (tr := []) .register (.stop (.runThrows
      (.hookNext (tr := []) (tr2 := []) HookExample.fns.zero .nil rfl .hooksDone) rfl) (by decide))), by decide +kernel⟩

/-- The hypothesis of `C91_register_undefined` is met, and there is such an execution. -/
example : ∃ (user : User) (tr : List (Nat × HookEv)) (s' : St),
    (∀ st cs thr, user 0 st cs thr → cs = [.register .beforeRun 1] ∧ thr = false) ∧
    Exec user 1 1 0 (.cmd (.run 3 4)) ⟨fun w => if w = .beforeRun then [0] else [], true⟩ tr s' .undefined :=
  ⟨fun _ _ cs thr => cs = [.register .beforeRun 1] ∧ thr = false, _, _, fun _ _ _ h => h,
    .runHook (.hookGrown ⟨rfl, rfl⟩ (.cons .register .nil) (by decide)) (by decide)⟩

end Yask
