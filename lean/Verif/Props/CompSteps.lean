import Mathlib.Tactic.Linarith
import Mathlib.Tactic.SplitIfs
import Verif.Compiler.HaloModel

/-!
# Property C49: illegal time dependencies are rejected
-/

namespace Yask
open Comp

/-- Is the step offset `k` not beyond the one being written, if the steps go in direction `dir` (1 or -1)? -/
def NotBeyond (dir k : Int) : Prop := k * dir ≤ 1

/-- What the equations should satisfy: each non-scratch equation writes the next step in direction `dir`, no equation reads
beyond it, and every step argument is an offset. -/
def LegalSteps (dir : Int) (es : List StepEq) : Prop :=
  ∀ e ∈ es, (if e.scr then e.lhs = .absent else e.lhs = .offset dir) ∧ StepArg.other ∉ e.rhs ∧
    ∀ k, StepArg.offset k ∈ e.rhs → NotBeyond dir k

/-- One equation: what acceptance means. -/
theorem stepCheck_ok {dir d : Int} {e : StepEq} (h : stepCheck dir e = .ok d) :
    StepArg.other ∉ e.rhs ∧ (e.scr = true → e.lhs = .absent ∧ d = dir) ∧
    (e.scr = false → e.lhs = .offset d ∧ (d = 1 ∨ d = -1) ∧ (dir = 0 ∨ dir = d) ∧
      (d = 1 → ∀ k, StepArg.offset k ∈ e.rhs → k ≤ 1)) := by
  obtain ⟨scr, lhs, rhs⟩ := e
  unfold stepCheck at h
  have hoth : ∀ (d1 : Int), (if (rhs.any fun a => decide (a = .other)) = true then (Outcome.throws : Outcome Int) else .ok d1) = .ok d →
      StepArg.other ∉ rhs ∧ d1 = d := by
    intro d1 h
    by_cases hc : (rhs.any fun a => decide (a = .other)) = true
    · rw [if_pos hc] at h; cases h
    · rw [if_neg hc] at h
      refine ⟨fun hm => hc (List.any_eq_true.2 ⟨_, hm, by simp⟩), ?_⟩
      cases h; rfl
  cases scr with
  | true =>
    simp only [if_true] at h ⊢
    cases lhs with
    | absent =>
      simp only [StepArg.present, Bool.false_eq_true, if_false, Outcome.bind_ok] at h
      obtain ⟨h1, h2⟩ := hoth _ h
      exact ⟨h1, fun _ => ⟨by trivial, h2.symm⟩, fun h => by simp at h⟩
    | offset k => simp [StepArg.present] at h
    | other => simp [StepArg.present] at h
  | false =>
    simp only [Bool.false_eq_true, if_false] at h ⊢
    cases lhs with
    | absent => simp at h
    | other => simp at h
    | offset lofs =>
      simp only at h
      by_cases h1 : lofs ≠ 1 ∧ lofs ≠ -1
      · rw [if_pos h1] at h; simp at h
      rw [if_neg h1] at h
      generalize hd1 : (if dir = 0 ∧ lofs ≠ 0 then (if lofs > 0 then (1 : Int) else -1) else dir) = d1 at h
      by_cases h2 : lofs ≠ d1
      · rw [if_pos h2] at h; simp at h
      rw [if_neg h2] at h
      push Not at h2
      by_cases h3 : rhs.any (badRead d1 lofs) = true
      · rw [if_pos h3] at h; simp at h
      rw [if_neg h3, Outcome.bind_ok] at h
      obtain ⟨h4, h5⟩ := hoth _ h
      subst h5
      refine ⟨h4, fun h => absurd h (by trivial), fun _ => ⟨by rw [h2], by omega, ?_, ?_⟩⟩
      · split_ifs at hd1 <;> omega
      · intro hd k hk
        by_contra hgt
        refine h3 (List.any_eq_true.2 ⟨_, hk, ?_⟩)
        simp only [badRead, hd, Bool.or_eq_true, Bool.and_eq_true, decide_eq_true_eq]
        left; exact ⟨by trivial, by omega⟩

/-- All equations. -/
theorem stepChecks_ok (es : List StepEq) : ∀ {dir d : Int}, stepChecks dir es = .ok d →
    ∀ e ∈ es, StepArg.other ∉ e.rhs ∧ (e.scr = true → e.lhs = .absent) ∧
      (e.scr = false → e.lhs = .offset d ∧ (d = 1 ∨ d = -1) ∧ (d = 1 → ∀ k, StepArg.offset k ∈ e.rhs → k ≤ 1)) := by
  have keep : ∀ (es : List StepEq) (dir d : Int), stepChecks dir es = .ok d → dir ≠ 0 → d = dir := by
    intro es
    induction es with
    | nil => intro dir d h _; unfold stepChecks at h; simp only [List.foldlM_nil, Outcome.pure_eq] at h; cases h; rfl
    | cons e es ih =>
      intro dir d h hd
      unfold stepChecks at h
      rw [List.foldlM_cons] at h
      cases hc : stepCheck dir e with
      | throws => rw [hc] at h; simp at h
      | undefined => rw [hc] at h; simp at h
      | ok d1 =>
        rw [hc, Outcome.bind_ok] at h
        have h1 : d1 = dir := by
          obtain ⟨_, h2, h3⟩ := stepCheck_ok hc
          cases hs : e.scr with
          | true => exact (h2 hs).2
          | false => rcases (h3 hs).2.2.1 with h | h
                     · exact absurd h hd
                     · exact h.symm
        rw [ih d1 d h (by rw [h1]; exact hd), h1]
  induction es with
  | nil => intro _ _ _ e he; cases he
  | cons a es ih =>
    intro dir d h
    have h' := h
    unfold stepChecks at h'
    rw [List.foldlM_cons] at h'
    cases hc : stepCheck dir a with
    | throws => rw [hc] at h'; simp at h'
    | undefined => rw [hc] at h'; simp at h'
    | ok d1 =>
      rw [hc, Outcome.bind_ok] at h'
      intro e he
      rcases List.mem_cons.1 he with rfl | he
      · obtain ⟨h1, h2, h3⟩ := stepCheck_ok hc
        refine ⟨h1, fun h => (h2 h).1, fun hs => ?_⟩
        obtain ⟨g1, g2, g3, g4⟩ := h3 hs
        have : d = d1 := keep es d1 d h' (by omega)
        rw [this]
        exact ⟨g1, g2, g4⟩
      · exact ih h' e he

/-- C49, forward stepping: in an accepted solution every non-scratch equation writes the next step and reads nothing
beyond it. Missing: reverse stepping and the reads of scratch equations, for which the claim is false (below). -/
theorem C49_forward_partial (dir : Int) (es : List StepEq) (h : stepChecks dir es = .ok 1) : ∀ e ∈ es, e.scr = false →
    e.lhs = .offset 1 ∧ ∀ k, StepArg.offset k ∈ e.rhs → NotBeyond 1 k := by
  intro e he hs
  obtain ⟨_, _, h3⟩ := stepChecks_ok es h e he
  refine ⟨(h3 hs).1, fun k hk => ?_⟩
  have := (h3 hs).2.2 rfl k hk
  unfold NotBeyond; omega

/-- C49: a forward solution with such a read is rejected. -/
theorem C49_rejects_partial (dir : Int) (es : List StepEq) (e : StepEq) (he : e ∈ es) (hs : e.scr = false) (k : Int)
    (hk : StepArg.offset k ∈ e.rhs) (hbad : ¬ NotBeyond 1 k) (hl : e.lhs = .offset 1) : ∀ d, stepChecks dir es ≠ .ok d := by
  intro d h
  obtain ⟨_, _, h3⟩ := stepChecks_ok es h e he
  obtain ⟨g1, g2, g3⟩ := h3 hs
  rw [hl] at g1
  have hd : d = 1 := by injection g1 with g; exact g.symm
  have := g3 hd k hk
  unfold NotBeyond at hbad; omega

/-- C49, both directions: all equations write the same step, one ahead or one back, and all step arguments are
simple offsets. -/
theorem C49_direction_partial (dir d : Int) (es : List StepEq) (h : stepChecks dir es = .ok d) : ∀ e ∈ es,
    StepArg.other ∉ e.rhs ∧ (e.scr = false → e.lhs = .offset d ∧ (d = 1 ∨ d = -1)) ∧ (e.scr = true → e.lhs = .absent) := by
  intro e he
  obtain ⟨h1, h2, h3⟩ := stepChecks_ok es h e he
  exact ⟨h1, fun hs => ⟨(h3 hs).1, (h3 hs).2.1⟩, h2⟩

/-- C49: solutions with legal step arguments pass, in either direction. -/
theorem C49_accepts (dir : Int) (hdir : dir = 1 ∨ dir = -1) (es : List StepEq) (h : LegalSteps dir es) :
    ∃ d, stepChecks 0 es = .ok d ∧ (d = dir ∨ ∀ e ∈ es, e.scr = true) := by
  have one : ∀ (e : StepEq) (d0 : Int), d0 = 0 ∨ d0 = dir →
      ((if e.scr then e.lhs = .absent else e.lhs = .offset dir) ∧ StepArg.other ∉ e.rhs ∧
        ∀ k, StepArg.offset k ∈ e.rhs → NotBeyond dir k) →
      stepCheck d0 e = .ok (if e.scr then d0 else dir) := by
    rintro ⟨scr, lhs, rhs⟩ d0 hd0 ⟨h1, h2, h3⟩
    simp only at h1 h2 h3
    have hoth : ¬ (rhs.any fun a => decide (a = .other)) = true := by
      intro hc
      obtain ⟨a, ha, hd⟩ := List.any_eq_true.1 hc
      simp only [decide_eq_true_eq] at hd
      exact h2 (hd ▸ ha)
    cases scr with
    | true =>
      simp only [if_true] at h1
      subst h1
      simp only [stepCheck, if_true, StepArg.present, Bool.false_eq_true, if_false, Outcome.bind_ok]
      rw [if_neg hoth]
    | false =>
      simp only [Bool.false_eq_true, if_false] at h1
      subst h1
      have hd1 : (if d0 = 0 ∧ dir ≠ 0 then (if dir > 0 then (1 : Int) else -1) else d0) = dir := by
        split_ifs <;> omega
      have hbad : ¬ (rhs.any (badRead dir dir) = true) := by
        intro hc
        obtain ⟨a, ha, hb⟩ := List.any_eq_true.1 hc
        cases a with
        | absent => simp [badRead] at hb
        | other => exact h2 ha
        | offset k =>
          have := h3 k ha
          unfold NotBeyond at this
          simp only [badRead, Bool.or_eq_true, Bool.and_eq_true, decide_eq_true_eq] at hb
          rcases hdir with rfl | rfl <;> omega
      simp only [stepCheck, Bool.false_eq_true, if_false, hd1]
      rw [if_neg (by omega), if_neg (by simp), if_neg hbad, Outcome.bind_ok, if_neg hoth]
  have main : ∀ (es : List StepEq), LegalSteps dir es → ∀ d0, d0 = 0 ∨ d0 = dir →
      ∃ d, stepChecks d0 es = .ok d ∧ (d0 = dir → d = dir) ∧ (d = dir ∨ ∀ e ∈ es, e.scr = true) := by
    intro es
    induction es with
    | nil => intro _ d0 _; exact ⟨d0, rfl, fun h => h, .inr fun e he => by cases he⟩
    | cons a es ih =>
      intro hl d0 hd0
      have ha := one a d0 hd0 (hl a List.mem_cons_self)
      obtain ⟨d, h1, h2, h3⟩ := ih (fun e he => hl e (List.mem_cons_of_mem _ he)) (if a.scr then d0 else dir) (by
        cases a.scr
        · exact .inr rfl
        · exact hd0)
      refine ⟨d, ?_, ?_, ?_⟩
      · unfold stepChecks at h1 ⊢
        rw [List.foldlM_cons, ha, Outcome.bind_ok]
        exact h1
      · intro hd; apply h2; split_ifs
        · exact hd
        · rfl
      · cases hs : a.scr with
        | false => left; apply h2; rw [hs]; rfl
        | true =>
          rcases h3 with h3 | h3
          · exact .inl h3
          · right
            intro e he
            rcases List.mem_cons.1 he with rfl | he
            · exact hs
            · exact h3 e he
  obtain ⟨d, h1, _, h3⟩ := main es h 0 (.inl rfl)
  exact ⟨d, h1, h3⟩

/-- C49 does not hold for reverse stepping: the check compares the direction with -11 instead of -1, so a solution that
reads any later (in its direction: not yet computed) step is accepted. -/
theorem C49_reverse_wrong : ∀ k : Int, stepChecks 0 [⟨false, .offset (-1), [.offset k]⟩] = .ok (-1) := by
  intro k
  simp [stepChecks, stepCheck, badRead]

example : ¬ NotBeyond (-1) (-3) := by unfold NotBeyond; decide

/-- C49 does not hold for scratch equations: a scratch var may be computed from a step that has not been computed yet. -/
theorem C49_scratch_wrong : ∀ k : Int,
    stepChecks 0 [⟨false, .offset 1, [.absent, .offset 0]⟩, ⟨true, .absent, [.offset k]⟩] = .ok 1 := by
  intro k
  simp [stepChecks, stepCheck, badRead, List.foldlM, StepArg.present]

/-! ### Cases that meet the hypotheses -/

/-- `u(t+1) = v(t+1) + u(t-2) + a`, `a = u(t)`, `v(t+1) = u(t)`. -/
def exSteps : List StepEq :=
  [⟨false, .offset 1, [.offset 1, .offset (-2), .absent]⟩, ⟨true, .absent, [.offset 0]⟩, ⟨false, .offset 1, [.offset 0]⟩]

example : stepChecks 0 exSteps = .ok 1 := by decide
example : LegalSteps 1 exSteps := by
  unfold LegalSteps exSteps NotBeyond
  intro e he
  simp only [List.mem_cons, List.not_mem_nil, or_false] at he
  rcases he with rfl | rfl | rfl <;> refine ⟨by decide, by decide, ?_⟩ <;> intro k hk <;> simp at hk <;> omega
/-- The bad example in the comments of the code: `u(t+1) EQUALS u(t+3)`. -/
example : stepChecks 0 [⟨false, .offset 1, [.offset 3]⟩] = .throws := by decide
/-- Two directions. -/
example : stepChecks 0 [⟨false, .offset 1, []⟩, ⟨false, .offset (-1), []⟩] = .throws := by decide

end Yask
