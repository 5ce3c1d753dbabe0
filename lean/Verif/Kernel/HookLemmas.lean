import Verif.Kernel.HookModel

/-! Helper lemmas: hooks. -/

namespace Yask.Hook
open Spec

variable {user : User} {strideT dirT : Int}

/-- Registered functions are never removed. -/
theorem Exec.grows {n : Nat} {k : Task} {s s' : St} {tr : List (Nat × HookEv)} {r : Res} (h : Exec user strideT dirT n k s tr s' r)
    (w : HookAt) : s.hooks w <+: s'.hooks w := by
  induction h with
  | @register n w' h s =>
    unfold St.register
    simp only
    by_cases hw : w = w'
    · rw [if_pos hw]; exact List.prefix_append _ _
    · rw [if_neg hw]; exact List.prefix_rfl
  | setSize => exact List.prefix_rfl
  | prepHook _ _ ih => exact ih
  | prepThrows _ ih => exact ih
  | prep _ _ ih1 ih2 => exact ih1.trans ih2
  | runHook _ _ ih => exact ih
  | runThrows _ _ ih => exact ih
  | run _ _ _ ih1 ih2 => exact ih1.trans ih2
  | tuneThrows _ => exact List.prefix_rfl
  | tune _ _ ih => exact ih
  | tuneLast _ ih => exact ih
  | tuneNext _ _ ih1 ih2 => exact ih1.trans ih2
  | nil => exact List.prefix_rfl
  | stop _ _ ih => exact ih
  | cons _ _ ih1 ih2 => exact ih1.trans ih2
  | hooksDone => exact List.prefix_rfl
  | hookStop _ _ _ ih => exact ih
  | hookThrows _ _ ih => exact ih
  | hookGrown _ _ _ ih => exact ih
  | hookNext _ _ _ _ ih1 ih2 => exact ih1.trans ih2

/-- Events are not above the depth of the call. -/
theorem Exec.depth {n : Nat} {k : Task} {s s' : St} {tr : List (Nat × HookEv)} {r : Res} (h : Exec user strideT dirT n k s tr s' r) :
    ∀ e ∈ tr, n ≤ e.1 := by
  induction h with
  | register | setSize | tuneThrows _ | nil | hooksDone => intro e he; cases he
  | prepHook _ _ ih => exact ih
  | prepThrows _ ih => exact ih
  | prep _ _ ih1 ih2 | run _ _ _ ih1 ih2 =>
    intro e he
    rcases List.mem_append.1 he with h | h
    · exact ih1 e h
    · rcases List.mem_cons.1 h with h | h
      · rw [h]; exact Nat.le_refl _
      · exact ih2 e h
  | runHook _ _ ih => exact ih
  | runThrows _ _ ih => exact ih
  | tune _ _ ih => exact ih
  | tuneLast _ ih => exact ih
  | tuneNext _ _ ih1 ih2 | cons _ _ ih1 ih2 =>
    intro e he
    rcases List.mem_append.1 he with h | h
    · exact ih1 e h
    · exact ih2 e h
  | stop _ _ ih => exact ih
  | hookStop _ _ _ ih | hookThrows _ _ ih | hookGrown _ _ _ ih =>
    intro e he
    rcases List.mem_cons.1 he with h | h
    · rw [h]; exact Nat.le_refl _
    · exact Nat.le_of_succ_le (ih e h)
  | hookNext _ _ _ _ ih1 ih2 =>
    intro e he
    rcases List.mem_cons.1 he with h | h
    · rw [h]; exact Nat.le_refl _
    · rcases List.mem_append.1 h with h | h
      · exact Nat.le_of_succ_le (ih1 e h)
      · exact ih2 e h

theorem own_append (n : Nat) (a b : List (Nat × HookEv)) : ownEvents n (a ++ b) = ownEvents n a ++ ownEvents n b := by
  unfold ownEvents
  rw [List.filter_append, List.map_append]

theorem own_cons (n : Nat) (e : HookEv) (b : List (Nat × HookEv)) : ownEvents n ((n, e) :: b) = e :: ownEvents n b := by
  unfold ownEvents
  rw [List.filter_cons]
  simp

theorem own_deeper {n : Nat} {tr : List (Nat × HookEv)} (h : ∀ e ∈ tr, n + 1 ≤ e.1) : ownEvents n tr = [] := by
  unfold ownEvents
  rw [List.filter_eq_nil_iff.2, List.map_nil]
  intro e he
  have := h e he
  simp only [decide_eq_true_eq]
  omega

/-- The loop over a list of functions. -/
theorem Exec.own_hooks {n : Nat} {k : Task} {s s' : St} {tr : List (Nat × HookEv)} {r : Res} (h : Exec user strideT dirT n k s tr s' r) :
    ∀ w a hs, k = .hooks w a hs → (r = .ok → ownEvents n tr = hs.map (fun h => .called w h a) ∧ s'.hooks w = s.hooks w) ∧
      ∃ i, i ≤ hs.length ∧ ownEvents n tr = (hs.take i).map (fun h => .called w h a) := by
  induction h with
  | hooksDone =>
    intro w a hs hk
    cases hk
    exact ⟨fun _ => ⟨rfl, rfl⟩, 0, Nat.le_refl _, rfl⟩
  | hookStop _ h1 hr _ =>
    intro w a hs hk
    cases hk
    refine ⟨fun h => absurd h hr, 1, by simp, ?_⟩
    rw [own_cons, own_deeper h1.depth]
    rfl
  | hookThrows _ h1 _ =>
    intro w a hs hk
    cases hk
    refine ⟨(fun h => by cases h), 1, by simp, ?_⟩
    rw [own_cons, own_deeper h1.depth]
    rfl
  | hookGrown _ h1 _ _ =>
    intro w a hs hk
    cases hk
    refine ⟨(fun h => by cases h), 1, by simp, ?_⟩
    rw [own_cons, own_deeper h1.depth]
    rfl
  | hookNext _ h1 hl _ _ ih =>
    intro w a hs hk
    cases hk
    have heq := (h1.grows _).eq_of_length hl.symm
    obtain ⟨i1, i, hi, i2⟩ := ih _ _ _ rfl
    refine ⟨fun h => ⟨?_, ?_⟩, i + 1, by simpa using hi, ?_⟩
    · rw [own_cons, own_append, own_deeper h1.depth, List.nil_append, (i1 h).1]
      rfl
    · rw [(i1 h).2, heq]
    · rw [own_cons, own_append, own_deeper h1.depth, List.nil_append, i2]
      rfl
  | _ => intro w a hs hk; cases hk

/-- Functions that register no functions cause no undefined behaviour. -/
theorem Exec.defined {n : Nat} {k : Task} {s s' : St} {tr : List (Nat × HookEv)} {r : Res} (h : Exec user strideT dirT n k s tr s' r)
    (hu : ∀ h a cs thr, user h a cs thr → ∀ w h', Cmd.register w h' ∉ cs) :
    r ≠ .undefined ∧ ((∀ w h', k ≠ .cmd (.register w h')) → (∀ cs, k = .cmds cs → ∀ w h', Cmd.register w h' ∉ cs) → s'.hooks = s.hooks) := by
  induction h with
  | register => exact ⟨by decide, fun h _ => absurd rfl (h _ _)⟩
  | setSize | nil | hooksDone => exact ⟨by decide, fun _ _ => rfl⟩
  | tuneThrows _ => exact ⟨by decide, fun _ _ => rfl⟩
  | prepHook _ _ ih | runHook _ _ ih =>
    exact ⟨ih.1, fun _ _ => ih.2 (fun _ _ h => by cases h) (fun _ h => by cases h)⟩
  | prepThrows _ ih => exact ⟨by decide, fun _ _ => ih.2 (fun _ _ h => by cases h) (fun _ h => by cases h)⟩
  | runThrows _ _ ih => exact ⟨by decide, fun _ _ => ih.2 (fun _ _ h => by cases h) (fun _ h => by cases h)⟩
  | prep _ _ ih1 ih2 | run _ _ _ ih1 ih2 =>
    exact ⟨ih2.1, fun _ _ => (ih2.2 (fun _ _ h => by cases h) (fun _ h => by cases h)).trans
      (ih1.2 (fun _ _ h => by cases h) (fun _ h => by cases h))⟩
  | tune _ _ ih => exact ⟨ih.1, fun _ _ => ih.2 (fun _ _ h => by cases h) (fun _ h => by cases h)⟩
  | tuneLast _ ih => exact ⟨ih.1, fun _ _ => ih.2 (fun _ _ h => by cases h) (fun _ h => by cases h)⟩
  | tuneNext _ _ ih1 ih2 =>
    exact ⟨ih2.1, fun _ _ => (ih2.2 (fun _ _ h => by cases h) (fun _ h => by cases h)).trans
      (ih1.2 (fun _ _ h => by cases h) (fun _ h => by cases h))⟩
  | stop _ _ ih =>
    refine ⟨ih.1, fun _ hc => ih.2 (fun w h' h => ?_) (fun _ h => by cases h)⟩
    cases h
    exact hc _ rfl w h' (List.mem_cons_self)
  | cons _ _ ih1 ih2 =>
    refine ⟨ih2.1, fun _ hc => (ih2.2 (fun _ _ h => by cases h) (fun cs h w h' hm => ?_)).trans (ih1.2 (fun w h' h => ?_) (fun _ h => by cases h))⟩
    · cases h
      exact hc _ rfl w h' (List.mem_cons_of_mem _ hm)
    · cases h
      exact hc _ rfl w h' (List.mem_cons_self)
  | hookStop hu1 _ _ ih =>
    exact ⟨ih.1, fun _ _ => ih.2 (fun _ _ h => by cases h) (fun cs h => by cases h; exact hu _ _ _ _ hu1)⟩
  | hookThrows hu1 _ ih =>
    exact ⟨by decide, fun _ _ => ih.2 (fun _ _ h => by cases h) (fun cs h => by cases h; exact hu _ _ _ _ hu1)⟩
  | hookGrown hu1 _ hl ih =>
    have := ih.2 (fun _ _ h => by cases h) (fun cs h => by cases h; exact hu _ _ _ _ hu1)
    rw [this] at hl
    exact absurd rfl hl
  | hookNext hu1 _ _ _ ih1 ih2 =>
    exact ⟨ih2.1, fun _ _ => (ih2.2 (fun _ _ h => by cases h) (fun _ h => by cases h)).trans
      (ih1.2 (fun _ _ h => by cases h) (fun cs h => by cases h; exact hu _ _ _ _ hu1))⟩

/-- Each call of a function is one that the user's function can answer. -/
theorem Exec.answered {user : User} {strideT dirT : Int} {n : Nat} {k : Task} {s s' : St} {tr : List (Nat × HookEv)} {r : Res}
    (h : Exec user strideT dirT n k s tr s' r) :
    ∀ m w f a, (m, HookEv.called w f a) ∈ tr → ∃ cs thr, user f a cs thr := by
  induction h with
  | register => simp
  | setSize => simp
  | prepHook _ _ ih => exact ih
  | prepThrows _ ih => exact ih
  | prep _ _ ih1 ih2 =>
    intro m w f a hm
    simp only [List.mem_append, List.mem_cons, Prod.mk.injEq, reduceCtorEq, and_false, false_or] at hm
    exact hm.elim (ih1 m w f a) (ih2 m w f a)
  | runHook _ _ ih => exact ih
  | runThrows _ _ ih => exact ih
  | run _ _ _ ih1 ih2 =>
    intro m w f a hm
    simp only [List.mem_append, List.mem_cons, Prod.mk.injEq, reduceCtorEq, and_false, false_or] at hm
    exact hm.elim (ih1 m w f a) (ih2 m w f a)
  | tuneThrows => simp
  | tune _ _ ih => exact ih
  | tuneLast _ ih => exact ih
  | tuneNext _ _ ih1 ih2 =>
    intro m w f a hm
    exact (List.mem_append.1 hm).elim (ih1 m w f a) (ih2 m w f a)
  | nil => simp
  | stop _ _ ih => exact ih
  | cons _ _ ih1 ih2 =>
    intro m w f a hm
    exact (List.mem_append.1 hm).elim (ih1 m w f a) (ih2 m w f a)
  | hooksDone => simp
  | hookStop hu _ _ ih =>
    intro m w f a hm
    rcases List.mem_cons.1 hm with e | hm
    · cases e; exact ⟨_, _, hu⟩
    · exact ih m w f a hm
  | hookThrows hu _ ih =>
    intro m w f a hm
    rcases List.mem_cons.1 hm with e | hm
    · cases e; exact ⟨_, _, hu⟩
    · exact ih m w f a hm
  | hookGrown hu _ _ ih =>
    intro m w f a hm
    rcases List.mem_cons.1 hm with e | hm
    · cases e; exact ⟨_, _, hu⟩
    · exact ih m w f a hm
  | hookNext hu _ _ _ ih1 ih2 =>
    intro m w f a hm
    rcases List.mem_cons.1 hm with e | hm
    · cases e; exact ⟨_, _, hu⟩
    · exact (List.mem_append.1 hm).elim (ih1 m w f a) (ih2 m w f a)

end Yask.Hook
