import Verif.Kernel.HaloFlagModel
import Mathlib.Data.List.Basic

/-!
# Lemmas about switching the exchange of halos
-/

namespace Yask
open HaloFlag Spec

/-- The last option outside of the tuner. -/
def HaloFlag.lastOption : Bool → List (Bool × ExchEv) → Bool
  | cur, [] => cur
  | _, (false, .option b) :: es => lastOption b es
  | cur, _ :: es => lastOption cur es

theorem HaloFlag.asRequested_append (a b : List (Bool × ExchEv)) (cur : Bool) :
    asRequested cur (a ++ b) ↔ asRequested cur a ∧ asRequested (lastOption cur a) b := by
  induction a generalizing cur with
  | nil => simp [asRequested, lastOption]
  | cons e es ih =>
    obtain ⟨k, e⟩ := e
    cases k <;> cases e <;> simp [asRequested, lastOption, ih, and_assoc]

theorem HaloFlag.lastOption_append (a b : List (Bool × ExchEv)) (cur : Bool) :
    lastOption cur (a ++ b) = lastOption (lastOption cur a) b := by
  induction a generalizing cur with
  | nil => rfl
  | cons e es ih =>
    obtain ⟨k, e⟩ := e
    cases k <;> cases e <;> simp [lastOption, ih]

theorem HaloFlag.tuner_events {tr : List (Bool × ExchEv)} (h : ∀ e ∈ tr, e.1 = true) (cur : Bool) :
    asRequested cur tr ∧ lastOption cur tr = cur := by
  induction tr with
  | nil => exact ⟨trivial, rfl⟩
  | cons e es ih =>
    obtain ⟨k, e⟩ := e
    have : k = true := h (k, e) List.mem_cons_self
    subst this
    have hi := ih fun e he => h e (List.mem_cons_of_mem _ he)
    cases e <;> exact hi

/-- All events of an execution inside of the tuner are tagged so. -/
theorem HaloFlag.Exec.tagged {k : Bool} {t : Task} {f f' : Bool} {tr : List (Bool × ExchEv)} {r : Res} (h : Exec k t f tr f' r)
    (hk : k = true) : ∀ e ∈ tr, e.1 = true := by
  induction h with
  | option => simp [hk]
  | runThrows _ ih => exact ih hk
  | run _ _ _ ih1 ih2 =>
    intro e he
    rcases List.mem_append.1 he with h | h
    · exact ih1 hk e h
    · rcases List.mem_cons.1 h with rfl | h
      · exact hk
      · exact ih2 hk e h
  | tuneRefused => simp
  | tune _ ih => exact ih rfl
  | tuneThrows _ ih =>
    intro e he
    rcases List.mem_append.1 he with h | h
    · exact ih rfl e h
    · rw [List.mem_singleton.1 h]; exact hk
  | loopLast _ ih => exact ih hk
  | loopNext _ _ ih1 ih2 =>
    intro e he
    rcases List.mem_append.1 he with h | h
    · exact ih1 hk e h
    · exact ih2 hk e h
  | nil => simp
  | stop _ ih => exact ih hk
  | cons _ _ ih1 ih2 =>
    intro e he
    rcases List.mem_append.1 he with h | h
    · exact ih1 hk e h
    · exact ih2 hk e h

theorem HaloFlag.Exec.requested {k : Bool} {t : Task} {f f' : Bool} {tr : List (Bool × ExchEv)} {r : Res} (h : Exec k t f tr f' r)
    (hk : k = false) (hn : ∀ k, (k, ExchEv.tunerThrew) ∉ tr) : asRequested f tr ∧ lastOption f tr = f' := by
  induction h with
  | option => subst hk; exact ⟨trivial, rfl⟩
  | runThrows _ ih => exact ih hk hn
  | @run k cs cs' f tr f1 tr2 f2 r r' _ _ _ ih1 ih2 =>
    subst hk
    have h1 := ih1 rfl fun k hm => hn k (by simp [hm])
    have h2 := ih2 rfl fun k hm => hn k (by simp [hm])
    rw [asRequested_append, lastOption_append, h1.2]
    exact ⟨⟨h1.1, rfl, h2.1⟩, h2.2⟩
  | tuneRefused => exact ⟨trivial, rfl⟩
  | tune h _ => exact tuner_events (h.tagged rfl) _
  | @tuneThrows k => exact absurd (by simp) (hn k)
  | loopLast => cases hk
  | loopNext => cases hk
  | nil => exact ⟨trivial, rfl⟩
  | stop _ ih => exact ih hk hn
  | cons _ _ ih1 ih2 =>
    have h1 := ih1 hk fun k hm => hn k (by simp [hm])
    have h2 := ih2 hk fun k hm => hn k (by simp [hm])
    rw [asRequested_append, lastOption_append, h1.2]
    exact ⟨⟨h1.1, h2.1⟩, h2.2⟩

theorem HaloFlag.Exec.noExchange {k : Bool} {t : Task} {f f' : Bool} {tr : List (Bool × ExchEv)} {r : Res} (h : Exec k t f tr f' r)
    (hk : k = true) (hf : f = false) (hn : ∀ b, (true, ExchEv.option b) ∉ tr) : f' = false ∧ (true, ExchEv.steps true) ∉ tr := by
  induction h with
  | @option k b => subst hk; exact absurd (by simp) (hn b)
  | runThrows _ ih => exact ih hk hf hn
  | run _ _ _ ih1 ih2 =>
    have h1 := ih1 hk hf fun k hm => hn k (by simp [hm])
    have h2 := ih2 hk h1.1 fun k hm => hn k (by simp [hm])
    refine ⟨h2.1, fun hm => ?_⟩
    rcases List.mem_append.1 hm with h | h
    · exact h1.2 h
    · rcases List.mem_cons.1 h with h | h
      · rw [h1.1] at h; cases h
      · exact h2.2 h
  | tuneRefused => exact ⟨hf, by simp⟩
  | tune _ ih => exact ⟨hf, (ih rfl rfl hn).2⟩
  | tuneThrows _ ih =>
    have h1 := ih rfl rfl fun k hm => hn k (by simp [hm])
    refine ⟨h1.1, fun hm => ?_⟩
    rcases List.mem_append.1 hm with h | h
    · exact h1.2 h
    · simp at h
  | loopLast _ ih => exact ih hk hf hn
  | loopNext _ _ ih1 ih2 =>
    have h1 := ih1 hk hf fun k hm => hn k (by simp [hm])
    have h2 := ih2 hk h1.1 fun k hm => hn k (by simp [hm])
    exact ⟨h2.1, fun hm => (List.mem_append.1 hm).elim h1.2 h2.2⟩
  | nil => exact ⟨hf, by simp⟩
  | stop _ ih => exact ih hk hf hn
  | cons _ _ ih1 ih2 =>
    have h1 := ih1 hk hf fun k hm => hn k (by simp [hm])
    have h2 := ih2 hk h1.1 fun k hm => hn k (by simp [hm])
    exact ⟨h2.1, fun hm => (List.mem_append.1 hm).elim h1.2 h2.2⟩

end Yask
