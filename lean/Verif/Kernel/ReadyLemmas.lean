import Verif.Spec.ReadySpec
import Mathlib.Data.List.Induction

/-!
# Lemmas about preparation of solutions
-/

namespace Yask
open Ready

theorem Ready.after_append (a b : List Op) : Sol.after (a ++ b) = b.foldl Sol.step (Sol.after a) := by
  unfold Sol.after; rw [List.foldl_append]

theorem Ready.after_snoc (a : List Op) (c : Op) : Sol.after (a ++ [c]) = (Sol.after a).step c := by
  rw [Ready.after_append]; rfl

theorem Ready.keeps_step {c : Op} (h : keeps c = true) (s : Sol) : s.step c = s := by
  cases c <;> simp_all [keeps, Sol.step]

theorem Ready.keeps_all {l : List Op} (h : ∀ c ∈ l, keeps c = true) (s : Sol) : l.foldl Sol.step s = s := by
  induction l generalizing s with
  | nil => rfl
  | cons c l ih =>
    rw [List.foldl_cons, keeps_step (h c (by simp))]
    exact ih (fun d hd => h d (by simp [hd])) s

theorem Ready.ready_snoc (a : List Op) (c : Op) :
    Ready (a ++ [c]) ↔ c = .prepare .done ∨ keeps c = true ∧ Ready a := by
  constructor
  · rintro ⟨b, l, he, hl⟩
    rcases List.eq_nil_or_concat l with rfl | ⟨l', d, rfl⟩
    · have := List.append_inj' he rfl
      left
      simpa using this.2
    · rw [List.concat_eq_append, ← List.cons_append, ← List.append_assoc] at he
      obtain ⟨h1, h2⟩ := List.append_inj' he rfl
      simp only [List.cons.injEq, and_true] at h2
      subst h2
      right
      exact ⟨hl c (by simp), b, l', h1, fun e he => hl e (by simp [he])⟩
  · rintro (rfl | ⟨hk, b, l, rfl, hl⟩)
    · exact ⟨a, [], rfl, by simp⟩
    · refine ⟨b, l ++ [c], by simp, ?_⟩
      intro e he
      rcases List.mem_append.1 he with h | h
      · exact hl e h
      · simp only [List.mem_singleton] at h; subst h; exact hk

end Yask
