import Verif.Spec.Trace
import Mathlib.Data.List.Nodup
import Mathlib.Data.List.Perm.Basic
import Mathlib.Tactic.Tauto

/-! Helper lemmas about traces and independent actions. -/

namespace Yask
open Spec

variable {α ι : Type*}

theorem interleave_perm {l r t : List α} (h : Interleave l r t) : t.Perm (l ++ r) := by
  induction h with
  | nil => exact List.Perm.refl _
  | left _ ih => exact ih.cons _
  | right _ ih => exact (ih.cons _).trans List.perm_middle.symm

theorem interleave_pairwise {ok : α → α → Prop} {l r t : List α} (h : Interleave l r t)
    (hl : l.Pairwise ok) (hr : r.Pairwise ok) (hx : ∀ a ∈ l, ∀ b ∈ r, ok a b ∧ ok b a) :
    t.Pairwise ok := by
  induction h with
  | nil => exact List.Pairwise.nil
  | @left a l r t h ih =>
    rw [List.pairwise_cons] at hl ⊢
    refine ⟨fun b hb => ?_, ih hl.2 hr (fun x hx' y hy => hx x (List.mem_cons_of_mem _ hx') y hy)⟩
    rcases List.mem_append.1 ((interleave_perm h).mem_iff.1 hb) with hb | hb
    · exact hl.1 b hb
    · exact (hx a List.mem_cons_self b hb).1
  | @right a l r t h ih =>
    rw [List.pairwise_cons] at hr ⊢
    refine ⟨fun b hb => ?_, ih hl hr.2 (fun x hx' y hy => hx x hx' y (List.mem_cons_of_mem _ hy))⟩
    rcases List.mem_append.1 ((interleave_perm h).mem_iff.1 hb) with hb | hb
    · exact (hx b hb a List.mem_cons_self).2
    · exact hr.1 b hb

/-- Every trace of `L` performs exactly the actions satisfying `P`, each once, and never an action `b`
after an action `a` when `ok a b` fails. -/
def Good (ok : α → α → Prop) (L : Traces α) (P : α → Prop) : Prop :=
  ∀ t, L t → t.Nodup ∧ (∀ a, a ∈ t ↔ P a) ∧ t.Pairwise ok

theorem Good.congr {ok : α → α → Prop} {L : Traces α} {P Q : α → Prop} (h : Good ok L P)
    (hpq : ∀ a, P a ↔ Q a) : Good ok L Q := by
  intro t ht
  obtain ⟨h1, h2, h3⟩ := h t ht
  exact ⟨h1, fun a => (h2 a).trans (hpq a), h3⟩

theorem good_nothing {ok : α → α → Prop} {P : α → Prop} (h : ∀ a, ¬ P a) :
    Good ok doNothing P := by
  intro t ht
  have ht : t = [] := ht
  subst ht
  exact ⟨List.nodup_nil, fun a => by simp [h a], List.Pairwise.nil⟩

theorem good_one {ok : α → α → Prop} (x : α) : Good ok (doOne x) (fun a => a = x) := by
  intro t ht
  have ht : t = [x] := ht
  subst ht
  exact ⟨List.nodup_singleton _, fun a => by simp, List.pairwise_singleton _ _⟩

theorem good_seq {ok : α → α → Prop} (xs : List ι) (f : ι → Traces α) (P : ι → α → Prop)
    (hg : ∀ i ∈ xs, Good ok (f i) (P i))
    (hx : xs.Pairwise fun i j => ∀ a b, P i a → P j b → a ≠ b ∧ ok a b) :
    Good ok (doSeq (xs.map f)) (fun a => ∃ i ∈ xs, P i a) := by
  induction xs with
  | nil => exact good_nothing (by simp)
  | cons i xs ih =>
    rw [List.pairwise_cons] at hx
    rintro t ⟨u, v, hu, hv, rfl⟩
    obtain ⟨u1, u2, u3⟩ := hg i List.mem_cons_self u hu
    obtain ⟨v1, v2, v3⟩ := ih (fun k hk => hg k (List.mem_cons_of_mem _ hk)) hx.2 v hv
    refine ⟨?_, ?_, ?_⟩
    · rw [List.nodup_append]
      refine ⟨u1, v1, ?_⟩
      intro a ha b hb
      obtain ⟨k, hk, hP⟩ := (v2 b).1 hb
      exact (hx.1 k hk a b ((u2 a).1 ha) hP).1
    · intro a
      simp only [List.mem_append, u2, v2, List.mem_cons, exists_eq_or_imp]
    · rw [List.pairwise_append]
      refine ⟨u3, v3, ?_⟩
      intro a ha b hb
      obtain ⟨k, hk, hP⟩ := (v2 b).1 hb
      exact (hx.1 k hk a b ((u2 a).1 ha) hP).2

theorem good_par {ok : α → α → Prop} (xs : List ι) (f : ι → Traces α) (P : ι → α → Prop)
    (hg : ∀ i ∈ xs, Good ok (f i) (P i))
    (hx : xs.Pairwise fun i j => ∀ a b, P i a → P j b → a ≠ b ∧ ok a b ∧ ok b a) :
    Good ok (doPar (xs.map f)) (fun a => ∃ i ∈ xs, P i a) := by
  induction xs with
  | nil => exact good_nothing (by simp)
  | cons i xs ih =>
    rw [List.pairwise_cons] at hx
    rintro t ⟨u, v, hu, hv, hi⟩
    obtain ⟨u1, u2, u3⟩ := hg i List.mem_cons_self u hu
    obtain ⟨v1, v2, v3⟩ := ih (fun k hk => hg k (List.mem_cons_of_mem _ hk)) hx.2 v hv
    have hp := interleave_perm hi
    refine ⟨?_, ?_, ?_⟩
    · rw [hp.nodup_iff, List.nodup_append]
      refine ⟨u1, v1, ?_⟩
      intro a ha b hb
      obtain ⟨k, hk, hP⟩ := (v2 b).1 hb
      exact (hx.1 k hk a b ((u2 a).1 ha) hP).1
    · intro a
      simp only [hp.mem_iff, List.mem_append, u2, v2, List.mem_cons, exists_eq_or_imp]
    · apply interleave_pairwise hi u3 v3
      intro a ha b hb
      obtain ⟨k, hk, hP⟩ := (v2 b).1 hb
      exact (hx.1 k hk a b ((u2 a).1 ha) hP).2

/-! ### Traces exist -/

theorem interleave_append (l r : List α) : Interleave l r (l ++ r) := by
  induction l with
  | nil =>
    induction r with
    | nil => exact .nil
    | cons a r ih => exact .right ih
  | cons a l ih => exact .left ih

theorem doSeq_exists (Ls : List (Traces α)) (h : ∀ L ∈ Ls, ∃ t, L t) : ∃ t, doSeq Ls t := by
  induction Ls with
  | nil => exact ⟨[], rfl⟩
  | cons L Ls ih =>
    obtain ⟨u, hu⟩ := h L List.mem_cons_self
    obtain ⟨v, hv⟩ := ih fun L hL => h L (List.mem_cons_of_mem _ hL)
    exact ⟨u ++ v, u, v, hu, hv, rfl⟩

theorem doPar_exists (Ls : List (Traces α)) (h : ∀ L ∈ Ls, ∃ t, L t) : ∃ t, doPar Ls t := by
  induction Ls with
  | nil => exact ⟨[], rfl⟩
  | cons L Ls ih =>
    obtain ⟨u, hu⟩ := h L List.mem_cons_self
    obtain ⟨v, hv⟩ := ih fun L hL => h L (List.mem_cons_of_mem _ hL)
    exact ⟨u ++ v, u, v, hu, hv, interleave_append _ _⟩

/-! ### Independent actions commute -/

section
variable {Act Loc Val : Type*} (S : ActionSem Act Loc Val)

theorem run_comm (a b : Act) (h : ¬ S.Conflict a b) (m : Loc → Val) :
    S.run a (S.run b m) = S.run b (S.run a m) := by
  have h' : ∀ l, ¬ ((S.writes a l ∧ (S.reads b l ∨ S.writes b l)) ∨
      (S.writes b l ∧ (S.reads a l ∨ S.writes a l))) := fun l hl => h ⟨l, hl⟩
  funext l
  by_cases ha : S.writes a l
  · have hb : ¬ S.writes b l := fun hb => h' l (Or.inl ⟨ha, Or.inr hb⟩)
    rw [S.frame b (S.run a m) l hb]
    apply S.local_ a _ _ l ha
    intro l' hl'
    exact S.frame b m l' (fun hw => h' l' (Or.inr ⟨hw, Or.inl hl'⟩))
  · rw [S.frame a _ l ha]
    by_cases hb : S.writes b l
    · apply S.local_ b _ _ l hb
      intro l' hl'
      exact (S.frame a m l' (fun hw => h' l' (Or.inl ⟨hw, Or.inl hl'⟩))).symm
    · rw [S.frame b _ l hb, S.frame b _ l hb, S.frame a _ l ha]

theorem exec_cons (a : Act) (t : List Act) (m : Loc → Val) :
    S.exec (a :: t) m = S.exec t (S.run a m) := rfl

theorem exec_append (t u : List Act) (m : Loc → Val) :
    S.exec (t ++ u) m = S.exec u (S.exec t m) := by
  unfold ActionSem.exec; rw [List.foldl_append]

theorem exec_move_front (a : Act) (u : List Act) (h : ∀ b ∈ u, ¬ S.Conflict a b) (m : Loc → Val) :
    S.exec (u ++ [a]) m = S.exec u (S.run a m) := by
  induction u generalizing m with
  | nil => rfl
  | cons b u ih =>
    rw [List.cons_append, exec_cons, exec_cons, ih (fun c hc => h c (List.mem_cons_of_mem _ hc)),
      run_comm S a b (h b List.mem_cons_self)]

/-- Two orders of the same actions that agree on all conflicting pairs have the same effect. -/
theorem exec_eq_of_perm [DecidableEq Act] (ok : Act → Act → Prop) (l1 l2 : List Act) (hp : l1.Perm l2)
    (hn : l1.Nodup)
    (h1 : l1.Pairwise ok) (h2 : l2.Pairwise ok)
    (hc : ∀ a ∈ l1, ∀ b ∈ l1, a ≠ b → ok a b → ok b a → ¬ S.Conflict a b) (m : Loc → Val) :
    S.exec l1 m = S.exec l2 m := by
  induction l1 generalizing l2 m with
  | nil => rw [List.nil_perm.1 hp]
  | cons a l1 ih =>
    have ha : a ∈ l2 := hp.subset List.mem_cons_self
    obtain ⟨u, v, rfl⟩ := List.append_of_mem ha
    rw [List.pairwise_cons] at h1
    rw [List.nodup_cons] at hn
    have hp' : l1.Perm (u ++ v) := by
      have := hp.trans List.perm_middle
      exact List.perm_cons a |>.1 this
    have hsub : (u ++ v).Sublist (u ++ a :: v) := by
      exact List.Sublist.append (List.Sublist.refl _) (List.sublist_cons_self _ _)
    have e : S.exec (u ++ a :: v) m = S.exec (u ++ v) (S.run a m) := by
      rw [show u ++ a :: v = (u ++ [a]) ++ v by simp, exec_append S (u ++ [a]) v, exec_append S u v]
      congr 1
      apply exec_move_front
      intro b hb
      have hbl : b ∈ l1 := hp'.symm.subset (List.mem_append_left _ hb)
      have hab : a ≠ b := fun h => hn.1 (h ▸ hbl)
      refine hc a List.mem_cons_self b (List.mem_cons_of_mem _ hbl) hab (h1.1 b hbl) ?_
      rw [List.pairwise_append] at h2
      exact h2.2.2 b hb a List.mem_cons_self
    rw [e, exec_cons]
    exact ih (u ++ v) hp' hn.2 h1.2 (h2.sublist hsub)
      (fun x hx y hy => hc x (List.mem_cons_of_mem _ hx) y (List.mem_cons_of_mem _ hy)) _

end

end Yask
