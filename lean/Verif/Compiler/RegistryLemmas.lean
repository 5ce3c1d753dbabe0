import Verif.Compiler.RegistryModel
import Mathlib.Data.List.Basic

/-!
# Lemmas about the registry of stencil solutions
-/

namespace Yask.Registry
open Spec

/-- What holds after the events `h`. -/
structure Inv (w : World) (h : List RegEv) : Prop where
  reg_lt : ∀ n o, w.reg n = some o → o < w.next
  ev_lt : ∀ n o, RegEv.created n o ∈ h → o < w.next
  del_lt : ∀ o, RegEv.deleted o ∈ h → o < w.next
  live_lt : ∀ o ∈ w.live, o < w.next
  created : ∀ n o, RegEv.created n o ∈ h → w.reg n = some o
  live : ∀ o, o ∈ w.live ↔ ∃ n, ObjExists n o h
  used : ∀ n, (w.reg n).isSome = true ↔ (∃ o, RegEv.created n o ∈ h) ∨ RegEv.unfinished n ∈ h
  inj : ∀ n n' o, w.reg n = some o → w.reg n' = some o → n = n'

theorem inv_init : Inv World.init [] where
  reg_lt := by intro n o h; cases h
  ev_lt := by intro n o h; cases h
  del_lt := by intro o h; cases h
  live_lt := by intro o h; cases h
  created := by intro n o h; cases h
  live := by intro o; simp [World.init, ObjExists]
  used := by intro n; simp [World.init]
  inj := by intro n n' o h; cases h

theorem Inv.refused {w : World} {h : List RegEv} (hi : Inv w h) (name : String) : Inv w (h ++ [.refused name]) where
  reg_lt := hi.reg_lt
  ev_lt n o hm := hi.ev_lt n o (by simpa using hm)
  del_lt o hm := hi.del_lt o (by simpa using hm)
  live_lt := hi.live_lt
  created n o hm := hi.created n o (by simpa using hm)
  live o := by rw [hi.live o]; simp [ObjExists]
  used n := by rw [hi.used n]; simp
  inj := hi.inj

theorem Inv.step {w : World} {h : List RegEv} (hi : Inv w h) (op : Op) : Inv (w.step op).1 (h ++ (w.step op).2) := by
  cases op with
  | create name =>
    unfold World.step World.construct
    by_cases hs : (w.reg name).isSome = true
    · simp only [hs, if_true]; exact hi.refused name
    · have hn : w.reg name = none := by simpa using hs
      simp only [hs, if_false, Bool.false_eq_true]
      constructor
      · intro n o
        simp only
        split
        · intro e; cases e; omega
        · intro e; have := hi.reg_lt n o e; omega
      · intro n o hm
        simp only [List.mem_append, List.mem_singleton, RegEv.created.injEq] at hm
        rcases hm with hm | ⟨rfl, rfl⟩
        · have := hi.ev_lt n o hm; simp only; omega
        · simp
      · intro o hm
        simp only [List.mem_append, List.mem_singleton, reduceCtorEq, or_false] at hm
        have := hi.del_lt o hm; simp only; omega
      · intro o hm
        simp only [List.mem_cons] at hm
        rcases hm with rfl | hm
        · simp
        · have := hi.live_lt o hm; simp only; omega
      · intro n o hm
        simp only [List.mem_append, List.mem_singleton, RegEv.created.injEq] at hm
        rcases hm with hm | ⟨rfl, rfl⟩
        · have := hi.created n o hm
          have hne : n ≠ name := by rintro rfl; rw [hn] at this; cases this
          simp [hne, this]
        · simp
      · intro o
        simp only [List.mem_cons, ObjExists, List.mem_append, List.not_mem_nil, or_false, RegEv.created.injEq, reduceCtorEq]
        rw [hi.live o]
        constructor
        · rintro (rfl | ⟨n, h1, h2⟩)
          · exact ⟨name, .inr ⟨rfl, rfl⟩, fun hd => absurd (hi.del_lt _ hd) (by omega)⟩
          · exact ⟨n, .inl h1, h2⟩
        · rintro ⟨n, h1 | ⟨rfl, rfl⟩, h2⟩
          · exact .inr ⟨n, h1, h2⟩
          · exact .inl rfl
      · intro n
        by_cases hne : n = name
        · subst hne
          simp
        · have := hi.used n
          simp only [hne, if_false, List.mem_append, List.mem_singleton, RegEv.created.injEq, reduceCtorEq, or_false, false_and]
          exact this
      · intro n n' o
        simp only
        split
        · rename_i h1
          split
          · rename_i h2; intro _ _; rw [h1, h2]
          · intro e1 e2; cases e1; exact absurd (hi.reg_lt _ _ e2) (by omega)
        · split
          · intro e1 e2; cases e2; exact absurd (hi.reg_lt _ _ e1) (by omega)
          · exact hi.inj n n' o
  | createThrows name =>
    unfold World.step World.construct
    by_cases hs : (w.reg name).isSome = true
    · simp only [hs, if_true]; exact hi.refused name
    · have hn : w.reg name = none := by simpa using hs
      simp only [hs, if_false, Bool.false_eq_true]
      constructor
      · intro n o
        simp only
        split
        · intro e; cases e; omega
        · intro e; have := hi.reg_lt n o e; omega
      · intro n o hm
        simp only [List.mem_append, List.mem_singleton, reduceCtorEq, or_false] at hm
        have := hi.ev_lt n o hm; simp only; omega
      · intro o hm
        simp only [List.mem_append, List.mem_singleton, reduceCtorEq, or_false] at hm
        have := hi.del_lt o hm; simp only; omega
      · intro o hm
        have := hi.live_lt o hm; simp only; omega
      · intro n o hm
        simp only [List.mem_append, List.mem_singleton, reduceCtorEq, or_false] at hm
        have := hi.created n o hm
        have hne : n ≠ name := by rintro rfl; rw [hn] at this; cases this
        simp [hne, this]
      · intro o
        simp only [ObjExists, List.mem_append, List.mem_singleton, reduceCtorEq, or_false]
        exact hi.live o
      · intro n
        by_cases hne : n = name
        · subst hne
          simp
        · have := hi.used n
          simp only [hne, if_false, List.mem_append, List.mem_singleton, RegEv.unfinished.injEq, reduceCtorEq, or_false]
          exact this
      · intro n n' o
        simp only
        split
        · rename_i h1
          split
          · rename_i h2; intro _ _; rw [h1, h2]
          · intro e1 e2; cases e1; exact absurd (hi.reg_lt _ _ e2) (by omega)
        · split
          · intro e1 e2; cases e2; exact absurd (hi.reg_lt _ _ e1) (by omega)
          · exact hi.inj n n' o
  | delete obj =>
    unfold World.step
    by_cases hs : obj ∈ w.live
    · simp only [hs, if_true]
      constructor
      · exact hi.reg_lt
      · intro n o hm
        exact hi.ev_lt n o (by simpa using hm)
      · intro o hm
        simp only [List.mem_append, List.mem_singleton, RegEv.deleted.injEq] at hm
        rcases hm with hm | rfl
        · exact hi.del_lt o hm
        · exact hi.live_lt o hs
      · intro o hm
        exact hi.live_lt o (List.mem_filter.1 hm).1
      · intro n o hm
        exact hi.created n o (by simpa using hm)
      · intro o
        rw [List.mem_filter, hi.live o]
        simp only [ObjExists, List.mem_append, List.mem_singleton, reduceCtorEq, or_false, RegEv.deleted.injEq, not_or, decide_eq_true_eq]
        constructor
        · rintro ⟨⟨n, h1, h2⟩, h3⟩; exact ⟨n, h1, h2, h3⟩
        · rintro ⟨n, h1, h2, h3⟩; exact ⟨⟨n, h1, h2⟩, h3⟩
      · intro n
        rw [hi.used n]; simp
      · exact hi.inj
    · simp only [hs, if_false, List.append_nil]; exact hi

theorem Inv.run {w : World} {h : List RegEv} (hi : Inv w h) (ops : List Op) : Inv (w.run ops).1 (h ++ (w.run ops).2) := by
  induction ops generalizing w h with
  | nil => simpa [World.run] using hi
  | cons op ops ih =>
    have := ih (hi.step op)
    rw [List.append_assoc] at this
    exact this

theorem run_append (w : World) (a b : List Op) :
    w.run (a ++ b) = (((w.run a).1.run b).1, (w.run a).2 ++ ((w.run a).1.run b).2) := by
  induction a generalizing w with
  | nil => rfl
  | cons op ops ih => simp [World.run, ih, List.append_assoc]

end Yask.Registry
