import Mathlib.Data.List.Nodup
import Mathlib.Tactic.ByContra
import Verif.Compiler.DfsLemmas

/-! Helper lemmas: the swap-based topological sort. -/

namespace Yask.Comp
open Relation

variable {α : Type} [DecidableEq α]

theorem scanDeps_spec (d : Deps α) (oi : α) (l : List α) (hni : oi ∉ l)
    (hasym : ∀ x, d.isDepOn oi x = true → d.isDepOn x oi = false) :
    match scanDeps d oi l with
    | .none => ∀ x ∈ l, d.isDepOn oi x = false
    | .bad => False
    | .found pre x post => l = pre ++ x :: post ∧ d.isDepOn oi x = true ∧ ∀ y ∈ pre, d.isDepOn oi y = false := by
  induction l with
  | nil => simp [scanDeps]
  | cons oj rest ih =>
    have h1 : oi ≠ oj := fun h => hni (h ▸ List.mem_cons_self)
    have h2 := ih fun h => hni (List.mem_cons_of_mem _ h)
    simp only [scanDeps, if_neg h1]
    by_cases hd : d.isDepOn oi oj = true
    · rw [if_pos hd, if_neg (by rw [hasym _ hd]; simp)]
      exact ⟨rfl, hd, by simp⟩
    · rw [if_neg hd]
      have hd' : d.isDepOn oi oj = false := by simpa using hd
      revert h2
      cases scanDeps d oi rest with
      | none =>
        intro h2 x hx
        rcases List.mem_cons.1 hx with rfl | hx
        · exact hd'
        · exact h2 x hx
      | bad => exact fun h => h
      | found pre x post =>
        rintro ⟨rfl, h3, h4⟩
        refine ⟨rfl, h3, fun y hy => ?_⟩
        rcases List.mem_cons.1 hy with rfl | hy
        · exact hd'
        · exact h4 y hy

/-- The two facts about the dependence relation the sort needs. -/
structure StrictDeps (d : Deps α) : Prop where
  irr : ∀ a, d.isDepOn a a = false
  tr : ∀ a b c, d.isDepOn a b = true → d.isDepOn b c = true → d.isDepOn a c = true

theorem StrictDeps.asym {d : Deps α} (h : StrictDeps d) (a b : α) (hab : d.isDepOn a b = true) :
    d.isDepOn b a = false := by
  by_contra hc
  have := h.tr a b a hab (by simpa using hc)
  rw [h.irr] at this
  cases this

theorem settle_spec {d : Deps α} (h : StrictDeps d) (n : Nat) (oi : α) (rest : List α) (hnd : (oi :: rest).Nodup)
    (hn : rest.countP (fun y => d.isDepOn oi y) < n) :
    ∃ x r, settle d n oi rest = .ok (x, r) ∧ (x :: r).Perm (oi :: rest) ∧ (∀ y ∈ r, d.isDepOn x y = false) ∧
      ((∀ y ∈ rest, d.isDepOn oi y = false) → x = oi ∧ r = rest) := by
  induction n generalizing oi rest with
  | zero => omega
  | succ n ih =>
    have hs := scanDeps_spec d oi rest (List.nodup_cons.1 hnd).1 (h.asym oi)
    simp only [settle]
    revert hs
    cases scanDeps d oi rest with
    | none => intro hs; exact ⟨oi, rest, rfl, .refl _, hs, fun _ => ⟨rfl, rfl⟩⟩
    | bad => exact fun h => h.elim
    | found pre x post =>
      rintro ⟨rfl, hx, -⟩
      have hp : (x :: (pre ++ oi :: post)).Perm (oi :: (pre ++ x :: post)) := by
        refine (List.Perm.cons x List.perm_middle).trans ?_
        refine (List.Perm.swap oi x _).trans ?_
        exact List.Perm.cons oi List.perm_middle.symm
      have hxo : d.isDepOn x oi = false := h.asym _ _ hx
      have hcnt : (pre ++ oi :: post).countP (fun y => d.isDepOn x y) <
          (pre ++ x :: post).countP (fun y => d.isDepOn oi y) := by
        simp only [List.countP_append, List.countP_cons, hxo, hx]
        have mono : ∀ l : List α, l.countP (fun y => d.isDepOn x y) ≤ l.countP (fun y => d.isDepOn oi y) := by
          intro l
          exact List.countP_mono_left fun y _ hy => h.tr oi x y hx hy
        have a1 := mono pre
        have a2 := mono post
        simp only [Bool.false_eq_true, if_false, if_true]
        omega
      obtain ⟨x', r, e, hp', hd', -⟩ := ih x (pre ++ oi :: post) (hp.nodup_iff.2 hnd) (by omega)
      refine ⟨x', r, e, hp'.trans hp, hd', fun hno => ?_⟩
      rw [hno x (by simp)] at hx
      cases hx

theorem sortFrom_spec {d : Deps α} (h : StrictDeps d) (n : Nat) (l : List α) (hn : l.length ≤ n) (hnd : l.Nodup) :
    ∃ r, sortFrom d n l = .ok r ∧ r.Perm l ∧ r.Pairwise (fun a b => d.isDepOn a b = false) ∧
      (l.Pairwise (fun a b => d.isDepOn a b = false) → r = l) := by
  induction n generalizing l with
  | zero =>
    have : l = [] := List.length_eq_zero_iff.1 (by omega)
    subst this
    exact ⟨[], rfl, .refl _, .nil, fun _ => rfl⟩
  | succ n ih =>
    match l, hn, hnd with
    | [], _, _ => exact ⟨[], rfl, .refl _, .nil, fun _ => rfl⟩
    | [a], _, _ => exact ⟨[a], rfl, .refl _, List.pairwise_singleton _ _, fun _ => rfl⟩
    | oi :: oj :: rest, hn, hnd =>
      obtain ⟨x, r, e, hp, hd, hk⟩ := settle_spec h (rest.length + 2) oi (oj :: rest) hnd (by
        have := List.countP_le_length (p := fun y => d.isDepOn oi y) (l := oj :: rest)
        simp only [List.length_cons] at this
        omega)
      have hl := hp.length_eq
      simp only [List.length_cons] at hl hn
      have hnd' : (x :: r).Nodup := hp.nodup_iff.2 hnd
      obtain ⟨tl, e', hp', hs', hk'⟩ := ih r (by omega) (List.nodup_cons.1 hnd').2
      simp only [sortFrom, e, Outcome.bind_ok, e']
      refine ⟨_, rfl, (List.Perm.cons x hp').trans hp, ?_, ?_⟩
      · exact List.pairwise_cons.2 ⟨fun y hy => hd y (hp'.subset hy), hs'⟩
      · intro hpw
        obtain ⟨h1, h2⟩ := List.pairwise_cons.1 hpw
        obtain ⟨rfl, rfl⟩ := hk h1
        rw [hk' h2]

end Yask.Comp
