import Verif.Compiler.StagesLemmas
import Verif.Props.Deps
import Mathlib.Tactic.IntervalCases

/-!
# Dependences between equations, and the division into parts and stages (C44, C45, C54)

The specification: an equation directly needs another one if the user said so, or, unless the dependency checker
is disabled, if there is a chain of reads from the (logical) var it writes to the one the other equation writes.
Iteration over the sets of the implementation is in an arbitrary order (`ordL`, `ordE`, `ordP`, `ordS`).
-/

namespace Yask
open Relation Comp

variable {ε Λ κ ν : Type} [DecidableEq ε] [DecidableEq Λ] [DecidableEq κ] [DecidableEq ν]

/-- Specification: some equation writes `a` and reads `b`. -/
def Comp.EqSys.Reads (S : EqSys ε Λ κ ν) (a b : Λ) : Prop := ∃ e ∈ S.eqs, S.lhs e = a ∧ b ∈ S.rhs e

/-- Specification: equation `x` directly needs equation `y`. -/
def Comp.EqSys.Needs (S : EqSys ε Λ κ ν) (x y : ε) : Prop :=
  (x, y) ∈ S.user ∨
  (S.findDeps = true ∧ x ∈ S.eqs ∧ y ∈ S.eqs ∧ x ≠ y ∧ TransGen S.Reads (S.lhs x) (S.lhs y))

/-- Specification: two equations write the same point with the same conditions, or one of them has none. -/
def Comp.EqSys.Clash (S : EqSys ε Λ κ ν) : Prop := ∃ x ∈ S.eqs, ∃ y ∈ S.eqs, x ≠ y ∧ S.clash x y = true

/-- The steps of the compiler from the equations to the stages. -/
def Comp.EqSys.compile (S : EqSys ε Λ κ ν) (ordL : List Λ → List Λ) (ordE : List ε → List ε)
    (ordP ordS : List Nat → List Nat) : Outcome (List (List (List ε))) := do
  let E ← S.analyze ordL ordE
  let P ← S.makeParts E ordP
  let Q ← S.makeStages P ordS
  .ok (Q.g.all.map fun s => (Q.items s).map P.items)

theorem compile_cases {S : EqSys ε Λ κ ν} {ordL : List Λ → List Λ} {ordE : List ε → List ε}
    {ordP ordS : List Nat → List Nat} {L : List (List (List ε))}
    (h : S.compile ordL ordE ordP ordS = .ok L) :
    ∃ E P Q, S.analyze ordL ordE = .ok E ∧ S.makeParts E ordP = .ok P ∧ S.makeStages P ordS = .ok Q ∧
      L = Q.g.all.map fun s => (Q.items s).map P.items := by
  unfold EqSys.compile at h
  revert h
  cases e1 : S.analyze ordL ordE with
  | ok E =>
    simp only [Outcome.bind_ok]
    cases e2 : S.makeParts E ordP with
    | ok P =>
      simp only [Outcome.bind_ok]
      cases e3 : S.makeStages P ordS with
      | ok Q =>
        simp only [Outcome.bind_ok]
        intro h
        cases h
        exact ⟨E, P, Q, rfl, e2, e3, rfl⟩
      | throws => intro h; cases h
      | undefined => intro h; cases h
    | throws => intro h; cases h
    | undefined => intro h; cases h
  | throws => intro h; cases h
  | undefined => intro h; cases h

theorem eqDirect_eq (S : EqSys ε Λ κ ν) : eqDirect S = S.Needs := rfl

/-- C44: the analysis of the equations never has undefined behaviour. It throws an exception exactly if two
equations clash, or a var depends on itself within a step, or an equation does. Otherwise it knows for each
pair of equations whether there is a chain of direct dependences. -/
theorem C44_equations {S : EqSys ε Λ κ ν} (hS : S.Valid) {ordL : List Λ → List Λ} (hL : ∀ l, (ordL l).Perm l)
    {ordE : List ε → List ε} (hE : ∀ l, (ordE l).Perm l) :
    (S.analyze ordL ordE = .throws ∧ (S.Clash ∨ Circular S.Reads ∨ Circular S.Needs)) ∨
    (∃ E, S.analyze ordL ordE = .ok E ∧ ¬ S.Clash ∧ ¬ Circular S.Reads ∧ ¬ Circular S.Needs ∧ E.all = S.eqs ∧
      ∀ x y, (E.deps.isDepOn x y = true ↔ TransGen S.Needs x y) ∧ (E.deps.isImmDepOn x y = true ↔ S.Needs x y)) := by
  rcases analyze_spec hS hL hE with ⟨E, e, hc, hall, himm, hlv, hcl⟩ | ⟨e, h⟩
  · refine .inr ⟨E, e, ?_, ?_, ?_, hall, fun x y => ⟨?_, ?_⟩⟩
    · rintro ⟨x, hx, y, hy, hxy, h⟩
      rw [hcl x hx y hy hxy] at h
      cases h
    · rintro ⟨a, ha⟩
      exact hlv a ha
    · rintro ⟨x, hx⟩
      exact hc.acyc x ((transGen_congr himm x x).2 hx)
    · rw [hc.full]
      exact transGen_congr himm x y
    · unfold Deps.isImmDepOn
      rw [decide_eq_true_iff]
      exact himm x y
  · exact .inl ⟨e, h⟩

/-- C45: whatever the compiler accepts is divided into stages, these into parts, and these into equations, such
that
* each equation of the solution (that is not filtered out) is in exactly one place,
* an equation is in a strictly later stage than every equation it needs, directly or through other equations
  (hence the equations of a stage are independent of each other, and so are the parts and the equations of a
  part),
* the equations of a part have the same conditions and step expression,
* no part or stage is empty, and none mixes scratch and other equations. -/
theorem C45_stages {S : EqSys ε Λ κ ν} (hS : S.Valid) {ordL : List Λ → List Λ} (hL : ∀ l, (ordL l).Perm l)
    {ordE : List ε → List ε} (hE : ∀ l, (ordE l).Perm l) {ordP ordS : List Nat → List Nat}
    (hP : ∀ l, (ordP l).Perm l) (hQ : ∀ l, (ordS l).Perm l) (L : List (List (List ε)))
    (h : S.compile ordL ordE ordP ordS = .ok L) :
    L.flatten.flatten.Nodup ∧
    (∀ e, e ∈ L.flatten.flatten ↔ e ∈ S.eqs ∧ (S.scr e = true ∨ S.wanted e = true)) ∧
    (∀ (i j : Nat) si sj, L[i]? = some si → L[j]? = some sj → ∀ x ∈ si.flatten, ∀ y ∈ sj.flatten,
      TransGen (fun a b => S.Needs a b ∧ a ∈ L.flatten.flatten ∧ b ∈ L.flatten.flatten) x y → j < i) ∧
    (∀ st ∈ L, ∀ part ∈ st, ∀ x ∈ part, ∀ y ∈ part, S.key x = S.key y) ∧
    (∀ st ∈ L, st ≠ [] ∧ (∀ part ∈ st, part ≠ []) ∧ ∀ x ∈ st.flatten, ∀ y ∈ st.flatten, S.scr x = S.scr y) := by
  obtain ⟨E, P, Q, e1, e2, e3, rfl⟩ := compile_cases h
  rcases analyze_spec hS hL hE with ⟨E', e, hc, hall, himm, hlv, hcl⟩ | ⟨e, -⟩
  swap
  · rw [e] at e1; cases e1
  rw [e] at e1; cases e1
  rcases (makeParts_spec S hS.nd E hc hP).1 with ⟨P', e', hp⟩ | e'
  swap
  · rw [e'] at e2; cases e2
  rw [e'] at e2; cases e2
  have hirr : ∀ x, P.g.deps.isDepOn x x = false := by
    intro x
    have := hp.acyc x
    rw [← hp.full] at this
    simpa using this
  rcases makeStages_spec S P hp.ok hirr hQ with ⟨Q', e'', hq⟩ | e''
  swap
  · rw [e''] at e3; cases e3
  rw [e''] at e3; cases e3
  -- membership of the result
  have hff : (Q.g.all.map fun s => (Q.items s).map P.items).flatten.flatten =
      (Q.g.all.flatMap Q.items).flatMap P.items := by
    simp [List.flatMap_def, List.map_flatten, Function.comp_def]
  have hperm : (Q.g.all.flatMap Q.items).Perm P.g.all :=
    (List.perm_ext_iff_of_nodup hq.ndi hp.ok.nd).2 hq.mem
  have hperm2 : ((Q.g.all.flatMap Q.items).flatMap P.items).Perm (P.g.all.flatMap P.items) :=
    hperm.flatMap_right _
  have hmem : ∀ e, e ∈ (Q.g.all.map fun s => (Q.items s).map P.items).flatten.flatten ↔ e ∈ S.todo := by
    intro e
    rw [hff, hperm2.mem_iff, hp.mem]
  have hpos : ∀ e, e ∈ S.todo → ∃ s ∈ Q.g.all, ∃ p ∈ Q.items s, e ∈ P.items p := by
    intro e he
    rw [← hmem, hff] at he
    obtain ⟨p, hp, he⟩ := List.mem_flatMap.1 he
    obtain ⟨s, hs, hps⟩ := List.mem_flatMap.1 hp
    exact ⟨s, hs, p, hps, he⟩
  -- one direct dependence
  have hstep : ∀ x y, S.Needs x y → ∀ s ∈ Q.g.all, ∀ t ∈ Q.g.all, ∀ p ∈ Q.items s, ∀ q ∈ Q.items t,
      x ∈ P.items p → y ∈ P.items q → ∀ (i j : Nat), Q.g.all[i]? = some s → Q.g.all[j]? = some t → j < i := by
    intro x y hxy s hs t ht p hps q hqt hx hy i j hi hj
    have hpa : p ∈ P.g.all := (hq.mem p).1 (List.mem_flatMap.2 ⟨s, hs, hps⟩)
    have hqa : q ∈ P.g.all := (hq.mem q).1 (List.mem_flatMap.2 ⟨t, ht, hqt⟩)
    have hd : E.deps.isDepOn x y = true := (hc.full x y).2 (.single ((himm x y).2 hxy))
    have hxy' : x ≠ y := by
      rintro rfl
      exact hc.acyc x (.single ((himm x x).2 hxy))
    have hpq : p ≠ q := by
      rintro rfl
      rw [hp.ind p hpa x hx y hy] at hd
      cases hd
    have hpi : q ∈ P.g.deps.imm p := (hp.imm p q).2 ⟨hpa, hqa, hpq, x, hx, y, hy, hxy', (himm x y).2 hxy⟩
    have hst : s ≠ t := by
      rintro rfl
      have := hq.ind s hs p hps q hqt
      rw [(hp.full p q).2 (.single hpi)] at this
      cases this
    have hcond : Cond Q.g.all Q.items (fun x y => y ∈ P.g.deps.imm x) s t :=
      ⟨hs, ht, hst, p, hps, q, hqt, hpq, hpi⟩
    obtain ⟨hi1, hi2⟩ := List.getElem?_eq_some_iff.1 hi
    obtain ⟨hj1, hj2⟩ := List.getElem?_eq_some_iff.1 hj
    by_contra hij
    rcases Nat.lt_or_ge i j with hlt | hge
    · exact List.pairwise_iff_getElem.1 hq.order i j hi1 hj1 hlt (hi2 ▸ hj2 ▸ .single hcond)
    · have : i = j := by omega
      subst this
      exact hst (hi2.symm.trans hj2)
  refine ⟨?_, ?_, ?_, ?_, ?_⟩
  · rw [hff]
    exact hperm2.nodup_iff.2 hp.nd
  · intro e
    rw [hmem]
    simp only [EqSys.todo, List.mem_append, List.mem_filter, Bool.and_eq_true, Bool.not_eq_true']
    cases S.scr e <;> simp
  · intro i j si sj hi hj x hx y hy hxy
    have key : ∀ x y, TransGen (fun a b => S.Needs a b ∧
        a ∈ (Q.g.all.map fun s => (Q.items s).map P.items).flatten.flatten ∧
        b ∈ (Q.g.all.map fun s => (Q.items s).map P.items).flatten.flatten) x y →
        ∀ s ∈ Q.g.all, ∀ t ∈ Q.g.all, ∀ p ∈ Q.items s, ∀ q ∈ Q.items t,
        x ∈ P.items p → y ∈ P.items q → ∀ (i j : Nat), Q.g.all[i]? = some s → Q.g.all[j]? = some t → j < i := by
      intro x y hxy
      induction hxy with
      | single h => exact hstep _ _ h.1
      | tail h1 h2 ih =>
        intro s hs t ht p hp q hq hx hy i j hi hj
        obtain ⟨u, hu, r, hr, hb⟩ := hpos _ ((hmem _).1 h2.2.1)
        obtain ⟨k, hk, hk2⟩ := List.getElem_of_mem hu
        have hk' : Q.g.all[k]? = some u := List.getElem?_eq_some_iff.2 ⟨hk, hk2⟩
        have a1 := ih s hs u hu p hp r hr hx hb i k hi hk'
        have a2 := hstep _ _ h2.1 u hu t ht r hr q hq hb hy k j hk' hj
        omega
    rw [List.getElem?_map, Option.map_eq_some_iff] at hi hj
    obtain ⟨s, hs, rfl⟩ := hi
    obtain ⟨t, ht, rfl⟩ := hj
    simp only [List.mem_flatten, List.mem_map, exists_exists_and_eq_and] at hx hy
    obtain ⟨p, hp1, hp2⟩ := hx
    obtain ⟨q, hq1, hq2⟩ := hy
    exact key x y hxy s (List.mem_of_getElem? hs) t (List.mem_of_getElem? ht) p hp1 q hq1 hp2 hq2 i j hs ht
  · intro st hst part hpart x hx y hy
    obtain ⟨s, hs, rfl⟩ := List.mem_map.1 hst
    obtain ⟨p, hps, rfl⟩ := List.mem_map.1 hpart
    have hpa : p ∈ P.g.all := (hq.mem p).1 (List.mem_flatMap.2 ⟨s, hs, hps⟩)
    have h1 := (hp.key p hpa x hx).1
    rw [(hp.key p hpa y hy).1] at h1
    exact (Option.some.inj h1).symm
  · intro st hst
    obtain ⟨s, hs, rfl⟩ := List.mem_map.1 hst
    refine ⟨by simpa using hq.ne s hs, ?_, ?_⟩
    · intro part hpart
      obtain ⟨p, hps, rfl⟩ := List.mem_map.1 hpart
      exact hp.ne p ((hq.mem p).1 (List.mem_flatMap.2 ⟨s, hs, hps⟩))
    · intro x hx y hy
      simp only [List.mem_flatten, List.mem_map, exists_exists_and_eq_and] at hx hy
      obtain ⟨p, hp1, hp2⟩ := hx
      obtain ⟨q, hq1, hq2⟩ := hy
      have hpa : p ∈ P.g.all := (hq.mem p).1 (List.mem_flatMap.2 ⟨s, hs, hp1⟩)
      have hqa : q ∈ P.g.all := (hq.mem q).1 (List.mem_flatMap.2 ⟨s, hs, hq1⟩)
      rw [← (hp.key p hpa x hp2).2, ← (hp.key q hqa y hq2).2, ← hq.scr s hs p hp1, ← hq.scr s hs q hq1]

/-- C45: dividing the equations into parts and stages never has undefined behaviour: it succeeds or throws an
exception. -/
theorem C45_total {S : EqSys ε Λ κ ν} (hS : S.Valid) {ordL : List Λ → List Λ} (hL : ∀ l, (ordL l).Perm l)
    {ordE : List ε → List ε} (hE : ∀ l, (ordE l).Perm l) {ordP ordS : List Nat → List Nat}
    (hP : ∀ l, (ordP l).Perm l) (hQ : ∀ l, (ordS l).Perm l) :
    S.compile ordL ordE ordP ordS ≠ .undefined := by
  unfold EqSys.compile
  rcases analyze_spec hS hL hE with ⟨E, e, hc, -⟩ | ⟨e, -⟩
  · rw [e]
    simp only [Outcome.bind_ok]
    rcases (makeParts_spec S hS.nd E hc hP).1 with ⟨P, e', hp⟩ | e'
    · rw [e']
      simp only [Outcome.bind_ok]
      have hirr : ∀ x, P.g.deps.isDepOn x x = false := by
        intro x
        have := hp.acyc x
        rw [← hp.full] at this
        simpa using this
      rcases makeStages_spec S P hp.ok hirr hQ with ⟨Q, e'', -⟩ | e''
      · rw [e'']; simp
      · rw [e'']; simp
    · rw [e']; simp
  · rw [e]; simp

/-- C45, the part of "every acyclic set of equations is accepted" that holds: without user-supplied dependences,
a set of equations without clashes and circular reads is divided into parts. Missing: with user-supplied
dependences, and the division of the parts into stages; both can fail
(`C45_user_dependences_rejected`, `C45_valid_equations_rejected`). -/
theorem C45_accepts_partial {S : EqSys ε Λ κ ν} (hS : S.Valid) (hu : S.user = []) (hcl : ¬ S.Clash)
    (hac : ¬ Circular S.Reads) {ordL : List Λ → List Λ} (hL : ∀ l, (ordL l).Perm l)
    {ordE : List ε → List ε} (hE : ∀ l, (ordE l).Perm l) {ordP : List Nat → List Nat}
    (hP : ∀ l, (ordP l).Perm l) :
    ∃ E P, S.analyze ordL ordE = .ok E ∧ S.makeParts E ordP = .ok P := by
  have htr := eqDirect_trans hu (fun a ha => hac ⟨a, ha⟩)
  have hnc : ¬ Circular S.Needs := by
    rintro ⟨x, hx⟩
    have : ∀ a b, TransGen S.Needs a b → S.Needs a b := by
      intro a b hab
      induction hab with
      | single h => exact h
      | tail _ h ih => exact htr _ _ _ ih h
    rcases this x x hx with h | ⟨-, -, -, h, -⟩
    · rw [hu] at h; cases h
    · exact h rfl
  rcases analyze_spec hS hL hE with ⟨E, e, hc, hall, himm, -⟩ | ⟨e, h⟩
  · rcases (makeParts_spec S hS.nd E hc hP) with ⟨⟨P, e', -⟩ | e', hno⟩
    · exact ⟨E, P, e, e'⟩
    · refine absurd e' (hno fun x y z h1 h2 => ?_)
      rw [himm] at h1 h2 ⊢
      exact htr _ _ _ h1 h2
  · rcases h with h | h | h
    · exact absurd h hcl
    · exact absurd h hac
    · exact absurd h hnc

/-- C54: with the dependency checker disabled, the equations depend on each other exactly as the user said. -/
theorem C54_only_user_dependences_partial {S : EqSys ε Λ κ ν} (hS : S.Valid) (hf : S.findDeps = false)
    {ordL : List Λ → List Λ} (hL : ∀ l, (ordL l).Perm l) {ordE : List ε → List ε} (hE : ∀ l, (ordE l).Perm l)
    (E : DepGroup ε) (h : S.analyze ordL ordE = .ok E) (x y : ε) :
    (E.deps.isImmDepOn x y = true ↔ (x, y) ∈ S.user) ∧
    (E.deps.isDepOn x y = true ↔ TransGen (fun a b => (a, b) ∈ S.user) x y) := by
  rcases C44_equations hS hL hE with ⟨e, -⟩ | ⟨E', e, -, -, -, -, hE'⟩
  · rw [h] at e; cases e
  · rw [h] at e; cases e
    have hn : ∀ a b, S.Needs a b ↔ (a, b) ∈ S.user := by
      intro a b
      unfold EqSys.Needs
      simp [hf]
    exact ⟨(hE' x y).2.trans (hn x y), (hE' x y).1.trans (transGen_congr hn x y)⟩

/-! Examples. -/

/-- Equations without scratch vars, all wanted, no clashes; conditions and vars given by number. -/
def exSys (lhs : List Nat) (rhs : List (List Nat)) (key : List Nat) (var : Nat → Nat) (user : List (Nat × Nat))
    (find : Bool) : EqSys Nat Nat Nat Nat where
  eqs := List.range lhs.length
  lhs e := lhs.getD e 0
  rhs e := rhs.getD e []
  var e := var (lhs.getD e 0)
  scr _ := false
  lvScr _ := false
  key e := key.getD e 0
  clash _ _ := false
  compat _ _ := true
  wanted _ := true
  findDeps := find
  bundle := true
  user := user

/-- Four equations: 0 and 3 are independent and have the same conditions, 1 needs 0, 2 needs 1. -/
def exEqs : EqSys Nat Nat Nat Nat := exSys [1, 2, 3, 4] [[9], [1], [2], [9]] [0, 0, 0, 0] id [] true

theorem exEqs_valid : exEqs.Valid := ⟨List.nodup_range, by simp [exEqs, exSys]⟩

example : exEqs.compile id id id id = .ok [[[0, 3]], [[1]], [[2]]] := by decide +kernel

example : exEqs.compile List.reverse List.reverse List.reverse List.reverse = .ok [[[0, 3]], [[1]], [[2]]] := by
  decide +kernel

/-- Two equations with different conditions write var 1; both are needed by equation 2. -/
def exConds : EqSys Nat Nat Nat Nat := exSys [1, 1, 2] [[9], [9], [1]] [1, 2, 0] id [] true

example : exConds.compile id id id id = .ok [[[0], [1]], [[2]]] := by decide +kernel

example : ¬ Circular exEqs.Reads := by
  rintro ⟨x, hx⟩
  -- weight: 1 ↦ 1, 2 ↦ 2, 3 ↦ 3, 4 ↦ 4, 9 ↦ 0
  have hs' : ∀ a b, exEqs.Reads a b → b % 9 < a % 9 := by
    rintro a b ⟨e, he, rfl, hb⟩
    have he' : e < 4 := by simpa [exEqs, exSys] using he
    interval_cases e <;> simp [exEqs, exSys] at hb ⊢ <;> omega
  have h : ∀ a b, TransGen exEqs.Reads a b → b % 9 < a % 9 := by
    intro a b hab
    induction hab with
    | single h => exact hs' _ _ h
    | tail _ h ih => exact Nat.lt_trans (hs' _ _ h) ih
  exact absurd (h x x hx) (by omega)

example : ¬ exEqs.Clash := by
  rintro ⟨x, -, y, -, -, h⟩
  cases h

/-- C45, counterexample: a set of equations with an acyclic dependency graph, and no dependences added by the
user, that the compiler rejects ("circular dependency"). The greedy grouping of parts into stages puts parts 1,
2 and 5, and parts 3 and 4 together: part 4 needs part 1, but part 5 needs part 3. Each part is only tried
alone when a group of parts is merged into a stage. -/
def rejected : EqSys Nat Nat Nat Nat :=
  exSys [0, 1, 2, 3, 4, 3, 5, 1] [[9], [9], [9], [9], [0], [9], [2], [9]] [3, 4, 2, 2, 1, 1, 5, 5]
    (fun l => if l = 5 then 0 else l) [] true

theorem C45_valid_equations_rejected :
    rejected.Valid ∧ rejected.user = [] ∧ ¬ rejected.Clash ∧ ¬ Circular rejected.Reads ∧
    ¬ Circular rejected.Needs ∧ rejected.compile id id id id = .throws := by
  have hval : rejected.Valid := ⟨List.nodup_range, by simp [rejected, exSys]⟩
  have hlv : rejected.analyze id id >>= (fun E => .ok E.all) = .ok (List.range 8) := by decide +kernel
  rcases C44_equations hval (ordL := id) (ordE := id) (fun _ => .refl _) (fun _ => .refl _) with
    ⟨e, -⟩ | ⟨E, e, h1, h2, h3, -⟩
  · rw [e] at hlv; cases hlv
  · exact ⟨hval, rfl, h1, h2, h3, by decide +kernel⟩

/-- C45, counterexample: dependences added by the user, as documented ("only immediate dependencies should be
added"), that have no cycle but are rejected. Equations 0 and 3, as well as 1 and 2, have the same conditions
and share a part; 0 needs 2, while 1 needs 3 through equation 4, which is not yet in a part when the parts are
formed. -/
def userDeps : EqSys Nat Nat Nat Nat :=
  exSys [1, 2, 3, 4, 5] [[9], [9], [9], [9], [9]] [1, 2, 2, 1, 3] id [(0, 2), (1, 4), (4, 3)] true

theorem C45_user_dependences_rejected :
    userDeps.Valid ∧ ¬ userDeps.Clash ∧ ¬ Circular userDeps.Reads ∧ ¬ Circular userDeps.Needs ∧
    userDeps.compile id id id id = .throws := by
  have hval : userDeps.Valid := ⟨List.nodup_range, by simp [userDeps, exSys]⟩
  have hlv : userDeps.analyze id id >>= (fun E => .ok E.all) = .ok (List.range 5) := by decide +kernel
  rcases C44_equations hval (ordL := id) (ordE := id) (fun _ => .refl _) (fun _ => .refl _) with
    ⟨e, -⟩ | ⟨E, e, h1, h2, h3, -⟩
  · rw [e] at hlv; cases hlv
  · exact ⟨hval, h1, h2, h3, by decide +kernel⟩

/-- C54, counterexample: disabling the dependency checker does not allow points of one sub-domain to depend on
points of another one at the same step, which is the documented reason for disabling it. Equation 1 writes var
1 in one sub-domain and reads it (in the other one); the user supplied the dependence. -/
def subDomains (find : Bool) : EqSys Nat Nat Nat Nat := exSys [1, 1] [[9], [1]] [1, 2] id [(1, 0)] find

theorem C54_disabled_checker_rejects :
    (subDomains false).Valid ∧ (subDomains false).findDeps = false ∧ ¬ (subDomains false).Clash ∧
    ¬ Circular (fun x y => (x, y) ∈ (subDomains false).user) ∧
    (subDomains false).compile id id id id = .throws := by
  refine ⟨⟨List.nodup_range, by decide⟩, rfl, ?_, ?_, by decide +kernel⟩
  · rintro ⟨x, -, y, -, -, h⟩
    cases h
  · rintro ⟨x, hx⟩
    have hs : ∀ a b : Nat, (a, b) ∈ (subDomains false).user → b < a := by
      intro a b h
      have : a = 1 ∧ b = 0 := by simpa [subDomains, exSys] using h
      omega
    have h : ∀ a b, TransGen (fun x y => (x, y) ∈ (subDomains false).user) a b → b < a := by
      intro a b hab
      induction hab with
      | single h => exact hs _ _ h
      | tail _ h ih => exact Nat.lt_trans (hs _ _ h) ih
    exact absurd (h x x hx) (by omega)

/-- With the checker disabled and without reads of a var at the step at which it is written, the user's
dependences are used. -/
def exUser : EqSys Nat Nat Nat Nat := exSys [1, 1] [[9], [8]] [1, 2] id [(0, 1)] false

example : exUser.compile id id id id = .ok [[[1]], [[0]]] := by decide +kernel

end Yask
