import Mathlib.Tactic.Tauto
import Verif.Compiler.InheritLemmas

/-! Helper lemmas: dependences between logical vars and between equations. -/

namespace Yask.Comp
open Relation

/-- The closure has been computed. -/
structure DepGroup.Closed {α : Type} [DecidableEq α] (g : DepGroup α) : Prop where
  ok : g.Ok
  full : ∀ a b, g.deps.isDepOn a b = true ↔ TransGen (Edge g.deps.imm) a b
  acyc : ∀ a, ¬ TransGen (Edge g.deps.imm) a a

theorem closed_bare {α : Type} [DecidableEq α] {l : List α} (h : l.Nodup) :
    DepGroup.Closed ({ all := l } : DepGroup α) := by
  have hno : ∀ a b, ¬ TransGen (Edge ({ all := l } : DepGroup α).deps.imm) a b := by
    intro a b hab
    obtain ⟨c, hc, -⟩ := TransGen.head'_iff.1 hab
    simp [Edge] at hc
  refine ⟨⟨h, Deps.empty_ok, Deps.empty_ok, by simp, by simp, by simp⟩, fun a b => ?_, fun a => hno a a⟩
  constructor
  · intro hab; simp [Deps.isDepOn] at hab
  · intro hab; exact absurd hab (hno a b)

theorem closed_of_findAll {α : Type} [DecidableEq α] {g : DepGroup α} (h : g.Ok) {ord : List α → List α}
    (hord : ∀ l, (ord l).Perm l) :
    (∃ g', g.findAll ord = .ok g' ∧ g'.Closed ∧ g'.all = g.all ∧ g'.deps.imm = g.deps.imm ∧
      g'.scr.imm = g.scr.imm) ∨
    (g.findAll ord = .throws ∧ ∃ x, TransGen (Edge g.deps.imm) x x) := by
  rcases DepGroup.findAll_spec h hord with ⟨g', e, hg', hd, hall, himm, hs, hac, -⟩ | h'
  · refine .inl ⟨g', e, ⟨hg', (hg'.strict hd).2, ?_⟩, hall, himm, hs⟩
    rw [himm]; exact hac
  · exact .inr h'

variable {ε Λ κ ν : Type} [DecidableEq ε] [DecidableEq Λ] [DecidableEq κ] [DecidableEq ν]

/-- A logical var is computed from another one by one of the equations. -/
def lvReads (S : EqSys ε Λ κ ν) (l : List ε) (a b : Λ) : Prop := ∃ e ∈ l, S.lhs e = a ∧ b ∈ S.rhs e

theorem lvRow_spec (S : EqSys ε Λ κ ν) (a : Λ) (rs : List Λ) (g : DepGroup Λ) (hg : g.Ok) :
    (∃ g', rs.foldlM (fun (g : DepGroup Λ) r => (g.addItem r).setImm S.lvScr a r) g = .ok g' ∧ g'.Ok ∧
      ∀ x y, y ∈ g'.deps.imm x ↔ y ∈ g.deps.imm x ∨ (x = a ∧ y ∈ rs)) ∨
    (rs.foldlM (fun (g : DepGroup Λ) r => (g.addItem r).setImm S.lvScr a r) g = .throws ∧ a ∈ rs) := by
  induction rs generalizing g with
  | nil => exact .inl ⟨g, rfl, hg, by simp⟩
  | cons r rs ih =>
    rw [List.foldlM_cons]
    by_cases har : a = r
    · refine .inr ⟨?_, har ▸ List.mem_cons_self⟩
      simp [DepGroup.setImm, har]
    · obtain ⟨g1, e1, hg1, himm, -, -, -⟩ := (hg.addItem r).setImm S.lvScr har
      rw [e1]
      simp only [Outcome.bind_ok]
      rcases ih g1 hg1 with ⟨g', e', hg', himm'⟩ | ⟨e', ha⟩
      · refine .inl ⟨g', e', hg', fun x y => ?_⟩
        rw [himm', himm, List.mem_cons, or_assoc]
        refine or_congr Iff.rfl ?_
        constructor
        · rintro (⟨rfl, rfl⟩ | ⟨rfl, h⟩)
          · exact ⟨rfl, .inl rfl⟩
          · exact ⟨rfl, .inr h⟩
        · rintro ⟨rfl, rfl | h⟩
          · exact .inl ⟨rfl, rfl⟩
          · exact .inr ⟨rfl, h⟩
      · exact .inr ⟨e', List.mem_cons_of_mem _ ha⟩

theorem lvFold_spec (S : EqSys ε Λ κ ν) {ord : List Λ → List Λ} (hord : ∀ l, (ord l).Perm l) (l : List ε)
    (g : DepGroup Λ) (hg : g.Closed) :
    (∃ g', l.foldlM (fun (g : DepGroup Λ) e => do
        let g1 ← (S.rhs e).foldlM (fun (g : DepGroup Λ) r => (g.addItem r).setImm S.lvScr (S.lhs e) r)
          (g.addItem (S.lhs e))
        g1.findAll ord) g = .ok g' ∧ g'.Closed ∧
      ∀ x y, y ∈ g'.deps.imm x ↔ y ∈ g.deps.imm x ∨ lvReads S l x y) ∨
    (l.foldlM (fun (g : DepGroup Λ) e => do
        let g1 ← (S.rhs e).foldlM (fun (g : DepGroup Λ) r => (g.addItem r).setImm S.lvScr (S.lhs e) r)
          (g.addItem (S.lhs e))
        g1.findAll ord) g = .throws ∧
      ∃ x, TransGen (fun x y => y ∈ g.deps.imm x ∨ lvReads S l x y) x x) := by
  induction l generalizing g with
  | nil => exact .inl ⟨g, rfl, hg, by simp [lvReads]⟩
  | cons e l ih =>
    rw [List.foldlM_cons]
    have hrow : ∀ x y, lvReads S (e :: l) x y ↔ (x = S.lhs e ∧ y ∈ S.rhs e) ∨ lvReads S l x y := by
      intro x y
      unfold lvReads
      constructor
      · rintro ⟨e', he', h1, h2⟩
        rcases List.mem_cons.1 he' with rfl | he'
        · exact .inl ⟨h1.symm, h2⟩
        · exact .inr ⟨e', he', h1, h2⟩
      · rintro (⟨rfl, h⟩ | ⟨e', he', h1, h2⟩)
        · exact ⟨e, List.mem_cons_self, rfl, h⟩
        · exact ⟨e', List.mem_cons_of_mem _ he', h1, h2⟩
    rcases lvRow_spec S (S.lhs e) (S.rhs e) _ (hg.ok.addItem (S.lhs e)) with ⟨g1, e1, hg1, himm1⟩ | ⟨e1, ha⟩
    · rw [e1]
      simp only [Outcome.bind_ok]
      have himm1' : ∀ x y, y ∈ g1.deps.imm x ↔ y ∈ g.deps.imm x ∨ (x = S.lhs e ∧ y ∈ S.rhs e) := himm1
      rcases closed_of_findAll hg1 hord with ⟨g2, e2, hg2, -, himm2, -⟩ | ⟨e2, x, hx⟩
      · rw [e2]
        simp only [Outcome.bind_ok]
        rcases ih g2 hg2 with ⟨g', e', hg', himm'⟩ | ⟨e', x, hx⟩
        · refine .inl ⟨g', e', hg', fun x y => ?_⟩
          rw [himm', himm2, himm1', hrow, or_assoc]
        · refine .inr ⟨e', x, trans_mono (fun a b hab => ?_) hx⟩
          rw [himm2, himm1', or_assoc, ← hrow] at hab
          exact hab
      · rw [e2]
        refine .inr ⟨rfl, x, trans_mono (fun a b hab => ?_) hx⟩
        rcases (himm1' a b).1 hab with h | h
        · exact .inl h
        · exact .inr ((hrow a b).2 (.inl h))
    · rw [e1]
      exact .inr ⟨rfl, S.lhs e, .single (.inr ((hrow _ _).2 (.inl ⟨rfl, ha⟩)))⟩

theorem lvGroup_spec (S : EqSys ε Λ κ ν) {ord : List Λ → List Λ} (hord : ∀ l, (ord l).Perm l) :
    (∃ g, S.lvGroup ord = .ok g ∧ (∀ a b, g.deps.isDepOn a b = true ↔ TransGen (lvReads S S.eqs) a b) ∧
      ∀ a, ¬ TransGen (lvReads S S.eqs) a a) ∨
    (S.lvGroup ord = .throws ∧ ∃ x, TransGen (lvReads S S.eqs) x x) := by
  unfold EqSys.lvGroup
  rcases lvFold_spec S hord S.eqs {} (closed_bare (l := []) (by simp)) with ⟨g, e, hg, himm⟩ | ⟨e, x, hx⟩
  · rw [e]
    simp only [Outcome.bind_ok]
    have himm' : ∀ x y, y ∈ g.deps.imm x ↔ lvReads S S.eqs x y := by
      intro x y; rw [himm]; simp
    have hac : ∀ a, ¬ TransGen (lvReads S S.eqs) a a := by
      intro a ha
      exact hg.acyc a (trans_mono (fun x y hxy => (himm' x y).2 hxy) ha)
    rcases DepGroup.topoSort_spec hg.ok hord with ⟨g', e', hg', -, himm2, -, hd, -, -, -, -, -⟩ | ⟨e', x, hx⟩
    · refine .inl ⟨g', e', fun a b => ?_, hac⟩
      have hconv : TransGen (Edge g'.deps.imm) a b ↔ TransGen (lvReads S S.eqs) a b := by
        rw [himm2]
        exact ⟨trans_mono fun x y hxy => (himm' x y).1 hxy, trans_mono fun x y hxy => (himm' x y).2 hxy⟩
      by_cases hl : 1 < g.all.length
      · rw [(hg'.strict (hd hl)).2, hconv]
      · -- the sort is skipped
        have : g' = g := by
          unfold DepGroup.topoSort at e'
          rw [if_pos (by omega)] at e'
          cases e'; rfl
        subst this
        rw [hg.full, hconv]
    · exact absurd (trans_mono (fun a b hab => (himm' a b).1 hab) hx) (hac x)
  · rw [e]
    refine .inr ⟨rfl, x, trans_mono (fun a b hab => ?_) hx⟩
    simpa using hab

theorem addItem_mem {α : Type} [DecidableEq α] {g : DepGroup α} {a : α} (h : a ∈ g.all) : g.addItem a = g := by
  unfold DepGroup.addItem; rw [if_pos h]

theorem userGroup_spec (S : EqSys ε Λ κ ν) (l : List (ε × ε)) (g : DepGroup ε) (hg : g.Ok)
    (hl : ∀ p ∈ l, p.1 ∈ g.all ∧ p.2 ∈ g.all) :
    (∃ g', l.foldlM (fun (g : DepGroup ε) p => g.setImm S.scr p.1 p.2) g = .ok g' ∧ g'.Ok ∧ g'.all = g.all ∧
      (∀ x y, y ∈ g'.deps.imm x ↔ y ∈ g.deps.imm x ∨ (x, y) ∈ l)) ∨
    (l.foldlM (fun (g : DepGroup ε) p => g.setImm S.scr p.1 p.2) g = .throws ∧ ∃ x, (x, x) ∈ l) := by
  induction l generalizing g with
  | nil => exact .inl ⟨g, rfl, hg, rfl, by simp⟩
  | cons p l ih =>
    rw [List.foldlM_cons]
    obtain ⟨p1, p2⟩ := p
    by_cases hp : p1 = p2
    · refine .inr ⟨by simp [DepGroup.setImm, hp], p1, ?_⟩
      rw [← hp]; exact List.mem_cons_self
    · obtain ⟨g1, e1, hg1, himm, -, -, hal⟩ := hg.setImm S.scr hp
      obtain ⟨h1, h2⟩ := hl (p1, p2) List.mem_cons_self
      have hall : g1.all = g.all := by
        rw [hal, addItem_mem h1, addItem_mem h2]
      rw [show g.setImm S.scr (p1, p2).1 (p1, p2).2 = .ok g1 from e1]
      simp only [Outcome.bind_ok]
      rcases ih g1 hg1 (by rw [hall]; exact fun q hq => hl q (List.mem_cons_of_mem _ hq)) with
        ⟨g', e', hg', hall', himm'⟩ | ⟨e', x, hx⟩
      · refine .inl ⟨g', e', hg', hall'.trans hall, fun x y => ?_⟩
        rw [himm', himm, List.mem_cons, or_assoc, Prod.mk.injEq]
      · exact .inr ⟨e', x, List.mem_cons_of_mem _ hx⟩

theorem eqRow_spec (S : EqSys ε Λ κ ν) (lv : DepGroup Λ) (e1 : ε) (l : List ε) (g : DepGroup ε) (hg : g.Ok)
    (he1 : e1 ∈ g.all) (hl : ∀ e ∈ l, e ∈ g.all) :
    (∃ g', l.foldlM (S.eqStep lv e1) g = .ok g' ∧ g'.Ok ∧ g'.all = g.all ∧
      (∀ x y, y ∈ g'.deps.imm x ↔ y ∈ g.deps.imm x ∨ (x ∈ l ∧ y = e1 ∧ x ≠ e1 ∧ S.findDeps = true ∧
        lv.deps.isDepOn (S.lhs x) (S.lhs e1) = true)) ∧
      ∀ e2 ∈ l, e1 ≠ e2 → S.clash e1 e2 = false) ∨
    (l.foldlM (S.eqStep lv e1) g = .throws ∧ ∃ e2 ∈ l, e1 ≠ e2 ∧ S.clash e1 e2 = true) := by
  induction l generalizing g with
  | nil => exact .inl ⟨g, rfl, hg, rfl, by simp, by simp⟩
  | cons e2 l ih =>
    rw [List.foldlM_cons]
    have hl' : ∀ e ∈ l, e ∈ g.all := fun e he => hl e (List.mem_cons_of_mem _ he)
    -- the step of `e2` and what it adds
    have step : ∀ g1 : DepGroup ε, g1.Ok → g1.all = g.all →
        (∀ x y, y ∈ g1.deps.imm x ↔ y ∈ g.deps.imm x ∨ (x = e2 ∧ y = e1 ∧ e2 ≠ e1 ∧ S.findDeps = true ∧
          lv.deps.isDepOn (S.lhs e2) (S.lhs e1) = true)) →
        (e1 ≠ e2 → S.clash e1 e2 = false) →
        (∃ g', l.foldlM (S.eqStep lv e1) g1 = .ok g' ∧ g'.Ok ∧ g'.all = g.all ∧
        (∀ x y, y ∈ g'.deps.imm x ↔ y ∈ g.deps.imm x ∨ (x ∈ e2 :: l ∧ y = e1 ∧ x ≠ e1 ∧ S.findDeps = true ∧
          lv.deps.isDepOn (S.lhs x) (S.lhs e1) = true)) ∧
        ∀ e ∈ e2 :: l, e1 ≠ e → S.clash e1 e = false) ∨
        (l.foldlM (S.eqStep lv e1) g1 = .throws ∧ ∃ e ∈ e2 :: l, e1 ≠ e ∧ S.clash e1 e = true) := by
      intro g1 hg1 hall himm hcl
      rcases ih g1 hg1 (hall ▸ he1) (hall ▸ hl') with ⟨g', e', hg', hall', himm', hcl'⟩ | ⟨e', e, he, h⟩
      · refine .inl ⟨g', e', hg', hall'.trans hall, fun x y => ?_, ?_⟩
        · rw [himm', himm, or_assoc]
          refine or_congr Iff.rfl ?_
          constructor
          · rintro (⟨rfl, h⟩ | ⟨h, h'⟩)
            · exact ⟨List.mem_cons_self, h⟩
            · exact ⟨List.mem_cons_of_mem _ h, h'⟩
          · rintro ⟨h, h'⟩
            rcases List.mem_cons.1 h with rfl | h
            · exact .inl ⟨rfl, h'⟩
            · exact .inr ⟨h, h'⟩
        · intro e he
          rcases List.mem_cons.1 he with rfl | he
          · exact hcl
          · exact hcl' e he
      · exact .inr ⟨e', e, List.mem_cons_of_mem _ he, h⟩
    rw [show S.eqStep lv e1 g e2 = if e1 = e2 then .ok g else if S.clash e1 e2 then .throws
      else if !S.findDeps then .ok g
      else if lv.deps.isDepOn (S.lhs e2) (S.lhs e1) then g.setImm S.scr e2 e1 else .ok g from rfl]
    by_cases h1 : e1 = e2
    · rw [if_pos h1]
      simp only [Outcome.bind_ok]
      exact step g hg rfl (fun x y => by simp [h1]) (fun h => absurd h1 h)
    rw [if_neg h1]
    by_cases h2 : S.clash e1 e2 = true
    · rw [if_pos h2]
      exact .inr ⟨rfl, e2, List.mem_cons_self, h1, h2⟩
    rw [if_neg h2]
    have h2' : S.clash e1 e2 = false := by simpa using h2
    by_cases h3 : (!S.findDeps) = true
    · rw [if_pos h3]
      simp only [Outcome.bind_ok]
      have h3' : S.findDeps = false := by simpa using h3
      exact step g hg rfl (fun x y => by simp [h3']) (fun _ => h2')
    rw [if_neg h3]
    have h3' : S.findDeps = true := by simpa using h3
    by_cases h4 : lv.deps.isDepOn (S.lhs e2) (S.lhs e1) = true
    · rw [if_pos h4]
      obtain ⟨g1, eg, hg1, himm, -, -, hal⟩ := hg.setImm S.scr (Ne.symm h1)
      rw [eg]
      simp only [Outcome.bind_ok]
      refine step g1 hg1 ?_ (fun x y => ?_) (fun _ => h2')
      · rw [hal, addItem_mem (hl e2 List.mem_cons_self), addItem_mem he1]
      · rw [himm]
        simp [h3', h4, Ne.symm h1]
    · rw [if_neg h4]
      simp only [Outcome.bind_ok]
      exact step g hg rfl (fun x y => by simp [h4]) (fun _ => h2')

/-- The direct dependences between equations. -/
def eqDirect (S : EqSys ε Λ κ ν) (x y : ε) : Prop :=
  (x, y) ∈ S.user ∨ (S.findDeps = true ∧ x ∈ S.eqs ∧ y ∈ S.eqs ∧ x ≠ y ∧
    TransGen (lvReads S S.eqs) (S.lhs x) (S.lhs y))

theorem eqFold_spec (S : EqSys ε Λ κ ν) (lv : DepGroup Λ) {ord : List ε → List ε} (hord : ∀ l, (ord l).Perm l)
    (l : List ε) (hl : ∀ e ∈ l, e ∈ S.eqs) (g : DepGroup ε) (hg : g.Ok) (hall : g.all = S.eqs)
    (hne : l = [] → g.Closed) :
    (∃ g', l.foldlM (fun (g : DepGroup ε) e1 => do
        let g1 ← S.eqs.foldlM (S.eqStep lv e1) g
        g1.findAll ord) g = .ok g' ∧ g'.Closed ∧ g'.all = S.eqs ∧
      (∀ x y, y ∈ g'.deps.imm x ↔ y ∈ g.deps.imm x ∨ (x ∈ S.eqs ∧ y ∈ l ∧ x ≠ y ∧ S.findDeps = true ∧
        lv.deps.isDepOn (S.lhs x) (S.lhs y) = true)) ∧
      ∀ e1 ∈ l, ∀ e2 ∈ S.eqs, e1 ≠ e2 → S.clash e1 e2 = false) ∨
    (l.foldlM (fun (g : DepGroup ε) e1 => do
        let g1 ← S.eqs.foldlM (S.eqStep lv e1) g
        g1.findAll ord) g = .throws ∧
      ((∃ e1 ∈ l, ∃ e2 ∈ S.eqs, e1 ≠ e2 ∧ S.clash e1 e2 = true) ∨
        ∃ x, TransGen (fun x y => y ∈ g.deps.imm x ∨ (x ∈ S.eqs ∧ y ∈ l ∧ x ≠ y ∧ S.findDeps = true ∧
          lv.deps.isDepOn (S.lhs x) (S.lhs y) = true)) x x)) := by
  induction l generalizing g with
  | nil => exact .inl ⟨g, rfl, hne rfl, hall, by simp, by simp⟩
  | cons e1 l ih =>
    rw [List.foldlM_cons]
    rcases eqRow_spec S lv e1 S.eqs g hg (hall ▸ hl e1 List.mem_cons_self) (by rw [hall]; exact fun e h => h) with
      ⟨g1, eg1, hg1, hall1, himm1, hcl1⟩ | ⟨eg1, e2, he2, h⟩
    · rw [eg1]
      simp only [Outcome.bind_ok]
      have hrow : ∀ x y, (y ∈ g1.deps.imm x ∨ (x ∈ S.eqs ∧ y ∈ l ∧ x ≠ y ∧ S.findDeps = true ∧
          lv.deps.isDepOn (S.lhs x) (S.lhs y) = true)) ↔
          (y ∈ g.deps.imm x ∨ (x ∈ S.eqs ∧ y ∈ e1 :: l ∧ x ≠ y ∧ S.findDeps = true ∧
          lv.deps.isDepOn (S.lhs x) (S.lhs y) = true)) := by
        intro x y
        rw [himm1, or_assoc]
        refine or_congr Iff.rfl ?_
        constructor
        · rintro (⟨h1, rfl, h2⟩ | ⟨h1, h2, h3⟩)
          · exact ⟨h1, List.mem_cons_self, h2⟩
          · exact ⟨h1, List.mem_cons_of_mem _ h2, h3⟩
        · rintro ⟨h1, h2, h3⟩
          rcases List.mem_cons.1 h2 with rfl | h2
          · exact .inl ⟨h1, rfl, h3⟩
          · exact .inr ⟨h1, h2, h3⟩
      rcases closed_of_findAll hg1 hord with ⟨g2, e2, hg2, hall2, himm2, -⟩ | ⟨e2, x, hx⟩
      · rw [e2]
        simp only [Outcome.bind_ok]
        rcases ih (fun e he => hl e (List.mem_cons_of_mem _ he)) g2 hg2.ok (hall2.trans (hall1.trans hall))
          (fun _ => hg2) with ⟨g', e', hg', hall', himm', hcl'⟩ | ⟨e', h⟩
        · refine .inl ⟨g', e', hg', hall', fun x y => ?_, ?_⟩
          · rw [himm', himm2, hrow]
          · intro e he
            rcases List.mem_cons.1 he with rfl | he
            · exact hcl1
            · exact hcl' e he
        · refine .inr ⟨e', ?_⟩
          rcases h with ⟨a, ha, h⟩ | ⟨x, hx⟩
          · exact .inl ⟨a, List.mem_cons_of_mem _ ha, h⟩
          · refine .inr ⟨x, trans_mono (fun a b hab => ?_) hx⟩
            rw [himm2, hrow] at hab
            exact hab
      · rw [e2]
        exact .inr ⟨rfl, .inr ⟨x, trans_mono (fun a b hab => (hrow a b).1 (.inl hab)) hx⟩⟩
    · rw [eg1]
      exact .inr ⟨rfl, .inl ⟨e1, List.mem_cons_self, e2, he2, h⟩⟩

/-- What a system of equations must satisfy: the equations are different objects, and the user's dependences
are between them. -/
structure EqSys.Valid (S : EqSys ε Λ κ ν) : Prop where
  nd : S.eqs.Nodup
  user : ∀ p ∈ S.user, p.1 ∈ S.eqs ∧ p.2 ∈ S.eqs

theorem analyze_spec {S : EqSys ε Λ κ ν} (hS : S.Valid) {ordL : List Λ → List Λ} (hL : ∀ l, (ordL l).Perm l)
    {ordE : List ε → List ε} (hE : ∀ l, (ordE l).Perm l) :
    (∃ E, S.analyze ordL ordE = .ok E ∧ E.Closed ∧ E.all = S.eqs ∧
      (∀ x y, y ∈ E.deps.imm x ↔ eqDirect S x y) ∧ (∀ a, ¬ TransGen (lvReads S S.eqs) a a) ∧
      ∀ e1 ∈ S.eqs, ∀ e2 ∈ S.eqs, e1 ≠ e2 → S.clash e1 e2 = false) ∨
    (S.analyze ordL ordE = .throws ∧
      ((∃ e1 ∈ S.eqs, ∃ e2 ∈ S.eqs, e1 ≠ e2 ∧ S.clash e1 e2 = true) ∨
       (∃ a, TransGen (lvReads S S.eqs) a a) ∨ ∃ x, TransGen (eqDirect S) x x)) := by
  unfold EqSys.analyze EqSys.userGroup
  have h0 : DepGroup.Closed ({ all := S.eqs } : DepGroup ε) := closed_bare hS.nd
  rcases userGroup_spec S S.user { all := S.eqs } h0.ok hS.user with ⟨g, e, hg, hall, himm⟩ | ⟨e, x, hx⟩
  · rw [e]
    simp only [Outcome.bind_ok]
    rcases lvGroup_spec S hL with ⟨lv, e1, hlv, hac⟩ | ⟨e1, x, hx⟩
    · rw [e1]
      simp only [Outcome.bind_ok]
      unfold EqSys.eqGroup
      have himm' : ∀ x y, y ∈ g.deps.imm x ↔ (x, y) ∈ S.user := by intro x y; rw [himm]; simp
      have hrel : ∀ x y, (y ∈ g.deps.imm x ∨ (x ∈ S.eqs ∧ y ∈ S.eqs ∧ x ≠ y ∧ S.findDeps = true ∧
          lv.deps.isDepOn (S.lhs x) (S.lhs y) = true)) ↔ eqDirect S x y := by
        intro x y
        unfold eqDirect
        rw [himm', hlv]
        refine or_congr Iff.rfl ?_
        tauto
      rcases eqFold_spec S lv hE S.eqs (fun _ h => h) g hg hall (by
          intro he
          have hu : S.user = [] := by
            apply List.eq_nil_iff_forall_not_mem.2
            intro p hp
            have := (hS.user p hp).1
            rw [he] at this
            simp at this
          have : g = { all := S.eqs } := by
            rw [hu] at e
            simp at e
            exact e.symm
          rw [this]
          exact h0) with ⟨E, e2, hE1, hE2, hE3, hE4⟩ | ⟨e2, h⟩
      · refine .inl ⟨E, e2, hE1, hE2, fun x y => ?_, hac, hE4⟩
        rw [hE3, hrel]
      · refine .inr ⟨e2, ?_⟩
        rcases h with h | ⟨x, hx⟩
        · exact .inl h
        · exact .inr (.inr ⟨x, trans_mono (fun a b hab => (hrel a b).1 hab) hx⟩)
    · rw [e1]
      exact .inr ⟨rfl, .inr (.inl ⟨x, hx⟩)⟩
  · rw [e]
    exact .inr ⟨rfl, .inr (.inr ⟨x, .single (.inl hx)⟩)⟩

/-- Without dependences added by the user, the direct dependences are transitive. -/
theorem eqDirect_trans {S : EqSys ε Λ κ ν} (hu : S.user = []) (hac : ∀ a, ¬ TransGen (lvReads S S.eqs) a a)
    (x y z : ε) (h1 : eqDirect S x y) (h2 : eqDirect S y z) : eqDirect S x z := by
  unfold eqDirect at *
  rw [hu] at *
  rcases h1 with h1 | ⟨f, a1, a2, a3, a4⟩
  · simp at h1
  rcases h2 with h2 | ⟨-, b1, b2, b3, b4⟩
  · simp at h2
  refine .inr ⟨f, a1, b2, ?_, a4.trans b4⟩
  rintro rfl
  exact hac _ (a4.trans b4)

end Yask.Comp
