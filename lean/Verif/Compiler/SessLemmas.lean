import Verif.Compiler.SessModel
import Verif.Compiler.AnalyzeLemmas
import Verif.Compiler.HaloLemmas

/-! Helper lemmas: an analysis finds what an earlier one has kept. -/

namespace Yask.Comp
open Relation Dims
set_option linter.unusedSectionVars false

/-! ### Dims -/

theorem addDims_step (l : List (Bool × String × Kind)) : ∀ (f0 f : Found String) (d : String), f0.step = some d → addDims f0 l = .ok f → f.step = some d := by
  induction l with
  | nil => intro f0 f d h0 h; cases h; exact h0
  | cons a l ih =>
    obtain ⟨s, d', k⟩ := a
    intro f0 f d h0 h
    cases k with
    | step =>
      by_cases hd : d = d'
      · subst hd
        by_cases hs : s = true
        · simp [addDims, addDim, h0, hs, Bind.bind, Outcome.bind] at h
        · rw [Bool.not_eq_true] at hs
          subst hs
          simp only [addDims, addDim, h0, Option.any_some, ne_eq, not_true_eq_false, decide_false, Bool.false_eq_true, if_false, Outcome.bind_ok] at h
          exact ih _ f d rfl h
      · simp [addDims, addDim, h0, hd, Bind.bind, Outcome.bind] at h
    | domain => simp only [addDims, addDim, Outcome.bind_ok] at h; exact ih _ f d (by exact h0) h
    | misc => simp only [addDims, addDim, Outcome.bind_ok] at h; exact ih _ f d (by exact h0) h

theorem addDims_kept (l : List (Bool × String × Kind)) : ∀ (f0 f : Found String) (d : String), addDims f0 l = .ok f → f.step = some d →
    addDims { f0 with step := some d } l = .ok f := by
  induction l with
  | nil => intro f0 f d h hd; cases h; rw [← hd]; rfl
  | cons a l ih =>
    obtain ⟨s, d', k⟩ := a
    intro f0 f d h hd
    cases k with
    | step =>
      by_cases h1 : f0.step.any (· ≠ d') = true
      · simp only [addDims, addDim] at h
        rw [if_pos h1] at h
        cases h
      · by_cases hs : s = true
        · simp [addDims, addDim, h1, hs, Bind.bind, Outcome.bind] at h
        · simp only [addDims, addDim, h1, hs, if_false, Outcome.bind_ok, Bool.false_eq_true] at h
          have hd' : d = d' := by
            have := addDims_step l _ f d' rfl h
            rw [hd] at this; exact Option.some.inj this
          subst hd'
          simp only [addDims, addDim, hs, Option.any_some, ne_eq, not_true_eq_false, decide_false, Bool.false_eq_true, if_false, Outcome.bind_ok]
          exact h
    | domain => simp only [addDims, addDim, Outcome.bind_ok] at h ⊢; exact ih _ f d h hd
    | misc => simp only [addDims, addDim, Outcome.bind_ok] at h ⊢; exact ih _ f d h hd

theorem findDims_kept {step : Option String} {domain : List String} {vars : List (DVar String)} {f : Found String}
    (h : Dims.findDims step domain vars = .ok f) : Dims.findDims (step.or f.step) domain vars = .ok f := by
  cases step with
  | some d => exact h
  | none =>
    unfold Dims.findDims at h ⊢
    cases e : addDims (explicit none domain) (allDims vars) with
    | throws => rw [e] at h; cases h
    | undefined => rw [e] at h; cases h
    | ok f' =>
      rw [e] at h
      simp only [Outcome.bind_ok] at h
      have hf : f' = f := by
        split at h
        · cases h
        · split at h
          · cases h
          · cases h; rfl
      subst hf
      obtain ⟨d, hd⟩ : ∃ d, f'.step = some d := by
        cases hs : f'.step with
        | some d => exact ⟨d, rfl⟩
        | none => rw [hs] at h; simp at h
      have := addDims_kept _ _ _ d e hd
      rw [hd]
      change ((addDims { explicit none domain with step := some d } (allDims vars)).bind _) = _
      rw [this]
      exact h

theorem findDims_some {step : Option String} {domain : List String} {vars : List (DVar String)} {f : Found String}
    (h : Dims.findDims step domain vars = .ok f) : f.domain ≠ [] := by
  unfold Dims.findDims at h
  cases e : addDims (explicit step domain) (allDims vars) with
  | throws => rw [e] at h; cases h
  | undefined => rw [e] at h; cases h
  | ok f' =>
    rw [e] at h
    simp only [Outcome.bind_ok] at h
    split at h
    · cases h
    · split at h
      · cases h
      · rename_i h1; cases h; exact h1

theorem innerDim_mem {domain : List String} (h : domain ≠ []) (i : InnerOpt String) : innerDim domain i ∈ domain := by
  have hl : 0 < domain.length := List.length_pos_iff.2 h
  have hg : ∀ n < domain.length, domain.getD n default ∈ domain := by
    intro n hn
    rw [List.getD_eq_getElem?_getD, List.getElem?_eq_getElem hn]
    exact List.getElem_mem _
  cases i with
  | unset => exact hg _ (by omega)
  | num n => exact hg _ (by omega)
  | name d =>
    change (if d ∈ domain then d else domain.getD (domain.length - 1) default) ∈ domain
    split
    · assumption
    · exact hg _ (by omega)

theorem innerDim_kept {domain : List String} (h : domain ≠ []) (i : InnerOpt String) :
    innerDim domain (.name (innerDim domain i)) = innerDim domain i := by
  exact if_pos (innerDim_mem h i)

/-! ### Step direction -/

section
variable {π : Type} [DecidableEq π]

theorem checkEq_scratch {D : CDims} {e : CEq π} (hs : e.lhs.var.scratch = true) (d d' : ℤ) :
    (checkEq D d e = .ok d ∧ checkEq D d' e = .ok d') ∨ (checkEq D d e = checkEq D d' e ∧ ∀ x, checkEq D d e ≠ .ok x) := by
  unfold checkEq checkDir
  simp only [hs, if_true, Outcome.bind_ok]
  split
  · exact .inr ⟨rfl, by simp⟩
  · split
    · exact .inr ⟨rfl, by simp⟩
    · cases checkAll (checkLhsArg D) (e.lhs.var.dims.zip e.lhs.args) with
      | throws => exact .inr ⟨rfl, by simp [Bind.bind, Outcome.bind]⟩
      | undefined => exact .inr ⟨rfl, by simp [Bind.bind, Outcome.bind]⟩
      | ok u =>
        simp only [Outcome.bind_ok]
        split
        · cases checkAll (fun p => checkAll (checkRhsArg D p.offsets) (p.var.dims.zip p.args)) e.rhs with
          | throws => exact .inr ⟨rfl, by simp [Bind.bind, Outcome.bind]⟩
          | undefined => exact .inr ⟨rfl, by simp [Bind.bind, Outcome.bind]⟩
          | ok u' => exact .inl ⟨rfl, rfl⟩
        · exact .inr ⟨rfl, by simp⟩

theorem checkEq_main {D : CDims} {e : CEq π} (hs : e.lhs.var.scratch = false) {d x : ℤ} (h : checkEq D d e = .ok x) :
    e.lhs.offsets.lookup D.step = some x ∧ (x = 1 ∨ x = -1) ∧ (d ≠ 0 → x = d) := by
  unfold checkEq at h
  split at h
  · cases h
  · split at h
    · cases h
    · cases e1 : checkAll (checkLhsArg D) (e.lhs.var.dims.zip e.lhs.args) with
      | throws => rw [e1] at h; cases h
      | undefined => rw [e1] at h; cases h
      | ok u =>
        rw [e1] at h
        simp only [Outcome.bind_ok] at h
        cases e2 : checkDir D d e with
        | throws => rw [e2] at h; cases h
        | undefined => rw [e2] at h; cases h
        | ok y =>
          rw [e2] at h
          simp only [Outcome.bind_ok] at h
          have hy : y = x := by
            split at h
            · cases e3 : checkAll (fun p => checkAll (checkRhsArg D p.offsets) (p.var.dims.zip p.args)) e.rhs with
              | throws => rw [e3] at h; cases h
              | undefined => rw [e3] at h; cases h
              | ok u' => rw [e3] at h; cases h; rfl
            · cases h
          subst hy
          unfold checkDir at e2
          rw [hs] at e2
          simp only [Bool.false_eq_true, if_false] at e2
          cases el : e.lhs.offsets.lookup D.step with
          | none => rw [el] at e2; cases e2
          | some l =>
            rw [el] at e2
            simp only at e2
            generalize hg : (if d = 0 ∧ l ≠ 0 then (if l > 0 then 1 else -1) else d) = g at e2
            by_cases hl : l ≠ 1 ∧ l ≠ -1
            · rw [if_pos hl] at e2; cases e2
            · rw [if_neg hl] at e2
              by_cases hne : l ≠ g
              · rw [if_pos hne] at e2; cases e2
              · rw [if_neg hne] at e2
                by_cases hr : e.rhs.any (lateRead D g l) = true
                · rw [if_pos hr] at e2; cases e2
                · rw [if_neg hr] at e2
                  have hy : g = y := Outcome.ok.inj e2
                  have hlg := not_not.1 hne
                  refine ⟨by rw [← hy, ← hlg], by omega, fun hd => ?_⟩
                  rw [← hy, ← hg, if_neg (by tauto)]

/-- The direction found by the first equation that is not a scratch equation is kept. -/
theorem checkEq_kept {D : CDims} {e : CEq π} (hs : e.lhs.var.scratch = false) {l : ℤ} (hl : e.lhs.offsets.lookup D.step = some l)
    (h1 : l = 1 ∨ l = -1) : checkEq D l e = checkEq D 0 e := by
  unfold checkEq checkDir
  simp only [hs, hl]
  have e1 : (if l = 0 ∧ l ≠ 0 then if l > 0 then 1 else -1 else l) = l := by rw [if_neg (by tauto)]
  have e2 : (if True ∧ l ≠ 0 then if l > 0 then (1 : ℤ) else -1 else 0) = l := by
    rw [if_pos ⟨trivial, by omega⟩]
    split_ifs <;> omega
  simp only [e1, Bool.false_eq_true, if_false]
  simp only [e2]

theorem checkEqs_const {D : CDims} (l : List (CEq π)) : ∀ {d x : ℤ}, d ≠ 0 → l.foldlM (checkEq D) d = .ok x → x = d := by
  induction l with
  | nil => intro d x _ h; cases h; rfl
  | cons e l ih =>
    intro d x hd h
    rw [List.foldlM_cons] at h
    cases e1 : checkEq D d e with
    | throws => rw [e1] at h; cases h
    | undefined => rw [e1] at h; cases h
    | ok y =>
      rw [e1] at h
      simp only [Outcome.bind_ok] at h
      have hy : y = d := by
        cases hs : e.lhs.var.scratch with
        | true =>
          rcases checkEq_scratch (D := D) hs d d with ⟨h1, -⟩ | ⟨-, h1⟩
          · rw [e1] at h1; cases h1; rfl
          · exact absurd e1 (h1 y)
        | false => exact (checkEq_main hs e1).2.2 hd
      rw [hy] at h
      exact ih hd h

/-- As in the code: the direction is 1 if no equation has set it. -/
def normDir (d : ℤ) : ℤ := if d = 0 then 1 else d

/-- If the checks have succeeded once, then they have the same result when they start with the direction found. -/
theorem checkEqs_kept {D D' : CDims} (hD : D'.step = D.step) (l : List (CEq π)) : ∀ {x : ℤ}, l.foldlM (checkEq D) 0 = .ok x →
    (∃ y, l.foldlM (checkEq D') (normDir x) = .ok y ∧ normDir y = normDir x ∧ ∃ z, l.foldlM (checkEq D') 0 = .ok z ∧ normDir z = normDir x) ∨
    (l.foldlM (checkEq D') (normDir x) = l.foldlM (checkEq D') 0 ∧ ∀ y, l.foldlM (checkEq D') 0 ≠ .ok y) := by
  induction l with
  | nil => intro x h; cases h; exact .inl ⟨1, rfl, rfl, 0, rfl, rfl⟩
  | cons e l ih =>
    intro x h
    rw [List.foldlM_cons] at h
    cases e1 : checkEq D 0 e with
    | throws => rw [e1] at h; cases h
    | undefined => rw [e1] at h; cases h
    | ok y =>
      rw [e1] at h
      simp only [Outcome.bind_ok] at h
      rw [List.foldlM_cons, List.foldlM_cons]
      cases hs : e.lhs.var.scratch with
      | true =>
        have hy : y = 0 := by
          rcases checkEq_scratch (D := D) hs 0 0 with ⟨h1, -⟩ | ⟨-, h1⟩
          · rw [e1] at h1; cases h1; rfl
          · exact absurd e1 (h1 y)
        subst hy
        rcases checkEq_scratch (D := D') hs (normDir x) 0 with ⟨h1, h2⟩ | ⟨h1, h2⟩
        · rw [h1, h2]
          simp only [Outcome.bind_ok]
          exact ih h
        · refine .inr ?_
          rw [← h1]
          cases e2 : checkEq D' (normDir x) e with
          | ok y => exact absurd e2 (h2 y)
          | throws => exact ⟨rfl, by simp [Bind.bind, Outcome.bind]⟩
          | undefined => exact ⟨rfl, by simp [Bind.bind, Outcome.bind]⟩
      | false =>
        obtain ⟨hl, h1, -⟩ := checkEq_main hs e1
        have hxy : x = y := checkEqs_const l (by omega) h
        have hn : normDir x = y := by unfold normDir; rw [if_neg (by omega), hxy]
        rw [hn, checkEq_kept hs (hD ▸ hl) h1]
        cases e2 : checkEq D' 0 e with
        | throws => exact .inr ⟨rfl, by simp [Bind.bind, Outcome.bind]⟩
        | undefined => exact .inr ⟨rfl, by simp [Bind.bind, Outcome.bind]⟩
        | ok z =>
          simp only [Outcome.bind_ok]
          have hz : z = y := by
            have := (checkEq_main hs e2).1
            rw [hD, hl] at this
            exact (Option.some.inj this).symm
          subst hz
          cases e3 : l.foldlM (checkEq D') z with
          | throws => exact .inr (by simp)
          | undefined => exact .inr (by simp)
          | ok w =>
            have := checkEqs_const l (by omega) e3
            subst this
            have hw : normDir w = w := by unfold normDir; rw [if_neg (by omega)]
            exact .inl ⟨w, rfl, hw, w, rfl, hw⟩

end

/-! ### Dependences -/

section
variable {α : Type} [DecidableEq α]

/-- The closure is there. -/
structure Deps.Full (d : Deps α) : Prop where
  ok : d.Ok
  done : d.done = true

theorem foldInsert_id (a : α) (bs l : List α) (h : ∀ b ∈ bs, b ≠ a → b ∈ l) :
    bs.foldl (fun l b => if a ≠ b then setInsert l b else l) l = l := by
  induction bs with
  | nil => rfl
  | cons b bs ih =>
    rw [List.foldl_cons]
    have : (if a ≠ b then setInsert l b else l) = l := by
      split
      · rename_i hb
        unfold setInsert
        rw [if_pos (h b List.mem_cons_self (Ne.symm hb))]
      · rfl
    rw [this]
    exact ih fun b' hb' => h b' (List.mem_cons_of_mem _ hb')

/-- Computing the closure again changes nothing. -/
theorem Deps.Full.again {d : Deps α} (h : d.Full) {ord : List α → List α} (hord : ∀ l, (ord l).Perm l) (b : Bool) :
    ({ d with done := b } : Deps α).findAll ord = .ok d := by
  have hd : ({ d with done := true } : Deps α) = d := by rw [← h.done]
  cases b with
  | true => rw [hd]; unfold Deps.findAll; rw [if_pos h.done]
  | false =>
    unfold Deps.findAll
    rw [if_neg (by simp)]
    have key : ∀ (as : List α), (∀ a ∈ as, a ∈ d.all) → as.foldlM (fun (full : α → List α) a => do
        let bs ← ({ d with done := false } : Deps α).visit ord true a
        .ok (fun x => if x = a then bs.foldl (fun l b => if a ≠ b then setInsert l b else l) (full a) else full x)) d.full = .ok d.full := by
      intro as
      induction as with
      | nil => intro _; rfl
      | cons a as ih =>
        intro has
        rw [List.foldlM_cons]
        rcases Deps.visit_spec h.ok hord true (has a List.mem_cons_self) with ⟨bs, e, hbs, -⟩ | ⟨-, x, hx⟩
        · have e' : ({ d with done := false } : Deps α).visit ord true a = .ok bs := e
          rw [e']
          simp only [Outcome.bind_ok]
          have : (fun x => if x = a then bs.foldl (fun l b => if a ≠ b then setInsert l b else l) (d.full a) else d.full x) = d.full := by
            funext x
            split
            · rename_i hx
              subst hx
              refine foldInsert_id _ _ _ fun b hb hne => ?_
              refine h.ok.complete h.done _ _ ?_
              rcases reflTransGen_iff_eq_or_transGen.1 ((hbs b).1 hb) with h' | h'
              · exact absurd h' hne
              · exact h'
            · rfl
          rw [this]
          exact ih fun a' ha' => has a' (List.mem_cons_of_mem _ ha')
        · exact absurd hx (h.ok.acyc h.done x)
    simp only
    rw [key _ fun a ha => (hord d.all).mem_iff.1 ha]
    simp only [Outcome.bind_ok]
    exact congrArg _ hd

/-- A group in which the closures may have to be computed. -/
def DepGroup.flags (g : DepGroup α) (b c : Bool) : DepGroup α :=
  { g with deps := { g.deps with done := b }, scr := { g.scr with done := c } }

structure DepGroup.Full (g : DepGroup α) : Prop where
  ok : g.Ok
  deps : g.deps.done = true
  scr : g.scr.done = true

theorem DepGroup.Full.flags_eq {g : DepGroup α} (h : g.Full) : g.flags true true = g := by
  unfold DepGroup.flags
  obtain ⟨all, deps, scr⟩ := g
  obtain ⟨a1, a2, a3, a4⟩ := deps
  obtain ⟨b1, b2, b3, b4⟩ := scr
  have h1 := h.deps
  have h2 := h.scr
  simp only at h1 h2
  subst h1 h2
  rfl

theorem DepGroup.Full.findAll {g : DepGroup α} (h : g.Full) {ord : List α → List α} (hord : ∀ l, (ord l).Perm l) (b c : Bool) :
    (g.flags b c).findAll ord = .ok g := by
  unfold DepGroup.findAll DepGroup.flags
  simp only
  rw [Deps.Full.again ⟨h.ok.deps, h.deps⟩ hord b]
  simp only [Outcome.bind_ok]
  rw [Deps.Full.again ⟨h.ok.scr, h.scr⟩ hord c]
  rfl

theorem setInsert_id {l : List α} {a : α} (h : a ∈ l) : setInsert l a = l := by unfold setInsert; rw [if_pos h]

theorem Deps.setImm_id {d : Deps α} {a b : α} (h1 : a ∈ d.all) (h2 : b ∈ d.all) (hb : b ∈ d.imm a) : d.setImm a b = { d with done := false } := by
  unfold Deps.setImm
  rw [setInsert_id h1, setInsert_id h2, setInsert_id hb]
  have : (fun x => if x = a then d.imm a else d.imm x) = d.imm := by
    funext x; split
    · rename_i e; rw [e]
    · rfl
  rw [this]

theorem addItem_id {g : DepGroup α} {a : α} (h : a ∈ g.all) : g.addItem a = g := by
  unfold DepGroup.addItem; rw [if_pos h]

/-- Declaring again what is known only leaves the closures to be computed again. -/
theorem DepGroup.Ok.setImm_id {g : DepGroup α} (h : g.Ok) (isScr : α → Bool) {a b : α} (hb : b ∈ g.deps.imm a)
    (hs : isScr b = true → b ∈ g.scr.imm a) (x y : Bool) : ∃ x' y', (g.flags x y).setImm isScr a b = .ok (g.flags x' y') := by
  have hne : a ≠ b := fun e => h.irr a (by rw [← e] at hb; exact hb)
  obtain ⟨ha, hb'⟩ := h.mem a b hb
  unfold DepGroup.setImm
  simp only
  rw [if_neg hne, addItem_id (g := g.flags x y) ha, addItem_id (g := g.flags x y) hb']
  have e1 : (g.flags x y).deps.setImm a b = { g.deps with done := false } :=
    Deps.setImm_id (d := (g.flags x y).deps) (h.deps.src a b hb) (h.deps.dst a b hb) hb
  rw [e1]
  by_cases hsc : isScr b = true
  · have e2 : (g.flags x y).scr.setImm a b = { g.scr with done := false } :=
      Deps.setImm_id (d := (g.flags x y).scr) (h.scr.src a b (hs hsc)) (h.scr.dst a b (hs hsc)) (hs hsc)
    rw [e2, if_pos hsc]
    exact ⟨false, false, rfl⟩
  · rw [if_neg hsc]
    exact ⟨false, y, rfl⟩

/-- What one group has, the other has. -/
structure DepGroup.Sub (g g' : DepGroup α) : Prop where
  all : ∀ a ∈ g.all, a ∈ g'.all
  deps : ∀ a, ∀ b ∈ g.deps.imm a, b ∈ g'.deps.imm a
  scr : ∀ a, ∀ b ∈ g.scr.imm a, b ∈ g'.scr.imm a

theorem DepGroup.Sub.refl (g : DepGroup α) : g.Sub g := ⟨fun _ h => h, fun _ _ h => h, fun _ _ h => h⟩
theorem DepGroup.Sub.trans {g1 g2 g3 : DepGroup α} (h : g1.Sub g2) (h' : g2.Sub g3) : g1.Sub g3 :=
  ⟨fun a x => h'.all a (h.all a x), fun a b x => h'.deps a b (h.deps a b x), fun a b x => h'.scr a b (h.scr a b x)⟩

/-- The pair is declared. -/
def DepGroup.Has (isScr : α → Bool) (g : DepGroup α) (a b : α) : Prop := b ∈ g.deps.imm a ∧ (isScr b = true → b ∈ g.scr.imm a)

theorem DepGroup.Has.mono {isScr : α → Bool} {g g' : DepGroup α} {a b : α} (h : g.Has isScr a b) (hs : g.Sub g') : g'.Has isScr a b :=
  ⟨hs.deps a b h.1, fun hb => hs.scr a b (h.2 hb)⟩

theorem sub_addItem (g : DepGroup α) (a : α) : g.Sub (g.addItem a) ∧ a ∈ (g.addItem a).all :=
  ⟨⟨fun _ h => mem_addItem.2 (.inl h), fun _ _ h => h, fun _ _ h => h⟩, mem_addItem.2 (.inr rfl)⟩

theorem Deps.setImm_sub (d : Deps α) (a b : α) : (∀ x, ∀ y ∈ d.imm x, y ∈ (d.setImm a b).imm x) ∧ b ∈ (d.setImm a b).imm a := by
  unfold Deps.setImm
  refine ⟨fun x y hy => ?_, ?_⟩
  · simp only
    split
    · rename_i e; subst e; exact mem_setInsert.2 (.inr hy)
    · exact hy
  · change b ∈ if a = a then setInsert (d.imm a) b else d.imm a
    rw [if_pos rfl]; exact mem_setInsert.2 (.inl rfl)

theorem setImm_sub {isScr : α → Bool} {g g' : DepGroup α} {a b : α} (h : g.setImm isScr a b = .ok g') : g.Sub g' ∧ g'.Has isScr a b := by
  unfold DepGroup.setImm at h
  simp only at h
  split at h
  · cases h
  · cases h
    have h1 := ((sub_addItem g a).1.trans (sub_addItem (g.addItem a) b).1)
    refine ⟨⟨h1.all, fun x y hy => (Deps.setImm_sub _ a b).1 x y hy, fun x y hy => ?_⟩, (Deps.setImm_sub _ a b).2, fun hs => ?_⟩
    · simp only
      split
      · exact (Deps.setImm_sub _ a b).1 x y hy
      · exact hy
    · simp only
      rw [if_pos hs]
      exact (Deps.setImm_sub _ a b).2

theorem setImm_ok {isScr : α → Bool} {g g' : DepGroup α} {a b : α} (hg : g.Ok) (h : g.setImm isScr a b = .ok g') : g'.Ok := by
  by_cases hab : a = b
  · unfold DepGroup.setImm at h
    simp only at h
    rw [if_pos hab] at h
    cases h
  · obtain ⟨g1, e, o, -⟩ := hg.setImm isScr hab
    rw [e] at h
    cases h
    exact o

theorem Deps.findAll_imm {d d' : Deps α} {ord : List α → List α} (h : d.findAll ord = .ok d') : d'.imm = d.imm := by
  unfold Deps.findAll at h
  split at h
  · cases h; rfl
  · cases e : (ord d.all).foldlM (fun (full : α → List α) a => do
      let bs ← d.visit ord true a
      .ok (fun x => if x = a then bs.foldl (fun l b => if a ≠ b then setInsert l b else l) (full a) else full x)) d.full with
    | throws => rw [e] at h; cases h
    | undefined => rw [e] at h; cases h
    | ok f => rw [e] at h; cases h; rfl

theorem findAll_sub {g g' : DepGroup α} {ord : List α → List α} (h : g.findAll ord = .ok g') : g.Sub g' ∧ g'.Sub g := by
  unfold DepGroup.findAll at h
  cases e1 : g.deps.findAll ord with
  | throws => rw [e1] at h; cases h
  | undefined => rw [e1] at h; cases h
  | ok d =>
    rw [e1] at h
    simp only [Outcome.bind_ok] at h
    cases e2 : g.scr.findAll ord with
    | throws => rw [e2] at h; cases h
    | undefined => rw [e2] at h; cases h
    | ok s =>
      rw [e2] at h
      cases h
      have i1 := Deps.findAll_imm e1
      have i2 := Deps.findAll_imm e2
      exact ⟨⟨fun _ h => h, fun a b h => by simp only; rw [i1]; exact h, fun a b h => by simp only; rw [i2]; exact h⟩,
        ⟨fun _ h => h, fun a b h => by simp only at h; rw [i1] at h; exact h, fun a b h => by simp only at h; rw [i2] at h; exact h⟩⟩

/-- Sorting again changes nothing. -/
theorem topoSort_again {g : DepGroup α} (h : g.Full) {ord : List α → List α} (hord : ∀ l, (ord l).Perm l)
    (h0 : g.all.Pairwise (fun a b => ¬ TransGen (Edge g.deps.imm) a b)) : g.topoSort ord = .ok g := by
  rcases DepGroup.topoSort_spec h.ok hord with ⟨g', e, -, -, -, -, -, -, -, -, hall, -⟩ | ⟨-, x, hx⟩
  · have hall := hall h0
    rw [e]
    unfold DepGroup.topoSort at e
    split at e
    · cases e; rfl
    · have : g.findAll ord = .ok g := by
        have := h.findAll hord true true
        rw [h.flags_eq] at this
        exact this
      rw [this] at e
      simp only [Outcome.bind_ok] at e
      cases e2 : sortFrom g.deps g.all.length g.all with
      | throws => rw [e2] at e; cases e
      | undefined => rw [e2] at e; cases e
      | ok l =>
        rw [e2] at e
        cases e
        simp only at hall
        rw [hall]
  · exact absurd hx (h.ok.deps.acyc h.deps x)

end

section
variable {ε Λ κ ν : Type} [DecidableEq ε] [DecidableEq Λ] [DecidableEq κ] [DecidableEq ν]

/-! ### Logical vars -/

theorem lvRow_sub (S : EqSys ε Λ κ ν) (a : Λ) (rs : List Λ) : ∀ {g g' : DepGroup Λ}, g.Ok →
    rs.foldlM (fun (g : DepGroup Λ) r => (g.addItem r).setImm S.lvScr a r) g = .ok g' →
    g'.Ok ∧ g.Sub g' ∧ ∀ r ∈ rs, g'.Has S.lvScr a r := by
  induction rs with
  | nil => intro g g' hg h; cases h; exact ⟨hg, .refl _, by simp⟩
  | cons r rs ih =>
    intro g g' hg h
    rw [List.foldlM_cons] at h
    cases e : (g.addItem r).setImm S.lvScr a r with
    | throws => rw [e] at h; cases h
    | undefined => rw [e] at h; cases h
    | ok g1 =>
      rw [e] at h
      simp only [Outcome.bind_ok] at h
      have h1 := setImm_sub e
      have hg1 : g1.Ok := setImm_ok (hg.addItem r) e
      obtain ⟨o, s, hh⟩ := ih hg1 h
      refine ⟨o, ((sub_addItem g r).1.trans h1.1).trans s, fun r' hr' => ?_⟩
      rcases List.mem_cons.1 hr' with e' | hr'
      · subst e'; exact h1.2.mono s
      · exact hh r' hr'

theorem lvRow_again (S : EqSys ε Λ κ ν) (a : Λ) {G : DepGroup Λ} (hG : G.Ok) (rs : List Λ) (h : ∀ r ∈ rs, G.Has S.lvScr a r) : ∀ x y,
    ∃ x' y', rs.foldlM (fun (g : DepGroup Λ) r => (g.addItem r).setImm S.lvScr a r) (G.flags x y) = .ok (G.flags x' y') := by
  induction rs with
  | nil => intro x y; exact ⟨x, y, rfl⟩
  | cons r rs ih =>
    intro x y
    have hr := h r List.mem_cons_self
    rw [List.foldlM_cons, addItem_id (g := G.flags x y) (hG.mem a r hr.1).2]
    obtain ⟨x', y', e⟩ := hG.setImm_id S.lvScr hr.1 hr.2 x y
    rw [e]
    simp only [Outcome.bind_ok]
    exact ih (fun r' hr' => h r' (List.mem_cons_of_mem _ hr')) x' y'

/-- One equation (`Eqs.cpp:587-602`). -/
def lvEq (S : EqSys ε Λ κ ν) (ord : List Λ → List Λ) (g : DepGroup Λ) (e : ε) : Outcome (DepGroup Λ) := do
  let g1 ← (S.rhs e).foldlM (fun (g : DepGroup Λ) r => (g.addItem r).setImm S.lvScr (S.lhs e) r) (g.addItem (S.lhs e))
  g1.findAll ord

theorem lvEq_sub (S : EqSys ε Λ κ ν) {ord : List Λ → List Λ} (hord : ∀ l, (ord l).Perm l) {g g' : DepGroup Λ} {e : ε} (hg : g.Ok)
    (h : lvEq S ord g e = .ok g') : g'.Full ∧ g.Sub g' ∧ S.lhs e ∈ g'.all ∧ ∀ r ∈ S.rhs e, g'.Has S.lvScr (S.lhs e) r := by
  unfold lvEq at h
  cases e1 : (S.rhs e).foldlM (fun (g : DepGroup Λ) r => (g.addItem r).setImm S.lvScr (S.lhs e) r) (g.addItem (S.lhs e)) with
  | throws => rw [e1] at h; cases h
  | undefined => rw [e1] at h; cases h
  | ok g1 =>
    rw [e1] at h
    simp only [Outcome.bind_ok] at h
    obtain ⟨o, s, hh⟩ := lvRow_sub S _ _ (hg.addItem _) e1
    rcases DepGroup.findAll_spec o hord with ⟨g2, e2, o2, d2, -, -, -, -, c2⟩ | ⟨e2, -⟩
    · rw [e2] at h
      cases h
      have s2 := (findAll_sub e2).1
      refine ⟨⟨o2, d2, c2⟩, ((sub_addItem g _).1.trans s).trans s2, s2.all _ (s.all _ (sub_addItem g _).2), fun r hr => (hh r hr).mono s2⟩
    · rw [e2] at h; cases h

theorem lvEq_again (S : EqSys ε Λ κ ν) {ord : List Λ → List Λ} (hord : ∀ l, (ord l).Perm l) {G : DepGroup Λ} (hG : G.Full) {e : ε}
    (h1 : S.lhs e ∈ G.all) (h2 : ∀ r ∈ S.rhs e, G.Has S.lvScr (S.lhs e) r) : lvEq S ord G e = .ok G := by
  unfold lvEq
  rw [addItem_id h1]
  obtain ⟨x, y, e⟩ := lvRow_again S (S.lhs e) hG.ok _ h2 true true
  rw [hG.flags_eq] at e
  rw [e]
  simp only [Outcome.bind_ok]
  exact hG.findAll hord x y

theorem lvFold_sub (S : EqSys ε Λ κ ν) {ord : List Λ → List Λ} (hord : ∀ l, (ord l).Perm l) (l : List ε) : ∀ {g g' : DepGroup Λ}, g.Ok →
    l.foldlM (lvEq S ord) g = .ok g' →
    g'.Ok ∧ (l ≠ [] → g'.Full) ∧ (g.Full → g'.Full) ∧ g.Sub g' ∧ ∀ e ∈ l, S.lhs e ∈ g'.all ∧ ∀ r ∈ S.rhs e, g'.Has S.lvScr (S.lhs e) r := by
  induction l with
  | nil => intro g g' hg h; cases h; exact ⟨hg, by simp, id, .refl _, by simp⟩
  | cons e l ih =>
    intro g g' hg h
    rw [List.foldlM_cons] at h
    cases e1 : lvEq S ord g e with
    | throws => rw [e1] at h; cases h
    | undefined => rw [e1] at h; cases h
    | ok g1 =>
      rw [e1] at h
      simp only [Outcome.bind_ok] at h
      obtain ⟨f1, s1, a1, b1⟩ := lvEq_sub S hord hg e1
      obtain ⟨o, -, f, s, hh⟩ := ih f1.ok h
      refine ⟨o, fun _ => f f1, fun _ => f f1, s1.trans s, fun e' he' => ?_⟩
      rcases List.mem_cons.1 he' with e2 | he'
      · subst e2; exact ⟨s.all _ a1, fun r hr => (b1 r hr).mono s⟩
      · exact hh e' he'

theorem lvFold_again (S : EqSys ε Λ κ ν) {ord : List Λ → List Λ} (hord : ∀ l, (ord l).Perm l) {G : DepGroup Λ} (hG : G.Full) (l : List ε)
    (h : ∀ e ∈ l, S.lhs e ∈ G.all ∧ ∀ r ∈ S.rhs e, G.Has S.lvScr (S.lhs e) r) : l.foldlM (lvEq S ord) G = .ok G := by
  induction l with
  | nil => rfl
  | cons e l ih =>
    rw [List.foldlM_cons, lvEq_again S hord hG (h e List.mem_cons_self).1 (h e List.mem_cons_self).2]
    exact ih fun e' he' => h e' (List.mem_cons_of_mem _ he')

theorem lvFrom_fresh (S : EqSys ε Λ κ ν) (ord : List Λ → List Λ) : S.lvFrom ord {} = S.lvGroup ord := rfl

/-- Finding the dependences of logical vars again. -/
theorem lvFrom_again (S : EqSys ε Λ κ ν) {ord : List Λ → List Λ} (hord : ∀ l, (ord l).Perm l) {lv : DepGroup Λ} (h : S.lvFrom ord {} = .ok lv) :
    S.lvFrom ord lv = .ok lv := by
  have hdef : ∀ g : DepGroup Λ, S.lvFrom ord g = (do let g ← S.eqs.foldlM (lvEq S ord) g; g.topoSort ord) := fun _ => rfl
  rw [hdef] at h ⊢
  by_cases hn : S.eqs = []
  · rw [hn] at h ⊢
    simp only [List.foldlM_nil] at h ⊢
    have : lv = {} := by
      have h' : (DepGroup.topoSort ({} : DepGroup Λ) ord) = .ok lv := h
      simp only [DepGroup.topoSort, List.length_nil, Nat.zero_le, if_true] at h'
      cases h'; rfl
    subst this
    exact h
  cases e1 : S.eqs.foldlM (lvEq S ord) {} with
  | throws => rw [e1] at h; cases h
  | undefined => rw [e1] at h; cases h
  | ok g =>
    rw [e1] at h
    simp only [Outcome.bind_ok] at h
    obtain ⟨o, f, -, s, hh⟩ := lvFold_sub S hord S.eqs (closed_bare (l := []) (by simp)).ok e1
    have hf := f hn
    rcases DepGroup.topoSort_spec o hord with ⟨g', e2, o', p, i1, i2, -, d1, pw, -, -, d2⟩ | ⟨e2, -⟩
    · rw [e2] at h
      have := Outcome.ok.inj h
      subst this
      have hF : g'.Full := ⟨o', d1 hf.deps, d2 hf.scr⟩
      rw [lvFold_again S hord hF S.eqs fun e he => ⟨p.mem_iff.2 (hh e he).1, fun r hr => by
        unfold DepGroup.Has
        rw [i1, i2]; exact (hh e he).2 r hr⟩]
      simp only [Outcome.bind_ok]
      exact topoSort_again hF hord (by rw [i1]; exact pw)
    · rw [e2] at h; cases h

/-! ### Equations -/

theorem eqRow_sub (S : EqSys ε Λ κ ν) (lv : DepGroup Λ) (e1 : ε) (l : List ε) : ∀ {g g' : DepGroup ε}, g.Ok →
    l.foldlM (S.eqStep lv e1) g = .ok g' → g'.Ok ∧ g.Sub g' ∧
    ∀ e2 ∈ l, e1 ≠ e2 → S.clash e1 e2 = false ∧ (S.findDeps = true → lv.deps.isDepOn (S.lhs e2) (S.lhs e1) = true → g'.Has S.scr e2 e1) := by
  induction l with
  | nil => intro g g' hg h; cases h; exact ⟨hg, .refl _, by simp⟩
  | cons e2 l ih =>
    intro g g' hg h
    rw [List.foldlM_cons] at h
    cases e : S.eqStep lv e1 g e2 with
    | throws => rw [e] at h; cases h
    | undefined => rw [e] at h; cases h
    | ok g1 =>
      rw [e] at h
      simp only [Outcome.bind_ok] at h
      have h1 : g1.Ok ∧ g.Sub g1 ∧ (e1 ≠ e2 → S.clash e1 e2 = false ∧ (S.findDeps = true → lv.deps.isDepOn (S.lhs e2) (S.lhs e1) = true → g1.Has S.scr e2 e1)) := by
        unfold EqSys.eqStep at e
        split at e
        · cases e; rename_i h'; exact ⟨hg, .refl _, fun h => absurd h' h⟩
        · split at e
          · cases e
          · rename_i hc
            have hc' : S.clash e1 e2 = false := by simpa using hc
            split at e
            · rename_i hf; cases e; exact ⟨hg, .refl _, fun _ => ⟨hc', fun h => by simp [h] at hf⟩⟩
            · split at e
              · have := setImm_sub e
                exact ⟨setImm_ok hg e, this.1, fun _ => ⟨hc', fun _ _ => this.2⟩⟩
              · rename_i hd; cases e; exact ⟨hg, .refl _, fun _ => ⟨hc', fun _ h => absurd h hd⟩⟩
      obtain ⟨o, s, hh⟩ := ih h1.1 h
      refine ⟨o, h1.2.1.trans s, fun e' he' hne => ?_⟩
      rcases List.mem_cons.1 he' with e3 | he'
      · subst e3
        exact ⟨(h1.2.2 hne).1, fun a b => ((h1.2.2 hne).2 a b).mono s⟩
      · exact hh e' he' hne

theorem eqRow_again (S : EqSys ε Λ κ ν) (lv : DepGroup Λ) (e1 : ε) {G : DepGroup ε} (hG : G.Ok) (l : List ε)
    (h : ∀ e2 ∈ l, e1 ≠ e2 → S.clash e1 e2 = false ∧ (S.findDeps = true → lv.deps.isDepOn (S.lhs e2) (S.lhs e1) = true → G.Has S.scr e2 e1)) : ∀ x y,
    ∃ x' y', l.foldlM (S.eqStep lv e1) (G.flags x y) = .ok (G.flags x' y') := by
  induction l with
  | nil => intro x y; exact ⟨x, y, rfl⟩
  | cons e2 l ih =>
    intro x y
    rw [List.foldlM_cons]
    have : ∃ x' y', S.eqStep lv e1 (G.flags x y) e2 = .ok (G.flags x' y') := by
      unfold EqSys.eqStep
      by_cases hne : e1 = e2
      · rw [if_pos hne]; exact ⟨x, y, rfl⟩
      · obtain ⟨hc, hd⟩ := h e2 List.mem_cons_self hne
        rw [if_neg hne, hc, if_neg (by simp)]
        split
        · exact ⟨x, y, rfl⟩
        · rename_i hf
          split
          · rename_i hi
            have := hd (by simpa using hf) hi
            exact hG.setImm_id S.scr this.1 this.2 x y
          · exact ⟨x, y, rfl⟩
    obtain ⟨x', y', e⟩ := this
    rw [e]
    simp only [Outcome.bind_ok]
    exact ih (fun e' he' => h e' (List.mem_cons_of_mem _ he')) x' y'

/-- The pairs of one equation with the others (`Eqs.cpp:607-711`). -/
def eqEq (S : EqSys ε Λ κ ν) (lv : DepGroup Λ) (ord : List ε → List ε) (g : DepGroup ε) (e1 : ε) : Outcome (DepGroup ε) := do
  let g1 ← S.eqs.foldlM (S.eqStep lv e1) g
  g1.findAll ord

/-- Nothing is left to declare. -/
def eqDone (S : EqSys ε Λ κ ν) (lv : DepGroup Λ) (e1 : ε) (G : DepGroup ε) : Prop := ∀ e2 ∈ S.eqs, e1 ≠ e2 →
  S.clash e1 e2 = false ∧ (S.findDeps = true → lv.deps.isDepOn (S.lhs e2) (S.lhs e1) = true → G.Has S.scr e2 e1)

theorem eqEq_sub (S : EqSys ε Λ κ ν) (lv : DepGroup Λ) {ord : List ε → List ε} (hord : ∀ l, (ord l).Perm l) {g g' : DepGroup ε} {e1 : ε} (hg : g.Ok)
    (h : eqEq S lv ord g e1 = .ok g') : g'.Full ∧ g.Sub g' ∧ eqDone S lv e1 g' := by
  unfold eqEq at h
  cases e : S.eqs.foldlM (S.eqStep lv e1) g with
  | throws => rw [e] at h; cases h
  | undefined => rw [e] at h; cases h
  | ok g1 =>
    rw [e] at h
    simp only [Outcome.bind_ok] at h
    obtain ⟨o, s, hh⟩ := eqRow_sub S lv e1 _ hg e
    rcases DepGroup.findAll_spec o hord with ⟨g2, e2, o2, d2, -, -, -, -, c2⟩ | ⟨e2, -⟩
    · rw [e2] at h
      cases h
      have s2 := (findAll_sub e2).1
      exact ⟨⟨o2, d2, c2⟩, s.trans s2, fun e2 he2 hne => ⟨(hh e2 he2 hne).1, fun a b => ((hh e2 he2 hne).2 a b).mono s2⟩⟩
    · rw [e2] at h; cases h

theorem eqFold_sub (S : EqSys ε Λ κ ν) (lv : DepGroup Λ) {ord : List ε → List ε} (hord : ∀ l, (ord l).Perm l) (l : List ε) : ∀ {g g' : DepGroup ε}, g.Ok →
    l.foldlM (eqEq S lv ord) g = .ok g' → (l ≠ [] → g'.Full) ∧ (g.Full → g'.Full) ∧ g.Sub g' ∧ ∀ e ∈ l, eqDone S lv e g' := by
  induction l with
  | nil => intro g g' hg h; cases h; exact ⟨by simp, id, .refl _, by simp⟩
  | cons e l ih =>
    intro g g' hg h
    rw [List.foldlM_cons] at h
    cases e1 : eqEq S lv ord g e with
    | throws => rw [e1] at h; cases h
    | undefined => rw [e1] at h; cases h
    | ok g1 =>
      rw [e1] at h
      simp only [Outcome.bind_ok] at h
      obtain ⟨f1, s1, b1⟩ := eqEq_sub S lv hord hg e1
      obtain ⟨-, f, s, hh⟩ := ih f1.ok h
      refine ⟨fun _ => f f1, fun _ => f f1, s1.trans s, fun e' he' => ?_⟩
      rcases List.mem_cons.1 he' with e2 | he'
      · subst e2; exact fun e2 he2 hne => ⟨(b1 e2 he2 hne).1, fun a b => ((b1 e2 he2 hne).2 a b).mono s⟩
      · exact hh e' he'

/-- Finding the dependences of the equations again. -/
theorem eqGroup_again (S : EqSys ε Λ κ ν) (lv : DepGroup Λ) {ord : List ε → List ε} (hord : ∀ l, (ord l).Perm l) {g g' : DepGroup ε} (hg : g.Ok)
    (h : S.eqGroup lv g ord = .ok g') : S.eqGroup lv g' ord = .ok g' := by
  have hdef : ∀ g : DepGroup ε, S.eqGroup lv g ord = S.eqs.foldlM (eqEq S lv ord) g := fun _ => rfl
  rw [hdef] at h ⊢
  obtain ⟨f, -, -, hh⟩ := eqFold_sub S lv hord _ hg h
  have key : ∀ l : List ε, (∀ e ∈ l, e ∈ S.eqs) → l.foldlM (eqEq S lv ord) g' = .ok g' := by
    intro l
    induction l with
    | nil => intro _; rfl
    | cons e l ih =>
      intro hl
      have he := hl e List.mem_cons_self
      have hF : g'.Full := f (List.ne_nil_of_mem he)
      have : eqEq S lv ord g' e = .ok g' := by
        unfold eqEq
        obtain ⟨x, y, e1⟩ := eqRow_again S lv e hF.ok S.eqs (hh e he) true true
        rw [hF.flags_eq] at e1
        rw [e1]
        simp only [Outcome.bind_ok]
        exact hF.findAll hord x y
      rw [List.foldlM_cons, this]
      exact ih fun e' he' => hl e' (List.mem_cons_of_mem _ he')
  exact key _ fun _ h => h

/-! ### An output -/

variable {π : Type} [DecidableEq π]

/-- What is kept after a successful output. -/
structure CKept.Inv (s : CSrc π ε Λ κ ν) (o : Orders ε Λ) (k k0 : CKept ε Λ) : Prop where
  ex : ∃ f d D, s.findDims none = .ok f ∧ k.step = f.step ∧ k.inner = .name (innerDim f.domain k0.inner) ∧
    D.step = f.step.getD "" ∧ s.cs.foldlM (checkEq D) 0 = .ok d ∧ k.dir = normDir d
  lv : s.sys.lvFrom o.lv {} = .ok k.lv
  eqs : s.sys.eqGroup k.lv k0.eqs o.eqs = .ok k.eqs

theorem output_ok {s : CSrc π ε Λ κ ν} {o : Orders ε Λ} {t : Target} {k k' : CKept ε Λ} {r : COut ε} (h : s.output o t k = .ok (r, k')) :
    ∃ f fold d, s.findDims k.step = .ok f ∧ setFold f.domain t.req (innerDim f.domain k.inner) t.vlen t.eff = .ok fold ∧
      s.cs.foldlM (checkEq ⟨f.step.getD "", f.domain, ((f.domain.zip fold).filter fun e => decide (e.2 > 1)).map Prod.fst⟩) k.dir = .ok d ∧
      s.sys.lvFrom o.lv k.lv = .ok k'.lv ∧ s.sys.eqGroup k'.lv k.eqs o.eqs = .ok k'.eqs ∧ k'.step = f.step ∧
      k'.inner = .name (innerDim f.domain k.inner) ∧ k'.dir = normDir d := by
  unfold CSrc.output at h
  cases e1 : s.findDims k.step with
  | throws => rw [e1] at h; cases h
  | undefined => rw [e1] at h; cases h
  | ok f =>
  rw [e1] at h
  simp only [Outcome.bind_ok] at h
  cases e2 : setFold f.domain t.req (innerDim f.domain k.inner) t.vlen t.eff with
  | throws => rw [e2] at h; cases h
  | undefined => rw [e2] at h; cases h
  | ok fold =>
  rw [e2] at h
  simp only [Outcome.bind_ok] at h
  cases e3 : s.cs.foldlM (checkEq ⟨f.step.getD "", f.domain, ((f.domain.zip fold).filter fun e => decide (e.2 > 1)).map Prod.fst⟩) k.dir with
  | throws => rw [e3] at h; cases h
  | undefined => rw [e3] at h; cases h
  | ok d =>
  rw [e3] at h
  simp only [Outcome.bind_ok] at h
  cases e4 : s.sys.lvFrom o.lv k.lv with
  | throws => rw [e4] at h; cases h
  | undefined => rw [e4] at h; cases h
  | ok lv =>
  rw [e4] at h
  simp only [Outcome.bind_ok] at h
  cases e5 : s.sys.eqGroup lv k.eqs o.eqs with
  | throws => rw [e5] at h; cases h
  | undefined => rw [e5] at h; cases h
  | ok g =>
  rw [e5] at h
  simp only [Outcome.bind_ok] at h
  cases e6 : ({ s.sys with compat := s.compat k.halos } : EqSys ε Λ κ ν).makeParts g o.parts with
  | throws => rw [e6] at h; cases h
  | undefined => rw [e6] at h; cases h
  | ok P =>
  rw [e6] at h
  simp only [Outcome.bind_ok] at h
  cases e7 : ({ s.sys with compat := s.compat k.halos } : EqSys ε Λ κ ν).makeStages P o.stages with
  | throws => rw [e7] at h; cases h
  | undefined => rw [e7] at h; cases h
  | ok Q =>
  rw [e7] at h
  simp only [Outcome.bind_ok] at h
  have h' := congrArg Prod.snd (Outcome.ok.inj h)
  simp only at h'
  subst h'
  exact ⟨f, fold, d, rfl, e2, e3, rfl, e5, rfl, rfl, rfl⟩

theorem findDims_again {s : CSrc π ε Λ κ ν} {f : Found String} (h : s.findDims none = .ok f) : s.findDims f.step = .ok f := by
  unfold CSrc.findDims at h ⊢
  rw [Option.or_none] at h
  exact findDims_kept h

theorem inv_output {s : CSrc π ε Λ κ ν} {o : Orders ε Λ} (hL : ∀ l, (o.lv l).Perm l) (hE : ∀ l, (o.eqs l).Perm l) {k0 k k' : CKept ε Λ}
    (hk0 : k0.step = none ∧ k0.dir = 0 ∧ k0.lv = {} ∧ k0.eqs.Ok) (hk : k = k0 ∨ k.Inv s o k0) {t : Target} {ps ss : List Nat → List Nat} {r : COut ε}
    (h : s.output { o with parts := ps, stages := ss } t k = .ok (r, k')) : k'.Inv s o k0 := by
  obtain ⟨f, fold, d, e1, e2, e3, e4, e5, e6, e7, e8⟩ := output_ok h
  rcases hk with rfl | hk
  · rw [hk0.1] at e1
    rw [hk0.2.1] at e3
    rw [hk0.2.2.1] at e4
    exact ⟨⟨f, d, _, e1, e6, e7, rfl, e3, e8⟩, e4, e5⟩
  · obtain ⟨f', d', D, a1, a2, a3, a4, a5, a6⟩ := hk.ex
    have hf : f' = f := by
      have := findDims_again a1
      rw [← a2, e1] at this
      exact (Outcome.ok.inj this).symm
    subst hf
    have hi : innerDim f'.domain k.inner = innerDim f'.domain k0.inner := by
      rw [a3]
      exact innerDim_kept (by unfold CSrc.findDims at a1; exact findDims_some a1) _
    have hlv : k'.lv = k.lv := by
      have := lvFrom_again s.sys hL hk.lv
      rw [this] at e4
      exact (Outcome.ok.inj e4).symm
    have hg : k'.eqs = k.eqs := by
      have := eqGroup_again s.sys k.lv hE hk0.2.2.2 hk.eqs
      rw [hlv] at e5
      have e5' : s.sys.eqGroup k.lv k.eqs o.eqs = .ok k'.eqs := e5
      rw [this] at e5'
      exact (Outcome.ok.inj e5').symm
    refine ⟨?_, by rw [hlv]; exact hk.lv, by rw [hlv, hg]; exact hk.eqs⟩
    rw [a6] at e3
    rcases checkEqs_kept (D := D) (D' := ⟨f'.step.getD "", f'.domain, ((f'.domain.zip fold).filter fun (e : String × ℤ) => decide (e.2 > 1)).map Prod.fst⟩) a4.symm
      s.cs a5 with ⟨y, b1, b2, z, b3, b4⟩ | ⟨b1, b2⟩
    · rw [b1] at e3
      have hy := Outcome.ok.inj e3
      subst hy
      exact ⟨f', z, _, a1, e6, by rw [e7, hi], rfl, b3, by rw [e8, b2, b4]⟩
    · rw [b1] at e3
      exact absurd e3 (b2 d)

theorem userGroup_ok {S : EqSys ε Λ κ ν} (hS : S.Valid) {g : DepGroup ε} (h : S.userGroup = .ok g) : g.Ok := by
  unfold EqSys.userGroup at h
  rcases userGroup_spec S S.user { all := S.eqs } (closed_bare hS.nd).ok hS.user with ⟨g', e, o, -⟩ | ⟨e, -⟩
  · rw [e] at h; cases h; exact o
  · rw [e] at h; cases h

theorem inv_after {s : CSrc π ε Λ κ ν} {o : Orders ε Λ} (hL : ∀ l, (o.lv l).Perm l) (hE : ∀ l, (o.eqs l).Perm l) {k0 k : CKept ε Λ}
    (hk0 : k0.step = none ∧ k0.dir = 0 ∧ k0.lv = {} ∧ k0.eqs.Ok) {ts : List Target} (h : s.After o k0 ts k) : k = k0 ∨ k.Inv s o k0 := by
  induction h with
  | none => exact .inl rfl
  | output _ e ih => exact .inr (inv_output hL hE hk0 ih e)

theorem compat_bundle {s : CSrc π ε Λ κ ν} (hb : s.bundleScratch = true) (m m' : Nat → HVar) : s.compat m = s.compat m' := by
  funext a b
  unfold CSrc.compat
  rw [hb, Bool.true_or, Bool.true_or]

theorem output_again {s : CSrc π ε Λ κ ν} {o : Orders ε Λ} (hL : ∀ l, (o.lv l).Perm l) (hE : ∀ l, (o.eqs l).Perm l) (hb : s.bundleScratch = true)
    {k0 k : CKept ε Λ} (hk0 : k0.step = none ∧ k0.dir = 0 ∧ k0.lv = {} ∧ k0.eqs.Ok) (hk : k.Inv s o k0) (t : Target) :
    (s.output o t k).bind (fun r => .ok r.1) = (s.output o t k0).bind fun r => .ok r.1 := by
  obtain ⟨f, d, D, a1, a2, a3, a4, a5, a6⟩ := hk.ex
  have hi : innerDim f.domain k.inner = innerDim f.domain k0.inner := by
    rw [a3]
    exact innerDim_kept (by unfold CSrc.findDims at a1; exact findDims_some a1) _
  have e1 : s.findDims k.step = .ok f := by rw [a2]; exact findDims_again a1
  have e1' : s.findDims k0.step = .ok f := by rw [hk0.1]; exact a1
  unfold CSrc.output
  rw [e1, e1']
  simp only [Outcome.bind_ok]
  rw [hi]
  cases e2 : setFold f.domain t.req (innerDim f.domain k0.inner) t.vlen t.eff with
  | throws => rfl
  | undefined => rfl
  | ok fold =>
  simp only [Outcome.bind_ok]
  have e4 : s.sys.lvFrom o.lv k.lv = .ok k.lv := lvFrom_again s.sys hL hk.lv
  have e4' : s.sys.lvFrom o.lv k0.lv = .ok k.lv := by rw [hk0.2.2.1]; exact hk.lv
  have e5 : s.sys.eqGroup k.lv k.eqs o.eqs = .ok k.eqs := eqGroup_again s.sys k.lv hE hk0.2.2.2 hk.eqs
  rw [hk0.2.1, a6, compat_bundle hb k.halos k0.halos]
  rcases checkEqs_kept (D := D) (D' := ⟨f.step.getD "", f.domain, ((f.domain.zip fold).filter fun (e : String × ℤ) => decide (e.2 > 1)).map Prod.fst⟩) a4.symm
    s.cs a5 with ⟨y, b1, b2, z, b3, b4⟩ | ⟨b1, b2⟩
  · rw [b1, b3]
    simp only [Outcome.bind_ok]
    rw [e4, e4']
    simp only [Outcome.bind_ok]
    rw [e5, hk.eqs]
    simp only [Outcome.bind_ok]
    cases ({ s.sys with compat := s.compat k0.halos } : EqSys ε Λ κ ν).makeParts k.eqs o.parts with
    | throws => rfl
    | undefined => rfl
    | ok P =>
    simp only [Outcome.bind_ok]
    cases ({ s.sys with compat := s.compat k0.halos } : EqSys ε Λ κ ν).makeStages P o.stages with
    | throws => rfl
    | undefined => rfl
    | ok Q =>
    have hyz : (if y = 0 then 1 else y) = (if z = 0 then 1 else z) := by
      unfold normDir at b2 b4
      rw [b2, b4]
    simp only [Outcome.bind_ok, hyz]
    rfl
  · rw [b1]
    cases e3 : s.cs.foldlM (checkEq ⟨f.step.getD "", f.domain, ((f.domain.zip fold).filter fun e => decide (e.2 > 1)).map Prod.fst⟩) 0 with
    | ok y => exact absurd e3 (b2 y)
    | throws => rfl
    | undefined => rfl

end

/-! ### Halos -/

section
variable {κ : Type} [DecidableEq κ]

/-- The value is there. -/
def RHas (h : List (κ × Int)) (k : κ) (v : Int) : Prop := h.any (fun e => decide (e.1 = k)) = true ∧ ∀ e ∈ h, e.1 = k → v ≤ e.2

theorem raise_id {h : List (κ × Int)} {k : κ} {v : Int} (hr : RHas h k v) : raise h k v = h := by
  unfold raise
  rw [if_pos hr.1]
  conv_rhs => rw [← List.map_id h]
  refine List.map_congr_left fun e he => ?_
  split
  · rename_i hk
    have := hr.2 e he hk
    rw [if_neg (by omega)]; rfl
  · rfl

theorem raise_has (h : List (κ × Int)) (k : κ) (v : Int) : RHas (raise h k v) k v := by
  unfold raise
  split
  · rename_i ha
    refine ⟨?_, fun e he hk => ?_⟩
    · rw [List.any_eq_true] at ha ⊢
      obtain ⟨e, he, hk⟩ := ha
      exact ⟨_, List.mem_map.2 ⟨e, he, rfl⟩, by rw [if_pos (by simpa using hk)]; exact hk⟩
    · obtain ⟨e', he', rfl⟩ := List.mem_map.1 he
      by_cases h1 : e'.1 = k
      · rw [if_pos h1]
        simp only; split <;> omega
      · rw [if_neg h1] at hk; exact absurd hk h1
  · rename_i ha
    refine ⟨by simp, fun e he hk => ?_⟩
    rcases List.mem_append.1 he with he | he
    · exact absurd (List.any_eq_true.2 ⟨e, he, by simpa using hk⟩) ha
    · rw [List.mem_singleton] at he; subst he; exact le_refl _

theorem raise_keep {h : List (κ × Int)} {k' : κ} {v' : Int} (k : κ) (v : Int) (hr : RHas h k' v') : RHas (raise h k v) k' v' := by
  unfold raise
  split
  · refine ⟨?_, fun e he hk => ?_⟩
    · have := hr.1
      rw [List.any_eq_true] at this ⊢
      obtain ⟨e, he, hk⟩ := this
      refine ⟨_, List.mem_map.2 ⟨e, he, rfl⟩, ?_⟩
      split
      · exact hk
      · exact hk
    · obtain ⟨e', he', rfl⟩ := List.mem_map.1 he
      by_cases h1 : e'.1 = k
      · rw [if_pos h1] at hk ⊢
        have := hr.2 e' he' hk
        simp only; split <;> omega
      · rw [if_neg h1] at hk ⊢
        exact hr.2 e' he' hk
  · rename_i ha
    refine ⟨by rw [List.any_append, hr.1]; rfl, fun e he hk => ?_⟩
    rcases List.mem_append.1 he with he | he
    · exact hr.2 e he hk
    · rw [List.mem_singleton] at he
      subst he
      simp only at hk
      subst hk
      exact absurd hr.1 ha

theorem raise_keys (h : List (κ × Int)) (k : κ) (v : Int) (hn : (h.map Prod.fst).Nodup) : ((raise h k v).map Prod.fst).Nodup := by
  unfold raise
  split
  · rw [List.map_map]
    have : (h.map (Prod.fst ∘ fun e => if e.1 = k then (e.1, if v > e.2 then v else e.2) else e)) = h.map Prod.fst := by
      refine List.map_congr_left fun e _ => ?_
      simp only [Function.comp]
      split <;> rfl
    rw [this]; exact hn
  · rename_i ha
    rw [List.map_append, List.nodup_append]
    refine ⟨hn, by simp, fun a ha' b hb => ?_⟩
    rw [List.map_singleton, List.mem_singleton] at hb
    subst hb
    obtain ⟨e, he, rfl⟩ := List.mem_map.1 ha'
    intro hk
    exact ha (List.any_eq_true.2 ⟨e, he, by simpa using hk⟩)

theorem keys_has {h : List (κ × Int)} (hn : (h.map Prod.fst).Nodup) {e : κ × Int} (he : e ∈ h) : RHas h e.1 e.2 := by
  refine ⟨List.any_eq_true.2 ⟨e, he, by simp⟩, fun e' he' hk => ?_⟩
  have := List.inj_on_of_nodup_map hn he' he hk
  rw [this]

theorem foldl_raise_id {β : Type} (l : List β) (f : β → κ) (g : β → Int) {h : List (κ × Int)} (hr : ∀ b ∈ l, RHas h (f b) (g b)) :
    l.foldl (fun h b => raise h (f b) (g b)) h = h := by
  induction l with
  | nil => rfl
  | cons b l ih =>
    rw [List.foldl_cons, raise_id (hr b List.mem_cons_self)]
    exact ih fun b' hb' => hr b' (List.mem_cons_of_mem _ hb')

theorem foldl_raise_keep {β : Type} (l : List β) (f : β → κ) (g : β → Int) : ∀ {h : List (κ × Int)} {k : κ} {v : Int}, RHas h k v →
    RHas (l.foldl (fun h b => raise h (f b) (g b)) h) k v := by
  induction l with
  | nil => intro h k v hr; exact hr
  | cons b l ih => intro h k v hr; exact ih (raise_keep _ _ hr)

theorem foldl_raise_has {β : Type} (l : List β) (f : β → κ) (g : β → Int) : ∀ (h : List (κ × Int)), ∀ b ∈ l,
    RHas (l.foldl (fun h b => raise h (f b) (g b)) h) (f b) (g b) := by
  induction l with
  | nil => intro h b hb; cases hb
  | cons b l ih =>
    intro h b' hb'
    rcases List.mem_cons.1 hb' with rfl | hb'
    · exact foldl_raise_keep l f g (raise_has _ _ _)
    · exact ih _ b' hb'

theorem foldl_raise_keys {β : Type} (l : List β) (f : β → κ) (g : β → Int) : ∀ (h : List (κ × Int)), (h.map Prod.fst).Nodup →
    ((l.foldl (fun h b => raise h (f b) (g b)) h).map Prod.fst).Nodup := by
  induction l with
  | nil => intro h hn; exact hn
  | cons b l ih => intro h hn; exact ih _ (raise_keys _ _ _ hn)

end

/-- An access is accounted for. -/
structure HVar.Knows (v : HVar) (stage : Nat) (step : Option Int) (dom : List (String × Int)) : Prop where
  halos : ∀ d ∈ dom, RHas v.halos ⟨stage, decide (d.2 ≤ 0), step.getD 0, d.1⟩ (if d.2 < 0 then - d.2 else d.2)
  l1 : dom.foldl (fun n d => if d.2 ≠ 0 then n + 1 else n) 0 ≤ v.l1

theorem updateOfs_knows (v : HVar) (st : Nat) (s : Option Int) (dom : List (String × Int)) : (v.updateOfs st s dom).Knows st s dom :=
  ⟨fun d hd => foldl_raise_has dom _ _ _ d hd, le_max_right _ _⟩

theorem updateOfs_keep {v : HVar} {st st' : Nat} {s s' : Option Int} {dom dom' : List (String × Int)} (h : v.Knows st s dom) :
    (v.updateOfs st' s' dom').Knows st s dom :=
  ⟨fun d hd => foldl_raise_keep dom' _ _ (h.halos d hd), le_trans h.l1 (le_max_left _ _)⟩

theorem updateWrite_keep {v : HVar} {st st' : Nat} {s s' : Option Int} {dom : List (String × Int)} (h : v.Knows st s dom) :
    (v.updateWrite st' s').Knows st s dom := by
  cases s' with
  | none => exact h
  | some x => exact ⟨h.halos, h.l1⟩

theorem updateOfs_id {v : HVar} {st : Nat} {s : Option Int} {dom : List (String × Int)} (h : v.Knows st s dom) : v.updateOfs st s dom = v := by
  unfold HVar.updateOfs HVar.updateL1
  rw [foldl_raise_id dom _ _ h.halos]
  simp only [max_eq_left h.l1]

def HVar.Keys (v : HVar) : Prop := (v.halos.map Prod.fst).Nodup

theorem updateOfs_keys {v : HVar} (h : v.Keys) (st : Nat) (s : Option Int) (dom : List (String × Int)) : (v.updateOfs st s dom).Keys :=
  foldl_raise_keys dom _ _ _ h

theorem updateWrite_keys {v : HVar} (h : v.Keys) (st : Nat) (s : Option Int) : (v.updateWrite st s).Keys := by
  cases s with
  | none => exact h
  | some x => exact h

theorem updateVar_self {v : HVar} (h : v.Keys) : v.updateVar v = v := by
  unfold HVar.updateVar HVar.updateL1
  rw [foldl_raise_id v.halos _ _ fun e he => keys_has h he]
  simp only [max_self]

theorem setAt_all {β : Type} {P : Nat → β → Prop} {m : Nat → β} (h : ∀ v, P v (m v)) {i : Nat} {b : β} (hb : P i b) : ∀ v, P v (setAt m i b v) := by
  intro v
  unfold setAt
  split
  · rename_i e; subst e; exact hb
  · exact h v

/-- The accesses of one equation (`Eqs.cpp:1679-1695`). -/
def accesses (stage : Nat) (m : Nat → HVar) (ps : List Pt) : Nat → HVar :=
  ps.foldl (fun m p => setAt m p.var ((m p.var).updateOfs stage p.step p.dom)) m

theorem accesses_keep (stage : Nat) (ps : List Pt) {v st : Nat} {s : Option Int} {dom : List (String × Int)} : ∀ {m : Nat → HVar}, (m v).Knows st s dom →
    (accesses stage m ps v).Knows st s dom := by
  induction ps with
  | nil => intro m h; exact h
  | cons p ps ih =>
    intro m h
    refine ih (m := setAt m p.var ((m p.var).updateOfs stage p.step p.dom)) ?_
    unfold setAt
    split
    · rename_i e; subst e; exact updateOfs_keep h
    · exact h

theorem accesses_knows (stage : Nat) (ps : List Pt) : ∀ (m : Nat → HVar), ∀ p ∈ ps, (accesses stage m ps p.var).Knows stage p.step p.dom := by
  induction ps with
  | nil => intro m p hp; cases hp
  | cons p ps ih =>
    intro m p' hp'
    rcases List.mem_cons.1 hp' with rfl | hp'
    · refine accesses_keep stage ps (m := setAt m p'.var ((m p'.var).updateOfs stage p'.step p'.dom)) ?_
      unfold setAt
      rw [if_pos rfl]
      exact updateOfs_knows _ _ _ _
    · exact ih _ p' hp'

theorem setAt_id {β : Type} (m : Nat → β) (i : Nat) : setAt m i (m i) = m := by
  funext j; unfold setAt; split
  · rename_i e; rw [e]
  · rfl

theorem accesses_id (stage : Nat) (ps : List Pt) {m : Nat → HVar} (h : ∀ p ∈ ps, (m p.var).Knows stage p.step p.dom) : accesses stage m ps = m := by
  induction ps with
  | nil => rfl
  | cons p ps ih =>
    change accesses stage (setAt m p.var ((m p.var).updateOfs stage p.step p.dom)) ps = m
    rw [updateOfs_id (h p List.mem_cons_self), setAt_id]
    exact ih fun p' hp' => h p' (List.mem_cons_of_mem _ hp')

theorem accesses_keys (stage : Nat) (ps : List Pt) : ∀ {m : Nat → HVar}, (∀ v, (m v).Keys) → ∀ v, (accesses stage m ps v).Keys := by
  induction ps with
  | nil => intro m h; exact h
  | cons p ps ih => intro m h; exact ih (setAt_all (P := fun _ (b : HVar) => b.Keys) h (updateOfs_keys (h _) _ _ _))

theorem phase1Eq_def (st : Nat) (m : Nat → HVar) (e : PEq) :
    phase1Eq st m e = setAt (accesses st m (e.lhs :: e.rhs)) e.lhs.var ((accesses st m (e.lhs :: e.rhs) e.lhs.var).updateWrite st e.lhs.step) := rfl

/-- The equations with the stages for which they are looked at, in order. -/
def HSys.ops (S : HSys) : List (Nat × PEq) :=
  (S.stages.filter fun s => !s.scr).flatMap fun st => (S.reqd st).flatMap fun r => r.eqs.map fun e => (st.id, e)

theorem phase1From_ops (S : HSys) (m : Nat → HVar) : S.phase1From m = S.ops.foldl (fun m o => phase1Eq o.1 m o.2) m := by
  unfold HSys.phase1From HSys.ops
  rw [List.foldl_flatMap]
  congr 1
  funext m st
  rw [List.foldl_flatMap]
  congr 1
  funext m r
  rw [List.foldl_map]

theorem setAt_knows {m : Nat → HVar} {i st st' v : Nat} {s s' : Option Int} {dom : List (String × Int)} (h : (m v).Knows st s dom) :
    (setAt m i ((m i).updateWrite st' s') v).Knows st s dom := by
  unfold setAt
  split
  · rename_i e; subst e; exact updateWrite_keep h
  · exact h

theorem ops_keep (ops : List (Nat × PEq)) {v st : Nat} {s : Option Int} {dom : List (String × Int)} : ∀ {m : Nat → HVar}, (m v).Knows st s dom →
    (ops.foldl (fun m o => phase1Eq o.1 m o.2) m v).Knows st s dom := by
  induction ops with
  | nil => intro m h; exact h
  | cons o ops ih => intro m h; exact ih (setAt_knows (accesses_keep _ _ h))

theorem ops_knows (ops : List (Nat × PEq)) : ∀ (m : Nat → HVar), ∀ o ∈ ops, ∀ p ∈ o.2.lhs :: o.2.rhs,
    (ops.foldl (fun m o => phase1Eq o.1 m o.2) m p.var).Knows o.1 p.step p.dom := by
  induction ops with
  | nil => intro m o ho; cases ho
  | cons o ops ih =>
    intro m o' ho' p hp
    rcases List.mem_cons.1 ho' with rfl | ho'
    · exact ops_keep ops (setAt_knows (accesses_knows _ _ m p hp))
    · exact ih _ o' ho' p hp

theorem ops_keys (ops : List (Nat × PEq)) : ∀ {m : Nat → HVar}, (∀ v, (m v).Keys) → ∀ v, (ops.foldl (fun m o => phase1Eq o.1 m o.2) m v).Keys := by
  induction ops with
  | nil => intro m h; exact h
  | cons o ops ih =>
    intro m h
    refine ih (m := phase1Eq o.1 m o.2) ?_
    rw [phase1Eq_def]
    have := accesses_keys o.1 (o.2.lhs :: o.2.rhs) h
    exact setAt_all (P := fun _ (b : HVar) => b.Keys) this (updateWrite_keys (this _) _ _)

/-- The values that are used of what is kept in a var. -/
structure HVar.Same (a b : HVar) : Prop where
  halos : a.halos = b.halos
  l1 : a.l1 = b.l1
  writes : ∀ st, a.writes.lookup st = b.writes.lookup st

/-- The offset written last. -/
def lastWrite (ops : List (Nat × PEq)) (v st : Nat) (w : Option Int) : Option Int :=
  ops.foldl (fun w o => if o.1 = st ∧ o.2.lhs.var = v then o.2.lhs.step.or w else w) w

theorem lastWrite_idem (ops : List (Nat × PEq)) (v st : Nat) (w : Option Int) : lastWrite ops v st (lastWrite ops v st w) = lastWrite ops v st w := by
  have key : ∀ ops : List (Nat × PEq), (∃ x, ∀ w, lastWrite ops v st w = some x) ∨ ∀ w, lastWrite ops v st w = w := by
    intro ops
    induction ops with
    | nil => exact .inr fun w => rfl
    | cons o ops ih =>
      rcases ih with ⟨x, hx⟩ | h
      · exact .inl ⟨x, fun w => hx _⟩
      · by_cases ho : o.1 = st ∧ o.2.lhs.var = v
        · cases hs : o.2.lhs.step with
          | none =>
            refine .inr fun w => ?_
            change lastWrite ops v st (if o.1 = st ∧ o.2.lhs.var = v then o.2.lhs.step.or w else w) = w
            rw [if_pos ho, hs, h]; rfl
          | some y =>
            refine .inl ⟨y, fun w => ?_⟩
            change lastWrite ops v st (if o.1 = st ∧ o.2.lhs.var = v then o.2.lhs.step.or w else w) = some y
            rw [if_pos ho, hs, h]; rfl
        · refine .inr fun w => ?_
          change lastWrite ops v st (if o.1 = st ∧ o.2.lhs.var = v then o.2.lhs.step.or w else w) = w
          rw [if_neg ho, h]
  rcases key ops with ⟨x, hx⟩ | h
  · rw [hx, hx]
  · rw [h, h]

theorem updateOfs_writes (v : HVar) (st : Nat) (s : Option Int) (dom : List (String × Int)) : (v.updateOfs st s dom).writes = v.writes := rfl

theorem accesses_writes (stage : Nat) (ps : List Pt) : ∀ (m : Nat → HVar) (v : Nat), (accesses stage m ps v).writes = (m v).writes := by
  induction ps with
  | nil => intro m v; rfl
  | cons p ps ih =>
    intro m v
    change (accesses stage (setAt m p.var ((m p.var).updateOfs stage p.step p.dom)) ps v).writes = _
    rw [ih]
    unfold setAt
    split
    · rename_i e; subst e; rfl
    · rfl

theorem lookup_filter_ne (l : List (Nat × Int)) {st st' : Nat} (h : st ≠ st') : (l.filter fun w => decide (w.1 ≠ st')).lookup st = l.lookup st := by
  induction l with
  | nil => rfl
  | cons a l ih =>
    obtain ⟨k, x⟩ := a
    by_cases hk : k = st'
    · rw [List.filter_cons_of_neg (by simpa using hk), ih, List.lookup_cons]
      have : (st == k) = false := by rw [beq_eq_false_iff_ne]; exact fun e => h (e.trans hk)
      rw [this]
    · rw [List.filter_cons_of_pos (by simpa using hk), List.lookup_cons, List.lookup_cons, ih]

theorem updateWrite_lookup (v : HVar) (st' : Nat) (s : Option Int) (st : Nat) :
    (v.updateWrite st' s).writes.lookup st = if st' = st then s.or (v.writes.lookup st) else v.writes.lookup st := by
  cases s with
  | none => simp [HVar.updateWrite]
  | some x =>
    unfold HVar.updateWrite
    simp only
    rw [List.lookup_cons]
    by_cases h : st' = st
    · subst h; simp
    · have : (st == st') = false := by rw [beq_eq_false_iff_ne]; exact fun e => h e.symm
      rw [this, if_neg h]
      exact lookup_filter_ne _ (Ne.symm h)

theorem ops_writes (ops : List (Nat × PEq)) (v st : Nat) : ∀ m : Nat → HVar,
    (ops.foldl (fun m o => phase1Eq o.1 m o.2) m v).writes.lookup st = lastWrite ops v st ((m v).writes.lookup st) := by
  induction ops with
  | nil => intro m; rfl
  | cons o ops ih =>
    intro m
    rw [List.foldl_cons, ih]
    change _ = lastWrite ops v st (if o.1 = st ∧ o.2.lhs.var = v then o.2.lhs.step.or ((m v).writes.lookup st) else (m v).writes.lookup st)
    congr 1
    rw [phase1Eq_def]
    unfold setAt
    by_cases hv : v = o.2.lhs.var
    · subst hv
      rw [if_pos rfl, updateWrite_lookup, accesses_writes]
      simp
    · rw [if_neg hv, accesses_writes, if_neg (by intro h; exact hv h.2.symm)]

/-- If all accesses are accounted for, then only the order of the writes may change. -/
theorem ops_id (ops : List (Nat × PEq)) : ∀ {m : Nat → HVar}, (∀ o ∈ ops, ∀ p ∈ o.2.lhs :: o.2.rhs, (m p.var).Knows o.1 p.step p.dom) → ∀ v,
    (ops.foldl (fun m o => phase1Eq o.1 m o.2) m v).halos = (m v).halos ∧ (ops.foldl (fun m o => phase1Eq o.1 m o.2) m v).l1 = (m v).l1 := by
  induction ops with
  | nil => intro m _ v; exact ⟨rfl, rfl⟩
  | cons o ops ih =>
    intro m h v
    have e : phase1Eq o.1 m o.2 = setAt m o.2.lhs.var ((m o.2.lhs.var).updateWrite o.1 o.2.lhs.step) := by
      rw [phase1Eq_def, accesses_id _ _ (h o List.mem_cons_self)]
    have hs : ∀ v, (setAt m o.2.lhs.var ((m o.2.lhs.var).updateWrite o.1 o.2.lhs.step) v).halos = (m v).halos ∧
        (setAt m o.2.lhs.var ((m o.2.lhs.var).updateWrite o.1 o.2.lhs.step) v).l1 = (m v).l1 := by
      intro v
      unfold setAt
      split
      · rename_i e; subst e
        cases o.2.lhs.step <;> exact ⟨rfl, rfl⟩
      · exact ⟨rfl, rfl⟩
    rw [List.foldl_cons, e]
    have := ih (m := setAt m o.2.lhs.var ((m o.2.lhs.var).updateWrite o.1 o.2.lhs.step)) (fun o' ho' p hp => setAt_knows (h o' (List.mem_cons_of_mem _ ho') p hp)) v
    exact ⟨this.1.trans (hs v).1, this.2.trans (hs v).2⟩

/-- No stage needs a scratch stage. -/
def HSys.NoScratch (S : HSys) : Prop := ∀ st ∈ S.stages, st.scr = false → ∀ s ∈ S.stages, s.id ∉ S.scrDeps st.id

theorem calcHalosFrom_noScratch {S : HSys} (hS : S.NoScratch) {m : Nat → HVar} (hm : ∀ v, (m v).Keys) : S.calcHalosFrom m = S.phase1From m := by
  have hk : ∀ v, (S.phase1From m v).Keys := by rw [phase1From_ops]; exact ops_keys _ hm
  have h2 : ∀ st ∈ S.stages, st.scr = false → S.phase2 (S.phase1From m) st = S.phase1From m := by
    intro st hst hsc
    have key : ∀ l : List HStage, (∀ s ∈ l, s ∈ S.stages) → l.foldl (fun m s => if s.id ∈ S.scrDeps st.id then s.parts.foldl (phase2Part st.id) m else m)
        (S.phase1From m) = S.phase1From m := by
      intro l
      induction l with
      | nil => intro _; rfl
      | cons s l ih =>
        intro hl
        rw [List.foldl_cons, if_neg (hS st hst hsc s (hl s List.mem_cons_self))]
        exact ih fun s' hs' => hl s' (List.mem_cons_of_mem _ hs')
    exact key _ fun s hs => List.mem_reverse.1 hs
  unfold HSys.calcHalosFrom
  simp only
  have key : ∀ l : List HStage, (∀ s ∈ l, s ∈ S.stages ∧ s.scr = false) →
      l.foldl (fun m' st => fun v => (m' v).updateVar (S.phase2 (S.phase1From m) st v)) (S.phase1From m) = S.phase1From m := by
    intro l
    induction l with
    | nil => intro _; rfl
    | cons s l ih =>
      intro hl
      rw [List.foldl_cons, h2 s (hl s List.mem_cons_self).1 (hl s List.mem_cons_self).2]
      have : (fun v => (S.phase1From m v).updateVar (S.phase1From m v)) = S.phase1From m := funext fun v => updateVar_self (hk v)
      rw [this]
      exact ih fun s' hs' => hl s' (List.mem_cons_of_mem _ hs')
  refine key _ fun s hs => ?_
  rw [List.mem_filter] at hs
  exact ⟨hs.1, by simpa using hs.2⟩

theorem calcHalosFrom_fresh (S : HSys) : S.calcHalosFrom (fun _ => {}) = S.calcHalos := rfl

/-- After any number of outputs, the halos are those of the first. -/
theorem calcHalos_again {S : HSys} (hS : S.NoScratch) (n : Nat) : ∀ v, (((S.calcHalosFrom)^[n + 1] fun _ => {}) v).Same (S.calcHalos v) := by
  have h0 : ∀ v, ((fun _ => {} : Nat → HVar) v).Keys := fun v => by simp [HVar.Keys]
  have e1 : S.calcHalos = S.ops.foldl (fun m o => phase1Eq o.1 m o.2) fun _ => {} := by
    rw [← calcHalosFrom_fresh, calcHalosFrom_noScratch hS h0, phase1From_ops]
  have key : ∀ n, (∀ v, (((S.calcHalosFrom)^[n + 1] fun _ => {}) v).Same (S.calcHalos v)) ∧ ∀ v, (((S.calcHalosFrom)^[n + 1] fun _ => {}) v).Keys := by
    intro n
    induction n with
    | zero => exact ⟨fun v => ⟨rfl, rfl, fun _ => rfl⟩, fun v => by
        change (S.calcHalos v).Keys
        rw [e1]; exact ops_keys _ h0 v⟩
    | succ n ih =>
      obtain ⟨ih1, ih2⟩ := ih
      rw [Function.iterate_succ_apply']
      generalize (S.calcHalosFrom)^[n + 1] (fun _ => {}) = m at ih1 ih2
      rw [calcHalosFrom_noScratch hS ih2, phase1From_ops]
      refine ⟨fun v => ?_, ops_keys _ ih2⟩
      have hkn : ∀ o ∈ S.ops, ∀ p ∈ o.2.lhs :: o.2.rhs, (m p.var).Knows o.1 p.step p.dom := by
        intro o ho p hp
        have := ops_knows S.ops (fun _ => {}) o ho p hp
        rw [← e1] at this
        exact ⟨by rw [(ih1 p.var).halos]; exact this.halos, by rw [(ih1 p.var).l1]; exact this.l1⟩
      have hid := ops_id S.ops hkn v
      refine ⟨hid.1.trans (ih1 v).halos, hid.2.trans (ih1 v).l1, fun st => ?_⟩
      rw [ops_writes, (ih1 v).writes, e1, ops_writes, lastWrite_idem]
  exact (key n).1

end Yask.Comp
