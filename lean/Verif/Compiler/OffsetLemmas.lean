import Mathlib.Tactic.Ring
import Verif.Compiler.ExprLemmas

/-! Helper lemmas: offsets of index expressions. -/

namespace Yask.Comp

variable {π : Type}

theorem numVal_spec {I : Interp π ℚ} (hI : I.Usual) (e : NExpr π) : ∀ q, e.numVal = .ok q → e.val I = q := by
  induction e using NExpr.ind with
  | h1 q => intro p h; simp only [NExpr.numVal, Outcome.ok.injEq] at h; simp only [NExpr.val, hI.const, h]
  | h2 s => intro q h; simp only [NExpr.numVal] at h; cases h
  | h3 d t => intro q h; simp only [NExpr.numVal] at h; cases h
  | h4 p => intro q h; simp only [NExpr.numVal] at h; cases h
  | h5 a ih =>
    intro q h
    simp only [NExpr.numVal] at h
    revert h
    cases ha : a.numVal with
    | ok x =>
      intro h
      simp only [Outcome.bind_ok, Outcome.ok.injEq] at h
      simp only [NExpr.val, ih x ha, h]
    | _ => intro h; cases h
  | h6 op l r ihl ihr =>
    intro q h
    simp only [NExpr.numVal] at h
    revert h
    cases hl : l.numVal with
    | ok x =>
      cases hr : r.numVal with
      | ok y =>
        intro h
        simp only [Outcome.bind_ok] at h
        cases op with
        | sub =>
          simp only [Outcome.ok.injEq] at h
          simp only [NExpr.val, ihl x hl, ihr y hr, h]
        | div =>
          simp only at h
          split_ifs at h with h0
          simp only [Outcome.ok.injEq] at h
          simp only [NExpr.val, hI.div, ihl x hl, ihr y hr, h]
        | mod =>
          simp only at h
          split_ifs at h with h0
          simp only [Outcome.ok.injEq] at h
          simp only [NExpr.val, hI.mod, ihl x hl, ihr y hr, h]
      | _ => intro h; cases h
    | _ => intro h; cases h
  | h7 op ops ih =>
    intro q h
    simp only [NExpr.numVal] at h
    rw [NExpr.val_comm]
    have key : ∀ (l : List (NExpr π)) (v : ℚ), (∀ a ∈ l, a ∈ ops) → NExpr.foldVal op l v = .ok q →
        q = match op with | .add => v + (l.map (·.val I)).sum | .mult => v * (l.map (·.val I)).prod := by
      intro l
      induction l with
      | nil =>
        intro v _ h
        simp only [NExpr.foldVal, Outcome.ok.injEq] at h
        subst h
        cases op <;> simp
      | cons a l ihl =>
        intro v hl h
        simp only [NExpr.foldVal] at h
        revert h
        cases ha : a.numVal with
        | ok x =>
          intro h
          simp only [Outcome.bind_ok] at h
          have := ihl _ (fun b hb => hl b (List.mem_cons_of_mem _ hb)) h
          have hv := ih a (hl a List.mem_cons_self) x ha
          cases op
          · simp only [List.map_cons, List.sum_cons, hv] at this ⊢
            rw [this]; ring
          · simp only [List.map_cons, List.prod_cons, hv] at this ⊢
            rw [this]; ring
        | _ => intro h; cases h
    have := key ops _ (fun a ha => ha) h
    cases op
    · simp only [zero_add] at this ⊢; exact this.symm
    · simp only [one_mul] at this ⊢; exact this.symm
  | h8 f ops ih => intro q h; simp only [NExpr.numVal] at h; cases h

theorem toInt_spec {i j : ℤ} (h : toInt i = .ok j) : i = j := by
  unfold toInt at h
  split_ifs at h
  simpa using h

theorem intVal_spec {I : Interp π ℚ} (hI : I.Usual) (e : NExpr π) (i : ℤ) (h : e.intVal = .ok i) :
    e.val I = i := by
  unfold NExpr.intVal at h
  revert h
  cases hv : e.numVal with
  | ok v =>
    simp only [Outcome.bind_ok]
    cases ht : toInt (trunc v) with
    | ok j =>
      intro h
      simp only [Outcome.bind_ok] at h
      split_ifs at h with hne
      simp only [Outcome.ok.injEq] at h
      rw [numVal_spec hI e v hv, ← h]
      exact not_not.1 hne
    | _ => intro h; cases h
  | _ => intro h; cases h

theorem offsetFrom_spec {I : Interp π ℚ} (hI : I.Usual) (dim : String) (x : ℚ)
    (hs : I.index dim .step = x) (hd : I.index dim .domain = x) (e : NExpr π) :
    ∀ o, e.offsetFrom dim = .ok (some o) → e.val I = x + o := by
  induction e using NExpr.ind with
  | h1 q => intro o h; simp only [NExpr.offsetFrom] at h; cases h
  | h2 s => intro o h; simp only [NExpr.offsetFrom] at h; cases h
  | h3 d t =>
    intro o h
    simp only [NExpr.offsetFrom, Outcome.ok.injEq] at h
    split_ifs at h with hc
    simp only [Option.some.injEq] at h
    simp only [Bool.and_eq_true, Bool.or_eq_true, decide_eq_true_eq] at hc
    obtain ⟨ht, rfl⟩ := hc
    rw [← h]
    rcases ht with rfl | rfl <;> simp [NExpr.val, hs, hd]
  | h4 p => intro o h; simp only [NExpr.offsetFrom] at h; cases h
  | h5 a ih => intro o h; simp only [NExpr.offsetFrom] at h; cases h
  | h6 op l r ihl ihr =>
    intro o h
    cases op with
    | div => simp only [NExpr.offsetFrom] at h; cases h
    | mod => simp only [NExpr.offsetFrom] at h; cases h
    | sub =>
      simp only [NExpr.offsetFrom] at h
      revert h
      cases hl : l.offsetFrom dim with
      | ok ol =>
        intro h
        simp only [Outcome.bind_ok] at h
        cases ol with
        | none => cases h
        | some tmp =>
          simp only at h
          split_ifs at h with hc
          · revert h
            cases hr : r.intVal with
            | ok i =>
              simp only [Outcome.bind_ok]
              cases ht : toInt (tmp - i) with
              | ok j =>
                intro h
                simp only [Outcome.bind_ok, Outcome.ok.injEq, Option.some.injEq] at h
                have := toInt_spec ht
                simp only [NExpr.val, ihl tmp hl, intVal_spec hI r i hr, ← h, ← this]
                push_cast
                ring
              | _ => intro h; cases h
            | _ => intro h; cases h
          · cases h
      | _ => intro h; cases h
  | h7 op ops ih =>
    intro o h
    cases op with
    | mult => simp only [NExpr.offsetFrom] at h; cases h
    | add =>
      simp only [NExpr.offsetFrom] at h
      rw [NExpr.val_comm]
      simp only
      have key : ∀ (l : List (NExpr π)) (sum : ℤ) (num : Nat) (tmp : ℤ) (acc : ℚ), (∀ a ∈ l, a ∈ ops) →
          acc = sum + (if num = 0 then 0 else if num = 1 then x + tmp else acc - sum) →
          NExpr.addOffset dim l sum num tmp = .ok (some o) → acc + (l.map (·.val I)).sum = x + o := by
        intro l
        induction l with
        | nil =>
          intro sum num tmp acc _ hacc h
          simp only [NExpr.addOffset] at h
          split_ifs at h with hn
          · revert h
            cases ht : toInt (tmp + sum) with
            | ok j =>
              intro h
              simp only [Outcome.bind_ok, Outcome.ok.injEq, Option.some.injEq] at h
              have := toInt_spec ht
              subst hn
              simp only [one_ne_zero, if_false, if_true] at hacc
              rw [hacc, ← h, ← this]
              push_cast
              simp
              ring
            | _ => intro h; cases h
          · cases h
        | cons a l ihl =>
          intro sum num tmp acc hl hacc h
          simp only [NExpr.addOffset] at h
          rw [List.map_cons, List.sum_cons, ← add_assoc]
          have hl' : ∀ b ∈ l, b ∈ ops := fun b hb => hl b (List.mem_cons_of_mem _ hb)
          revert h
          cases ha : a.offsetFrom dim with
          | ok oa =>
            intro h
            simp only [Outcome.bind_ok] at h
            cases oa with
            | some t =>
              simp only at h
              refine ihl sum (num + 1) t _ hl' ?_ h
              have hv := ih a (hl a List.mem_cons_self) t ha
              rcases Nat.eq_zero_or_pos num with rfl | hn
              · simp only [zero_add, one_ne_zero, if_false, if_true] at hacc ⊢
                rw [hacc, hv]; ring
              · rw [if_neg (by omega), if_neg (by omega)]; ring
            | none =>
              simp only at h
              split_ifs at h with hc
              · revert h
                cases hi : a.intVal with
                | ok i =>
                  simp only [Outcome.bind_ok]
                  cases ht : toInt (sum + i) with
                  | ok j =>
                    intro h
                    simp only [Outcome.bind_ok] at h
                    refine ihl j num tmp _ hl' ?_ h
                    have := toInt_spec ht
                    have hv := intVal_spec hI a i hi
                    rw [hv, ← this]
                    push_cast
                    split_ifs at hacc ⊢ with h0 h1
                    · rw [hacc]; ring
                    · rw [hacc]; ring
                    · ring
                  | _ => intro h; cases h
                | _ => intro h; cases h
              · cases h
          | _ => intro h; cases h
      have := key ops 0 0 0 0 (fun a ha => ha) (by simp) h
      simpa using this
  | h8 f ops ih => intro o h; simp only [NExpr.offsetFrom] at h; cases h

end Yask.Comp
