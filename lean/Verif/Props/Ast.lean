import Verif.Compiler.AstView
import Verif.Compiler.LaneLemmas
import Verif.Props.Expr

/-!
# C82: expressions built with the API

`Ast.run` is a program: the calls that build expressions and equations, in the order of the program. `varVal I s r` is the value of the
expression in variable `r` of the program in state `s`; `Plain` is the meaning of the calls in terms of values (`Spec/AstSpec.lean`).
-/

namespace Yask
open Comp Spec

section
variable {π K : Type} [CommRing K]

/-! ### Each variable has an expression with a value -/

/-- After any calls, the expression in each variable that is not null is finite and has a value. -/
theorem C82_defined (I : Interp π K) (cs : List (Call π)) (s : Ast π) (h : Ast.run {} cs = .ok s) (r a : Nat)
    (hr : s.ptrs[r]? = some (some a)) : ∃ v, varVal I s r = some v := by
  obtain ⟨p, hp⟩ := reach_inv h
  exact ⟨_, varVal_of I hp (ptr_iff.2 hr)⟩

/-! ### Calls that only build -/

/-- In any state that a program can reach, a call that does not change an existing expression gives the expression, condition or equation that
its operator says, in terms of the values that the operands have; all else stays as it is. It fails or is undefined exactly if the
specification says so. Missing: `set_value` and `add_operand`; see the theorems below. -/
theorem C82_step_partial (I : Interp π K) (cmp : CmpInterp K) (cs : List (Call π)) (s : Ast π) (h : Ast.run {} cs = .ok s) (c : Call π)
    (hc : c.changes = false) : (do let s' ← s.step c; .ok (plainOf I cmp s')) = (plainOf I cmp s).step I cmp c := by
  obtain ⟨p, hp⟩ := reach_inv h
  have := step_ok I cmp hp c hc
  revert this
  cases (plainOf I cmp s).step I cmp c with
  | ok q =>
    rintro ⟨s', p', e, _, _, rfl⟩
    rw [e]
    rfl
  | throws => intro e; rw [show s.step c = .throws from e]; rfl
  | undefined => intro e; rw [show s.step c = .undefined from e]; rfl

/-- A whole program that only builds: the values of all variables, conditions and equations are those of the operators. Missing: `set_value` and
`add_operand`. -/
theorem C82_program_partial (I : Interp π K) (cmp : CmpInterp K) (cs : List (Call π)) (hc : ∀ c ∈ cs, c.changes = false) :
    (do let s ← Ast.run {} cs; .ok (plainOf I cmp s)) = Plain.run I cmp {} cs := by
  have key : ∀ (cs : List (Call π)) (s : Ast π) (p : Nat → Prop), s.Inv p → (∀ c ∈ cs, c.changes = false) →
      (do let s' ← s.run cs; .ok (plainOf I cmp s')) = (plainOf I cmp s).run I cmp cs := by
    intro cs
    induction cs with
    | nil => intro s p _ _; rfl
    | cons c cs ih =>
      intro s p hp hc
      have := step_ok I cmp hp c (hc c List.mem_cons_self)
      rw [Ast.run, Plain.run]
      revert this
      cases (plainOf I cmp s).step I cmp c with
      | ok q =>
        rintro ⟨s', p', e, hp', _, rfl⟩
        rw [e]
        exact ih s' p' hp' fun c hcc => hc c (List.mem_cons_of_mem _ hcc)
      | throws => intro e; rw [show s.step c = .throws from e]; rfl
      | undefined => intro e; rw [show s.step c = .undefined from e]; rfl
  exact key cs {} _ inv_nil hc

/-- The values of the variables in such a state are those of their expressions. -/
theorem C82_vars (I : Interp π K) (cmp : CmpInterp K) (cs : List (Call π)) (s : Ast π) (h : Ast.run {} cs = .ok s) (r : Nat) (v : K) :
    varVal I s r = some v ↔ ∃ k, (plainOf I cmp s).vars[r]? = some (some (k, v)) := by
  obtain ⟨p, hp⟩ := reach_inv h
  exact varVal_plain I cmp hp r v

/-! ### Operators that refer to their operands -/

/-- A difference is that of the values that its operands have at the end, whatever is called after it is made. -/
theorem C82_sub (I : Interp π K) (cs cs' : List (Call π)) (s s' : Ast π) (h : Ast.run {} cs = .ok s) (l r : Nat)
    (h' : s.run (.sub l r :: cs') = .ok s') (x y : K) (hl : varVal I s' l = some x) (hr : varVal I s' r = some y) :
    varVal I s' s.ptrs.length = some (x - y) := by
  obtain ⟨p, hp⟩ := reach_inv h
  obtain ⟨s1, e1, e2⟩ := run_cons h'
  obtain ⟨p1, h1, l1⟩ := step_later I noCmp hp e1
  obtain ⟨p2, h2, l2⟩ := run_later I noCmp h1 e2
  obtain ⟨a, ha, _, _, rfl⟩ := varVal_some I h2 hl
  obtain ⟨b, hb, _, _, rfl⟩ := varVal_some I h2 hr
  have hpre : ∃ l, s'.ptrs = s.ptrs ++ l := by
    obtain ⟨a, ha⟩ := l1.ptrs
    obtain ⟨b, hb⟩ := l2.ptrs
    exact ⟨a ++ b, by rw [hb, ha, List.append_assoc]⟩
  have e3 := e1
  simp only [Ast.step] at e3
  obtain ⟨q1, f1, e3⟩ := ok_of_bind e3
  obtain ⟨q2, f2, e3⟩ := ok_of_bind e3
  have g1 := ptr_back hpre f1 ha
  have g2 := ptr_back hpre f2 hb
  rw [f1] at g1
  rw [f2] at g2
  injection g1 with g1
  injection g2 with g2
  subst g1 g2
  simp only [newSub, newNode, Outcome.bind_ok] at e3
  injection e3 with e3
  exact shared_val I hp ⟨_, e1⟩ e2 e3.symm (.inr ⟨_, rfl⟩)

/-- Likewise for a quotient. -/
theorem C82_div (I : Interp π K) (cs cs' : List (Call π)) (s s' : Ast π) (h : Ast.run {} cs = .ok s) (l r : Nat)
    (h' : s.run (.div l r :: cs') = .ok s') (x y : K) (hl : varVal I s' l = some x) (hr : varVal I s' r = some y) :
    varVal I s' s.ptrs.length = some (I.div x y) := by
  obtain ⟨p, hp⟩ := reach_inv h
  obtain ⟨s1, e1, e2⟩ := run_cons h'
  obtain ⟨p1, h1, l1⟩ := step_later I noCmp hp e1
  obtain ⟨p2, h2, l2⟩ := run_later I noCmp h1 e2
  obtain ⟨a, ha, _, _, rfl⟩ := varVal_some I h2 hl
  obtain ⟨b, hb, _, _, rfl⟩ := varVal_some I h2 hr
  have hpre : ∃ l, s'.ptrs = s.ptrs ++ l := by
    obtain ⟨a, ha⟩ := l1.ptrs
    obtain ⟨b, hb⟩ := l2.ptrs
    exact ⟨a ++ b, by rw [hb, ha, List.append_assoc]⟩
  have e3 := e1
  simp only [Ast.step] at e3
  obtain ⟨q1, f1, e3⟩ := ok_of_bind e3
  obtain ⟨q2, f2, e3⟩ := ok_of_bind e3
  have g1 := ptr_back hpre f1 ha
  have g2 := ptr_back hpre f2 hb
  rw [f1] at g1
  rw [f2] at g2
  injection g1 with g1
  injection g2 with g2
  subst g1 g2
  simp only [newDiv, newNode, Outcome.bind_ok] at e3
  injection e3 with e3
  exact shared_val I hp ⟨_, e1⟩ e2 e3.symm (.inr ⟨_, rfl⟩)

/-- Likewise for a modulus. -/
theorem C82_mod (I : Interp π K) (cs cs' : List (Call π)) (s s' : Ast π) (h : Ast.run {} cs = .ok s) (l r : Nat)
    (h' : s.run (.mod l r :: cs') = .ok s') (x y : K) (hl : varVal I s' l = some x) (hr : varVal I s' r = some y) :
    varVal I s' s.ptrs.length = some (I.mod x y) := by
  obtain ⟨p, hp⟩ := reach_inv h
  obtain ⟨s1, e1, e2⟩ := run_cons h'
  obtain ⟨p1, h1, l1⟩ := step_later I noCmp hp e1
  obtain ⟨p2, h2, l2⟩ := run_later I noCmp h1 e2
  obtain ⟨a, ha, _, _, rfl⟩ := varVal_some I h2 hl
  obtain ⟨b, hb, _, _, rfl⟩ := varVal_some I h2 hr
  have hpre : ∃ l, s'.ptrs = s.ptrs ++ l := by
    obtain ⟨a, ha⟩ := l1.ptrs
    obtain ⟨b, hb⟩ := l2.ptrs
    exact ⟨a ++ b, by rw [hb, ha, List.append_assoc]⟩
  have e3 := e1
  simp only [Ast.step] at e3
  obtain ⟨q1, f1, e3⟩ := ok_of_bind e3
  obtain ⟨q2, f2, e3⟩ := ok_of_bind e3
  have g1 := ptr_back hpre f1 ha
  have g2 := ptr_back hpre f2 hb
  rw [f1] at g1
  rw [f2] at g2
  injection g1 with g1
  injection g2 with g2
  subst g1 g2
  simp only [newMod, newNode, Outcome.bind_ok] at e3
  injection e3 with e3
  exact shared_val I hp ⟨_, e1⟩ e2 e3.symm (.inr ⟨_, rfl⟩)

/-- Likewise for a negation. -/
theorem C82_neg (I : Interp π K) (cs cs' : List (Call π)) (s s' : Ast π) (h : Ast.run {} cs = .ok s) (r : Nat)
    (h' : s.run (.neg r :: cs') = .ok s') (x : K) (hr : varVal I s' r = some x) : varVal I s' s.ptrs.length = some (-x) := by
  obtain ⟨p, hp⟩ := reach_inv h
  obtain ⟨s1, e1, e2⟩ := run_cons h'
  obtain ⟨p1, h1, l1⟩ := step_later I noCmp hp e1
  obtain ⟨p2, h2, l2⟩ := run_later I noCmp h1 e2
  obtain ⟨a, ha, _, _, rfl⟩ := varVal_some I h2 hr
  have hpre : ∃ l, s'.ptrs = s.ptrs ++ l := by
    obtain ⟨a, ha⟩ := l1.ptrs
    obtain ⟨b, hb⟩ := l2.ptrs
    exact ⟨a ++ b, by rw [hb, ha, List.append_assoc]⟩
  have e3 := e1
  simp only [Ast.step] at e3
  obtain ⟨q1, f1, e3⟩ := ok_of_bind e3
  have g1 := ptr_back hpre f1 ha
  rw [f1] at g1
  injection g1 with g1
  subst g1
  simp only [newNeg, newNode, Outcome.bind_ok] at e3
  injection e3 with e3
  exact shared_val I hp ⟨_, e1⟩ e2 e3.symm (.inl rfl)

/-- The RHS of an equation is the expression in the variable, with the value that it has at the end. -/
theorem C82_equation (I : Interp π K) (cs cs' : List (Call π)) (s s' : Ast π) (h : Ast.run {} cs = .ok s) (l r : Nat) (cond : Option Nat)
    (h' : s.run (.eqn l r cond :: cs') = .ok s') : eqnVal I s' s.eqs.length = varVal I s' r := by
  obtain ⟨p, hp⟩ := reach_inv h
  obtain ⟨s1, e1, e2⟩ := run_cons h'
  obtain ⟨p1, h1, l1⟩ := step_later I noCmp hp e1
  obtain ⟨p2, h2, l2⟩ := run_later I noCmp h1 e2
  have hpre : ∃ l, s'.ptrs = s.ptrs ++ l := by
    obtain ⟨a, ha⟩ := l1.ptrs
    obtain ⟨b, hb⟩ := l2.ptrs
    exact ⟨a ++ b, by rw [hb, ha, List.append_assoc]⟩
  have e3 := e1
  simp only [Ast.step] at e3
  obtain ⟨q1, f1, e3⟩ := ok_of_bind e3
  cases q1 with
  | none => cases e3
  | some a =>
    simp only at e3
    split at e3
    · obtain ⟨q2, f2, e3⟩ := ok_of_bind e3
      cases q2 with
      | none => cases e3
      | some b =>
        simp only at e3
        split at e3
        · injection e3 with e3
          have hb := ptr_later hpre f2
          obtain ⟨e, he, _, hr⟩ := l2.eqn s.eqs.length (by rw [← e3]; simp)
          rw [varVal_of I h2 hb, ← valueAt_of I h2.nodes (ptrOk_of h2 hb b rfl).1, eqnVal, he]
          simp only
          rw [hr]
          congr 1
          simp only [← e3]
          simp
        · cases e3
    · cases e3

/-! ### Operators that copy their operands -/

/-- A sum has the value that it had when it was made, as long as no operand is added to it. -/
theorem C82_add (I : Interp π K) (cs cs' : List (Call π)) (s s' : Ast π) (h : Ast.run {} cs = .ok s) (l r : Nat)
    (h' : s.run (.add l r :: cs') = .ok s') (hu : Untouched s' s.ptrs.length cs') (x y : K) (hl : varVal I s l = some x)
    (hr : varVal I s r = some y) : varVal I s' s.ptrs.length = some (x + y) := by
  obtain ⟨p, hp⟩ := reach_inv h
  obtain ⟨s1, e1, e2⟩ := run_cons h'
  obtain ⟨p1, h1, l1⟩ := step_later I noCmp hp e1
  obtain ⟨k1, v1, _⟩ := var_of_val I noCmp hp hl
  obtain ⟨k2, v2, _⟩ := var_of_val I noCmp hp hr
  obtain ⟨a, g1, _, _, _⟩ := varVal_some I hp hl
  obtain ⟨b, g2, _, _, _⟩ := varVal_some I hp hr
  have hv : varVal I s1 s.ptrs.length = some (x + y) := new_val I noCmp hp rfl e1 (k := .comm .add) (by simp only [Plain.step, v1, v2, Outcome.bind_ok])
  rw [← hv]
  have e3 := e1
  simp only [Ast.step, g1, g2, Outcome.bind_ok, newComm] at e3
  obtain ⟨q, f, e3⟩ := ok_of_bind e3
  obtain ⟨x1, f1, f⟩ := ok_of_bind f
  obtain ⟨x2, f2, f⟩ := ok_of_bind f
  injection f with f
  subst f
  injection e3 with e3
  exact copied_val I h1 e2 (a := x2.1.length) (by rw [ptr_iff, ← e3]; simp [Ast.push]) (copies_frozen h1 (hd := .comm .add) (by rw [← e3]; rfl) trivial) hu

/-- Likewise for a product. -/
theorem C82_mul (I : Interp π K) (cs cs' : List (Call π)) (s s' : Ast π) (h : Ast.run {} cs = .ok s) (l r : Nat)
    (h' : s.run (.mul l r :: cs') = .ok s') (hu : Untouched s' s.ptrs.length cs') (x y : K) (hl : varVal I s l = some x)
    (hr : varVal I s r = some y) : varVal I s' s.ptrs.length = some (x * y) := by
  obtain ⟨p, hp⟩ := reach_inv h
  obtain ⟨s1, e1, e2⟩ := run_cons h'
  obtain ⟨p1, h1, l1⟩ := step_later I noCmp hp e1
  obtain ⟨k1, v1, _⟩ := var_of_val I noCmp hp hl
  obtain ⟨k2, v2, _⟩ := var_of_val I noCmp hp hr
  obtain ⟨a, g1, _, _, _⟩ := varVal_some I hp hl
  obtain ⟨b, g2, _, _, _⟩ := varVal_some I hp hr
  have hv : varVal I s1 s.ptrs.length = some (x * y) := new_val I noCmp hp rfl e1 (k := .comm .mult) (by simp only [Plain.step, v1, v2, Outcome.bind_ok])
  rw [← hv]
  have e3 := e1
  simp only [Ast.step, g1, g2, Outcome.bind_ok, newComm] at e3
  obtain ⟨q, f, e3⟩ := ok_of_bind e3
  obtain ⟨x1, f1, f⟩ := ok_of_bind f
  obtain ⟨x2, f2, f⟩ := ok_of_bind f
  injection f with f
  subst f
  injection e3 with e3
  exact copied_val I h1 e2 (a := x2.1.length) (by rw [ptr_iff, ← e3]; simp [Ast.push]) (copies_frozen h1 (hd := .comm .mult) (by rw [← e3]; rfl) trivial) hu

/-- Likewise for a function. -/
theorem C82_func (I : Interp π K) (cs cs' : List (Call π)) (s s' : Ast π) (h : Ast.run {} cs = .ok s) (f : String) (rs : List Nat)
    (h' : s.run (.func f rs :: cs') = .ok s') (hu : Untouched s' s.ptrs.length cs') (xs : List K) (hr : rs.map (varVal I s) = xs.map some) :
    varVal I s' s.ptrs.length = some (I.func f xs) := by
  obtain ⟨p, hp⟩ := reach_inv h
  obtain ⟨s1, e1, e2⟩ := run_cons h'
  obtain ⟨p1, h1, l1⟩ := step_later I noCmp hp e1
  obtain ⟨ys, v1, rfl⟩ := items_of_val I noCmp hp hr
  have hv : varVal I s1 s.ptrs.length = some (I.func f (ys.map (·.2))) :=
    new_val I noCmp hp rfl e1 (k := .other) (by simp only [Plain.step, v1, Outcome.bind_ok])
  rw [← hv]
  have e3 := e1
  simp only [Ast.step] at e3
  obtain ⟨ps, g1, e3⟩ := ok_of_bind e3
  obtain ⟨q, g2, e3⟩ := ok_of_bind e3
  unfold newFunc at g2
  split at g2
  · cases g2
  · obtain ⟨x1, f1, g2⟩ := ok_of_bind g2
    injection g2 with g2
    subst g2
    injection e3 with e3
    exact copied_val I h1 e2 (a := x1.1.length) (by rw [ptr_iff, ← e3]; simp [Ast.push]) (copies_frozen h1 (hd := .func f) (by rw [← e3]; rfl) trivial) hu

/-- A copy of an expression has the value that the expression had, whatever is done to the expression later. -/
theorem C82_clone (I : Interp π K) (cs cs' : List (Call π)) (s s' : Ast π) (h : Ast.run {} cs = .ok s) (r : Nat)
    (h' : s.run (.clone r :: cs') = .ok s') (hu : Untouched s' s.ptrs.length cs') (x : K) (hr : varVal I s r = some x) :
    varVal I s' s.ptrs.length = some x := by
  obtain ⟨p, hp⟩ := reach_inv h
  obtain ⟨s1, e1, e2⟩ := run_cons h'
  obtain ⟨k1, _, v1⟩ := var_of_val I noCmp hp hr
  obtain ⟨a, g1, ha, _, _⟩ := varVal_some I hp hr
  have hv : varVal I s1 s.ptrs.length = some x := new_val I noCmp hp rfl e1 (k := k1) (by simp only [Plain.step, v1, Outcome.bind_ok])
  rw [← hv]
  obtain ⟨_, l, ds, p1, f1, f2, f3, f4, f5⟩ := clone_built I hp.nodes ha
  have e3 := e1
  simp only [Ast.step, g1, nonNull, Outcome.bind_ok, f1] at e3
  injection e3 with e3
  rw [List.append_assoc] at e3 f2
  have h1 : s1.Inv p1 := by
    rw [← e3]
    refine inv_push hp f2 f4 ?_
    intro q hq
    injection hq with hq
    subst hq
    exact ⟨by simp, f5⟩
  refine copied_val I h1 e2 (a := (s.nodes ++ l).length) (by rw [ptr_iff, ← e3]; simp [Ast.push]) ?_ hu
  have hh : heapOf s1.nodes (s.nodes ++ l).length = ((heapOf s.nodes a).1, ds) := by
    rw [← e3]
    simp only [Ast.push]
    rw [← List.append_assoc]
    exact heapOf_append_right (ns := s.nodes ++ l) (l := [((heapOf s.nodes a).1, ds)]) (i := 0) (by simp)
  rw [hh]
  exact f3

/-! ### Calls that change expressions -/

/-- `set_value` gives a constant the value. -/
theorem C82_set_value (I : Interp π K) (cs : List (Call π)) (s s' : Ast π) (h : Ast.run {} cs = .ok s) (r : Nat) (q : ℚ)
    (h' : s.step (.setValue r q) = .ok s') : varVal I s' r = some (I.const q) := by
  obtain ⟨p, hp⟩ := reach_inv h
  obtain ⟨a, p1, g1, _, g2, h1, l1⟩ := set_step hp h'
  have ha := ptr_later l1.ptrs g1
  rw [varVal_of I h1 ha, h1.nodes.value I (ptrOk_of h1 ha a rfl).1, g2]
  rfl

/-- `add_operand` adds the value that the operand has to a sum, or multiplies a product by it. -/
theorem C82_add_operand (I : Interp π K) (cs : List (Call π)) (s s' : Ast π) (h : Ast.run {} cs = .ok s) (r o : Nat)
    (h' : s.step (.addOperand r o) = .ok s') : ∃ x y, varVal I s r = some x ∧ varVal I s o = some y ∧
      (((plainOf I noCmp s).vars[r]? = some (some (.comm .add, x)) ∧ varVal I s' r = some (x + y)) ∨
       ((plainOf I noCmp s).vars[r]? = some (some (.comm .mult, x)) ∧ varVal I s' r = some (x * y))) := by
  obtain ⟨p, hp⟩ := reach_inv h
  obtain ⟨a, b, op, p1, g1, g2, g3, _, g4, h1, l1⟩ := add_step I hp h'
  refine ⟨_, _, varVal_of I hp g1, varVal_of I hp g2, ?_⟩
  have hk : (plainOf I noCmp s).vars[r]? = some (some (.comm op, nodeValue I s.nodes a)) := by
    simp only [plainOf, List.getElem?_map, ptr_iff.1 g1, Option.map_some, nodeItem, g3]
    rfl
  rw [hk, varVal_of I h1 (ptr_later l1.ptrs g1), g4]
  cases op
  · exact .inl ⟨rfl, rfl⟩
  · exact .inr ⟨rfl, rfl⟩

/-- Both leave alone all expressions other than the changed one and those made of it by negation, subtraction, division or modulus: a constant,
index, var point, sum, product or function in another node keeps its value. -/
theorem C82_others (I : Interp π K) (cs cs' : List (Call π)) (s s' : Ast π) (h : Ast.run {} cs = .ok s) (h' : s.run cs' = .ok s') (r a : Nat)
    (hr : s.ptrs[r]? = some (some a)) (hn : (heapOf s.nodes a).1 ≠ .neg) (hb : ∀ op, (heapOf s.nodes a).1 ≠ .bin op)
    (hu : Untouched s' r cs') : varVal I s' r = varVal I s r := by
  obtain ⟨p, hp⟩ := reach_inv h
  have ha := (ptrOk_of hp (ptr_iff.2 hr) a rfl).1
  refine copied_val I hp h' (ptr_iff.2 hr) ?_ hu
  have har := hp.nodes.arity ha
  have hcl := hp.nodes.closed a ha
  revert har hcl hn hb
  cases heapOf s.nodes a with
  | mk hd l =>
    intro hn hb har hcl
    have none : l.length = 0 → ∀ c ∈ l, p c := by
      intro h0
      rw [List.eq_nil_of_length_eq_zero h0]
      simp
    cases hd with
    | const q => exact none har.1
    | code q => exact none har.1
    | index d ty => exact none har.1
    | point x => exact none har.1
    | neg => exact (hn rfl).elim
    | bin op => exact (hb op rfl).elim
    | comm op => exact hcl (.inr trivial)
    | func f => exact hcl (.inr trivial)
    | eqn => exact (har.2 rfl).elim

/-! ### Integers -/

/-- `new_const_number_node` of an integer has the value of the integer, or fails; it works for all integers up to 2^53. -/
theorem C82_const_idx (i : Int) : (∀ q, constIdx i = .ok q → q = i) ∧ (|i| ≤ 2 ^ 53 → constIdx i = .ok (i : ℚ)) := by
  refine ⟨fun q h => ?_, fun h => ?_⟩
  · unfold constIdx at h
    split_ifs at h with h1 h2
    injection h with h
    rw [← h, not_not.1 h2]
  · unfold constIdx
    rw [toDouble_small h]
    have : i ≠ 2 ^ 63 := fun e => by
      rw [e] at h
      norm_num at h
    rw [if_neg this, if_neg (by simp)]

/-- An integer operand has its value if it is at most 2^53, and otherwise the relative error is at most 2^-53. Missing: greater integers that
are not such a multiple of a power of two; see `C82_operand_wrong`. -/
theorem C82_operand_partial (i : Int) : (|i| ≤ 2 ^ 53 → toDouble i = i) ∧ |toDouble i - i| * 2 ^ 53 ≤ |i| :=
  ⟨toDouble_small, toDouble_near i⟩

/-! ### The equations as the compiler gets them -/

omit [CommRing K] in
/-- After any calls except `add_operand`, the equations are such that common-subexpression elimination (C50) can be applied. -/
theorem C82_well_formed_partial (cs : List (Call π)) (s : Ast π) (h : Ast.run {} cs = .ok s) (hc : ∀ r x, .addOperand r x ∉ cs) :
    s.full.WellFormed (s.nodes.length + s.eqs.length) ∧
      ∀ id ∈ s.eqnIds, id < s.nodes.length + s.eqs.length ∧ (s.full id).1 = .eqn := by
  obtain ⟨p, hp⟩ := reach_inv h
  have ho := order_run (inv_nil (π := π)) (by simp) hc h
  have hlt : ∀ id < s.nodes.length, s.full id = heapOf s.nodes id := fun id hid => heapOf_append_left hid
  have hge : ∀ i (hi : i < s.eqs.length), s.full (s.nodes.length + i) = (.eqn, [s.eqs[i].rhs]) := by
    intro i hi
    rw [Ast.full, heapOf_append_right (by simpa using hi)]
    simp
  have hcases : ∀ id < s.nodes.length + s.eqs.length, id < s.nodes.length ∨ ∃ i, ∃ _ : i < s.eqs.length, id = s.nodes.length + i := by
    intro id hid
    by_cases hh : id < s.nodes.length
    · exact .inl hh
    · exact .inr ⟨id - s.nodes.length, by omega, by omega⟩
  refine ⟨⟨fun id hid => ?_, fun id hid c hcc => ?_, fun id hid c hcc => ?_⟩, fun id hid => ?_⟩
  · rcases hcases id hid with h1 | ⟨i, hi, rfl⟩
    · rw [hlt id h1]
      exact (hp.nodes.arity h1).1
    · rw [hge i hi]
      rfl
  · rcases hcases id hid with h1 | ⟨i, hi, rfl⟩
    · rw [hlt id h1] at hcc
      exact ho id h1 c hcc
    · rw [hge i hi] at hcc
      have := (hp.eq _ (List.getElem_mem hi)).1
      rw [List.mem_singleton.1 hcc]
      omega
  · have hlc : c < s.nodes.length := by
      rcases hcases id hid with h1 | ⟨i, hi, rfl⟩
      · rw [hlt id h1] at hcc
        exact hp.nodes.child id h1 c hcc
      · rw [hge i hi] at hcc
        rw [List.mem_singleton.1 hcc]
        exact (hp.eq _ (List.getElem_mem hi)).1
    rw [hlt c hlc]
    exact (hp.nodes.arity hlc).2
  · unfold Ast.eqnIds at hid
    obtain ⟨i, hi, rfl⟩ := List.mem_map.1 hid
    have hi := List.mem_range.1 hi
    rw [hge i hi]
    exact ⟨by omega, rfl⟩

/-- The RHS of an equation has the same value there. -/
theorem C82_rhs (I : Interp π K) (cs : List (Call π)) (s : Ast π) (h : Ast.run {} cs = .ok s) (i : Nat) (hi : i < s.eqs.length) :
    ∃ v, eqnVal I s i = some v ∧ s.full.rhsValue I (s.nodes.length + s.eqs.length) (s.nodes.length + i) = some v := by
  obtain ⟨p, hp⟩ := reach_inv h
  have hge : s.full (s.nodes.length + i) = (.eqn, [s.eqs[i].rhs]) := by
    rw [Ast.full, heapOf_append_right (by simpa using hi)]
    simp
  have hr := (hp.eq _ (List.getElem_mem hi)).1
  obtain ⟨t, ht⟩ := Option.isSome_iff_exists.1 (hp.nodes.total _ hr)
  refine ⟨t.val I, ?_, ?_⟩
  · unfold eqnVal Heap.valueAt
    rw [List.getElem?_eq_getElem hi]
    simp only [ht, Option.map_some]
  · unfold Heap.rhsValue Heap.valueAt
    rw [hge]
    have h1 : s.full.tree s.nodes.length s.eqs[i].rhs = some t := by
      rw [tree_congr (P := (· < s.nodes.length)) (h := heapOf s.nodes) (h' := s.full) (fun id hid => heapOf_append_left hid) hp.nodes.child _ hr]
      exact ht
    simp only [List.head?_cons, Option.bind_some, tree_mono _ (Nat.le_add_right _ _) h1, Option.map_some]

end

/-! ### Examples and findings -/

/-- `v5 = 2 * (a + b) - a`, `v7 = -v5 / 2`, an equation for `a` under the condition `b < v7 && !(b < v7)`, and functions. -/
def exBuild : List (Call String) :=
  [.point "a", .point "b", .const 2, .add 0 1, .mul 2 3, .sub 4 0, .neg 5, .div 6 2, .null, .sub 8 7, .func "max" [5, 7], .clone 5,
    .cmp .lt 1 7, .not 0, .and 0 1, .eqn 0 7 (some 2), .setStepCond 0 (some 1)]

/-- Comparison of rational numbers. -/
def ratCmp : CmpInterp ℚ
  | .eq, x, y => x == y
  | .ne, x, y => x != y
  | .lt, x, y => x < y
  | .ge, x, y => x ≥ y
  | .gt, x, y => x > y
  | .le, x, y => x ≤ y

/-- The values that the variables get: `a` is 5, `b` is 3. -/
example : (∀ c ∈ exBuild, c.changes = false) ∧
    (do let s ← Ast.run {} exBuild; .ok ((List.range 12).map (varVal exInterp s), eqnVal exInterp s 0)) =
      .ok ([some 5, some 3, some 2, some 8, some 16, some 11, some (-11), some (-11 / 2), none, some (11 / 2), some 0, some 11],
        some (-11 / 2)) := by
  decide +kernel

/-- Conditions and the equation of that program. -/
example : (do let s ← Ast.run {} exBuild; .ok ((plainOf exInterp ratCmp s).conds, (plainOf exInterp ratCmp s).eqs.map fun e : String × ℚ × Option Bool × Option Bool => (e.1, e.2.1))) =
    .ok ([false, true, false], [("a", (-11 / 2 : ℚ))]) ∧
    (do let s ← Ast.run {} exBuild; .ok ((plainOf exInterp ratCmp s).eqs.map fun e : String × ℚ × Option Bool × Option Bool => (e.2.2.1, e.2.2.2))) = .ok [(some false, some true)] := by
  decide +kernel

/-- The meaning of the program without the compiler's nodes. -/
example : (do let s ← Plain.run exInterp ratCmp {} exBuild; .ok s.conds) = .ok [false, true, false] := by
  decide +kernel

/-- A program that changes expressions: `c = 2`, `s = a + c`, `d = a - c`, `e = clone(d)`, then `c.set_value(7)`, `s.add_operand(d)`. -/
def exChange : List (Call String) :=
  [.point "a", .const 2, .add 0 1, .sub 0 1, .clone 3, .setValue 1 7, .addOperand 2 3]

/-- `s` keeps the old value of `c` but then gets the new value of `d`; `e` keeps the old value of `d`. -/
example : (do let s ← Ast.run {} exChange; .ok ((List.range 5).map (varVal exInterp s))) = .ok [some 5, some 7, some 5, some (-2), some 3] := by
  decide +kernel

/-- The hypothesis of the theorems about copies is met for `e` there, and that of `C82_others` for `a`. -/
example : (do let s ← Ast.run {} exChange
              .ok (decide (s.ptrs[1]? ≠ s.ptrs[4]?), decide (s.ptrs[2]? ≠ s.ptrs[4]?), decide (s.ptrs[1]? ≠ s.ptrs[0]?))) =
    .ok (true, true, true) := by
  decide +kernel

/-- The same constant in a sum and in a difference: after `set_value`, the difference has the new value but the sum has the old one. The
documentation does not say so (`include/aux/yc_node_api.hpp:309-313`). -/
theorem C82_shared_wrong : ∃ (cs : List (Call String)) (s : Ast String) (s' : Ast String), Ast.run {} cs = .ok s ∧ s.step (.setValue 1 7) = .ok s' ∧
    cs = [.point "a", .const 2, .add 0 1, .sub 0 1] ∧ varVal exInterp s 2 = some 7 ∧ varVal exInterp s 3 = some 3 ∧
    varVal exInterp s' 2 = some 7 ∧ varVal exInterp s' 3 = some (-2) :=
  ⟨_, _, _, by rfl, by rfl, rfl, by decide +kernel, by decide +kernel, by decide +kernel, by decide +kernel⟩

/-- An integer operand of 2^53 + 1 becomes 2^53 without an error, but `new_const_number_node` fails for it. -/
theorem C82_operand_wrong : toDouble (2 ^ 53 + 1) = 2 ^ 53 ∧ constIdx (2 ^ 53 + 1) = .throws ∧ constIdx (2 ^ 63 - 1) = .undefined := by
  decide +kernel

/-- Null pointers: `null - x` is `-x` and `null / null` is 1, but `null - null` is undefined (with assertions, a failure). -/
example : (do let s ← Ast.run {} [.point "a", .null, .sub 1 0, .div 1 1, .add 1 0, .add 1 1]
              .ok ((List.range 6).map (varVal exInterp s))) = .ok [some 5, none, some (-5), some 1, some 5, none] ∧
    (∃ _ : Unit, Ast.run (π := String) {} [.null, .sub 0 0] = .undefined) := by
  exact ⟨by decide +kernel, ⟨(), rfl⟩⟩

/-- The hypotheses of the theorems about common-subexpression elimination are met. -/
example : (∃ s, Ast.run {} exBuild = .ok s ∧ 0 < s.eqs.length) ∧ ∀ r x, .addOperand r x ∉ exBuild := by
  refine ⟨⟨_, rfl, by decide +kernel⟩, fun r x h => ?_⟩
  simp [exBuild] at h

end Yask
