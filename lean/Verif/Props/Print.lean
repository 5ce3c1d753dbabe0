import Mathlib.Tactic.Linarith
import Mathlib.Tactic.NormNum
import Verif.Compiler.PrintState

/-!
# Properties of printed equations

* C61: the C++ code printed for the equations of a part stores the values of the equations.
* C62: the text of a constant has the value of the constant.
-/

namespace Yask
open Spec.Cpp Comp

section
variable {R π : Type} [DecidableEq π]

/-- C61 (part): for all limits on the sizes of expressions, and however the nodes of the equations are shared: if the equations set
different points and read none of them, and contain none of the cases of `C61_wrong`, then the printed code is accepted, its run is
defined, and it stores the value of each equation to its point and changes nothing else.
Missing: the other ways to load points (into buffers, unaligned), and functions of an integer (see `Ex.Plain` for the other
restrictions; without them the property is false). -/
theorem C61_partial (A : Arith R) (o : PrintOpts) (node : Nat → Ex π) (m : π → R) (es : List (π × Ex π)) (hd : (es.map (·.1)).Nodup)
    (hn : ∀ e ∈ es, e.2.All (Ex.NodeOk A m node (es.map (·.1)))) (hp : ∀ e ∈ es, e.2.Plain A) :
    ∃ code, printPart o es = .ok code ∧ ∃ env m', execAll A code (fun _ => none, m) = .ok (env, m') ∧
      (∀ e ∈ es, m' e.1 = e.2.value A m) ∧ ∀ p ∉ es.map (·.1), m' p = m p := by
  obtain ⟨s, env, h1, h2⟩ := printEqs_ok o es _ _ _ (pinv_init (A := A) (m := m) (node := node) (ws := es.map (·.1)))
    fun e he => ⟨List.mem_map_of_mem he, hn e he, hp e he⟩
  refine ⟨s.out, by unfold printPart; rw [h1]; rfl, env, _, h2.run, ?_⟩
  have key : ∀ (l : List (π × Ex π)) (m0 : π → R), (l.map (·.1)).Nodup →
      (∀ e ∈ l, l.foldl (fun m' e => upd m' e.1 (e.2.value A m)) m0 e.1 = e.2.value A m) ∧
      ∀ p ∉ l.map (·.1), l.foldl (fun m' e => upd m' e.1 (e.2.value A m)) m0 p = m0 p := by
    intro l
    induction l with
    | nil => intro m0 _; exact ⟨by simp, by simp⟩
    | cons x l ih =>
      intro m0 hl
      simp only [List.map_cons, List.nodup_cons] at hl
      obtain ⟨a, b⟩ := ih (upd m0 x.1 (x.2.value A m)) hl.2
      refine ⟨fun e he => ?_, fun p hp => ?_⟩
      · rcases List.mem_cons.mp he with rfl | he
        · rw [List.foldl_cons, b _ hl.1]; simp [upd]
        · exact a e he
      · simp only [List.map_cons, List.mem_cons, not_or] at hp
        rw [List.foldl_cons, b p hp.2]
        simp [upd, hp.1]
  exact key es m hd
end

/-- Rational arithmetic, where functions add their arguments. -/
def ratArith : Arith ℚ where
  lit q := q
  neg := fun a => -a
  bin op := match op with
    | .add => (· + ·)
    | .sub => (· - ·)
    | .mul => (· * ·)
    | .div => (· / ·)
    | .mod => fun _ _ => 0
  fn _ vs := vs.sum

namespace PrintExample

/-- `a + 2`, shared by the functions and the sum. -/
def shared : Ex Nat := .comm 3 .add [.read 1 7, .const 2 2]
/-- Sine, paired with the cosine. -/
def sine : Ex Nat := .func 4 "sin" (some (5, "cos")) [shared]
/-- Cosine, paired with the sine. -/
def cosine : Ex Nat := .func 5 "cos" (some (4, "sin")) [shared]
/-- First equation. -/
def rhs0 : Ex Nat := .comm 6 .mul [sine, .neg 8 shared, .bin 7 .sub (.read 9 8) (.const 10 (-3))]
/-- Second equation. -/
def rhs1 : Ex Nat := .bin 11 .div cosine shared
/-- The node of each identity. -/
def node : Nat → Ex Nat
  | 1 => .read 1 7 | 2 => .const 2 2 | 3 => shared | 4 => sine | 5 => cosine | 6 => rhs0
  | 7 => .bin 7 .sub (.read 9 8) (.const 10 (-3)) | 8 => .neg 8 shared | 9 => .read 9 8 | 10 => .const 10 (-3) | _ => rhs1
/-- Two equations. -/
def eqs : List (Nat × Ex Nat) := [(0, rhs0), (1, rhs1)]
/-- Node 3 has three users; a limit of two nodes. -/
def opts : PrintOpts := ⟨fun i => if i = 3 then 4 else 1, fun i => if i = 6 then 12 else 3, 2, 2⟩
/-- Value at a point after a run, if it is defined. -/
def resultAt (A : Arith ℚ) (o : PrintOpts) (es : List (Nat × Ex Nat)) (m : Nat → ℚ) (p : Nat) : Outcome ℚ := do
  let code ← printPart o es
  let s ← execAll A code (fun _ => none, m)
  .ok (s.2 p)

/-- The hypotheses of `C61_partial` hold for them. -/
example (m : Nat → ℚ) : (eqs.map (·.1)).Nodup ∧ (∀ e ∈ eqs, e.2.All (Ex.NodeOk ratArith m node (eqs.map (·.1)))) ∧
    ∀ e ∈ eqs, e.2.Plain ratArith := by
  refine ⟨by decide, ?_, ?_⟩
  · simp [eqs, rhs0, rhs1, sine, cosine, shared, Ex.All, Ex.Alls, Ex.NodeOk, Ex.id, node, Ex.values]
  · have h2 : ((2 : ℚ)).den = 1 := by decide
    have h3 : ((-3 : ℚ)).den = 1 := by decide
    simp [eqs, rhs0, rhs1, sine, cosine, shared, Ex.Plain, Ex.PlainFold, Ex.Plains, IntOk, Ex.intOf, intApply, intNeg, Ex.intFold, Ex.Minus]
    norm_num [h2, h3]

/-- The results for `a = 1`, `b = 4`: 3·(-3)·(4+3), and 3/3. -/
example : resultAt ratArith opts eqs (fun p => if p = 7 then 1 else 4) 0 = .ok (-63) ∧
    resultAt ratArith opts eqs (fun p => if p = 7 then 1 else 4) 1 = .ok 1 := by decide +kernel

end PrintExample

open PrintExample

/-- C61 is false without the restrictions of `C61_partial`:
* `-(-a)` is printed as `--a`, which is not accepted;
* so is the negation of a negative constant;
* `(1/2)*a` is computed with the integer division `1/2`, so the result is 0;
* a sum of integer constants can overflow;
* `%` of real values is not accepted. -/
theorem C61_wrong :
    resultAt ratArith ⟨fun _ => 1, fun _ => 3, 50, 2⟩ [(0, .neg 1 (.neg 2 (.read 3 7)))] (fun _ => 4) 0 = .throws ∧
    resultAt ratArith ⟨fun _ => 1, fun _ => 3, 50, 2⟩ [(0, .bin 1 .add (.read 3 7) (.neg 2 (.const 4 (-1))))] (fun _ => 4) 0 = .throws ∧
    resultAt ratArith ⟨fun _ => 1, fun _ => 3, 50, 2⟩ [(0, .comm 1 .mul [.bin 2 .div (.const 3 1) (.const 4 2), .read 5 7])]
      (fun _ => 4) 0 = .ok 0 ∧
    (Ex.comm 1 Op.mul [.bin 2 .div (.const 3 1) (.const 4 2), .read 5 7]).value ratArith (fun _ => (4 : ℚ)) = (2 : ℚ) ∧
    resultAt ratArith ⟨fun _ => 1, fun _ => 3, 50, 2⟩ [(0, .comm 1 .add [.const 3 2147483647, .const 4 1, .read 5 7])]
      (fun _ => 4) 0 = .undefined ∧
    resultAt ratArith ⟨fun _ => 1, fun _ => 3, 50, 2⟩ [(0, .bin 1 .mod (.read 3 7) (.const 4 3))] (fun _ => 4) 0 = .throws := by
  decide +kernel

section
variable {R : Type}

/-- C62 (part): an integer in the range of `int` is written exactly. -/
theorem C62_int_partial (A : Arith R) (env : Name → Option R) (n : ℤ) (h1 : -(2 ^ 31) ≤ n) (h2 : n < 2 ^ 31) :
    ∃ t, constText (n : ℚ) = .ok t ∧ textVal A env t = .ok (A.lit n) := by
  obtain ⟨t, ht, hv⟩ := constText_ok (π := Unit) (A := A) (m := fun _ => A.lit 0) env 0 (n : ℚ)
    ⟨by have : (-(2 ^ 31) : ℚ) ≤ n := by exact_mod_cast h1
        linarith, by exact_mod_cast h2, by simp⟩
  exact ⟨t, ht, hv.sum.textVal⟩

/-- C62 (part): other constants in that range are written as the nearest decimal number with 16 digits (with a minus sign if
negative), so that the relative error is at most `1 / (2 * 10^15)`.
Missing: the text does not always give the constant again (`C62_inexact`), and larger constants are not defined
(`C62_large`). -/
theorem C62_real_partial (A : Arith R) (env : Name → Option R) (q : ℚ) (hd : q.den ≠ 1) (h1 : -(2 ^ 31) - 1 < q) (h2 : q < 2 ^ 31) :
    ∃ t d, constText q = .ok t ∧ 0 < d ∧ IsDec16 |q| d ∧ abs (|q| - d) ≤ d / (2 * 10 ^ 15) ∧
      textVal A env t = .ok (if q < 0 then A.neg (A.lit d) else A.lit d) := by
  have hr := trunc_range h1 h2
  have ht : ¬ (trunc q : ℚ) = q := fun h => hd ((trunc_den q).mp h)
  have hq : q ≠ 0 := by rintro rfl; exact hd rfl
  have hs := dec16_spec (abs_pos.mpr hq)
  have hb : 0 < dec16 |q| ∧ abs (|q| - dec16 |q|) ≤ dec16 |q| / (2 * 10 ^ 15) := by
    obtain ⟨e, k, k1, k2, k3, k4⟩ := hs
    have hu : (0 : ℚ) < (10 : ℚ) ^ (e - 15) := zpow_pos (by norm_num) _
    have hk : (10 ^ 15 : ℚ) ≤ k := by exact_mod_cast k1
    have hm : 10 ^ 15 * (10 : ℚ) ^ (e - 15) ≤ k * (10 : ℚ) ^ (e - 15) := mul_le_mul_of_nonneg_right hk hu.le
    rw [← k3] at hm
    refine ⟨by linarith, k4.trans ?_⟩
    rw [div_le_div_iff₀ (by norm_num) (by norm_num)]
    linarith
  refine ⟨realText q, dec16 |q|, by unfold constText; rw [if_pos hr, if_neg ht], hb.1, hs, hb.2, ?_⟩
  unfold realText
  split_ifs with hn
  · rw [abs_of_neg hn]
    simp [textVal, parse, lex, parseAdd, parseMul, parseUnary, parsePrim, mulLoop, addLoop, CE.eval, negVal, Val.toReal]
  · rw [abs_of_nonneg (not_lt.mp hn)]
    simp [textVal, parse, lex, parseAdd, parseMul, parseUnary, parsePrim, mulLoop, addLoop, CE.eval, Val.toReal]

/-- A constant of the second kind: 1/3 is written as 0.3333333333333333. -/
example : constText (1 / 3) = .ok [.realLit (3333333333333333 / 10 ^ 16)] := by decide +kernel

/-- C62 is false: two different numbers of type `double`, one of them the double that `0.1 + 0.2` gives, are written as the
same text (0.3), so at least one of them is read as a different number. -/
theorem C62_inexact : constText (5404319552844596 / 2 ^ 54) = .ok [.realLit (3 / 10)] ∧
    constText (5404319552844595 / 2 ^ 54) = .ok [.realLit (3 / 10)] := by decide +kernel

/-- C62 is false: the conversion of a constant to `int` is not defined for constants that are not in its range. -/
theorem C62_large (q : ℚ) (h : 2 ^ 31 ≤ q ∨ q ≤ -(2 ^ 31) - 1) : constText q = .undefined := by
  unfold constText
  rw [if_neg]
  unfold trunc
  rintro ⟨h1, h2⟩
  rcases h with h | h
  · rw [if_pos (le_trans (by norm_num) h), Int.floor_lt] at h2
    push_cast at h2
    linarith
  · rw [if_neg (by rw [not_le]; exact lt_of_le_of_lt h (by norm_num))] at h1
    have h3 : ⌈q⌉ ≤ (-(2 ^ 31) - 1 : ℤ) := by rw [Int.ceil_le]; push_cast; linarith
    omega

end
end Yask
