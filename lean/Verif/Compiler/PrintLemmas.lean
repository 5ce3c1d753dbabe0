import Verif.Compiler.PrintModel
import Mathlib.Tactic.Linarith
import Mathlib.Tactic.Positivity
import Mathlib.Tactic.FieldSimp
import Mathlib.Tactic.Ring
import Mathlib.Tactic.NormNum

/-! # Lemmas about printed text: lexing, parsing, evaluation -/

namespace Yask.Comp
open Spec.Cpp

/-! ## Lexing -/

/-- Text after which lexing starts afresh. -/
def Clean (t : List Piece) : Prop := ∀ u, lex (t ++ u) = lex t ++ lex u

theorem Clean.append {t u : List Piece} (ht : Clean t) (hu : Clean u) : Clean (t ++ u) := by
  intro w
  rw [List.append_assoc, ht, hu, ht, List.append_assoc]

theorem clean_nil : Clean [] := fun _ => by simp [lex]
theorem clean_word (x : Name) : Clean [.word x] := fun _ => by simp [lex]
theorem clean_fn (f : String) : Clean [.fn f] := fun _ => by simp [lex]
theorem clean_int (n : Nat) : Clean [.intLit n] := fun _ => by simp [lex]
theorem clean_real (q : ℚ) : Clean [.realLit q] := fun _ => by simp [lex]
theorem clean_lpar : Clean [.sym .lpar] := fun _ => by simp [lex]
theorem clean_rpar : Clean [.sym .rpar] := fun _ => by simp [lex]
theorem clean_comma : Clean [.sym .comma, .blank] := fun _ => by simp [lex]
theorem clean_op (op : Op) : Clean (opText op) := fun _ => by cases op <;> simp [lex, opText, opSym]
theorem lex_op (op : Op) : lex (opText op) = [.sym (opSym op)] := by cases op <;> simp [lex, opText, opSym]

theorem lex_minus {a : Piece} {r : List Piece} (h : a ≠ .sym .minus) : lex (.sym .minus :: a :: r) = .sym .minus :: lex (a :: r) := by
  cases a with
  | sym s => cases s <;> first | exact absurd rfl h | simp [lex]
  | _ => simp [lex]

theorem clean_minus {a : Piece} {r : List Piece} (h : a ≠ .sym .minus) (hc : Clean (a :: r)) : Clean (.sym .minus :: a :: r) := by
  intro u
  have := hc u
  simp only [List.cons_append] at *
  rw [lex_minus h, lex_minus h, this, List.cons_append]

/-! ## Parsing -/

/-- Tokens that are one operand. -/
def UText (ts : List Tok) (a : CE) : Prop :=
  1 ≤ ts.length ∧ ∀ k rest, 4 * ts.length ≤ k → parseUnary k (ts ++ rest) = some (a, rest)

/-- What may follow an expression. -/
def Stop (r : List Tok) : Prop := r = [] ∨ (∃ r', r = .sym .rpar :: r') ∨ ∃ r', r = .sym .comma :: r'

/-- Tokens that are a sum or product of operands. -/
def AText (ts : List Tok) (a : CE) : Prop :=
  1 ≤ ts.length ∧ ∀ k rest, Stop rest → 4 * ts.length + 4 ≤ k → parseAdd k (ts ++ rest) = some (a, rest)

theorem utext_prim {t : Tok} {a : CE} (h : ∀ k r, parsePrim (k + 1) (t :: r) = some (a, r)) (hm : t ≠ .sym .minus) : UText [t] a := by
  refine ⟨by simp, fun k rest hk => ?_⟩
  obtain ⟨k, rfl⟩ : ∃ j, k = j + 2 := ⟨k - 2, by simp at hk; omega⟩
  have hx : parseUnary (k + 2) (t :: rest) = parsePrim (k + 1) (t :: rest) := by
    rw [parseUnary]
    intro r hr
    injection hr with h1 h2
    exact hm h1
  rw [List.singleton_append, hx, h]

theorem utext_id (x : Name) : UText [.id x] (.var x) := utext_prim (fun k r => by simp [parsePrim]) (by simp)
theorem utext_int (n : Nat) : UText [.int n] (.int n) := utext_prim (fun k r => by simp [parsePrim]) (by simp)
theorem utext_real (q : ℚ) : UText [.real q] (.real q) := utext_prim (fun k r => by simp [parsePrim]) (by simp)

theorem UText.neg {ts : List Tok} {a : CE} (h : UText ts a) : UText (.sym .minus :: ts) (.neg a) := by
  refine ⟨by simp, fun k rest hk => ?_⟩
  obtain ⟨k, rfl⟩ : ∃ j, k = j + 1 := ⟨k - 1, by simp at hk; omega⟩
  rw [List.cons_append, parseUnary, h.2 k rest (by simp at hk; omega)]
  rfl

theorem AText.paren {ts : List Tok} {a : CE} (h : AText ts a) : UText (.sym .lpar :: (ts ++ [.sym .rpar])) a := by
  refine ⟨by simp, fun k rest hk => ?_⟩
  obtain ⟨k, rfl⟩ : ∃ j, k = j + 2 := ⟨k - 2, by simp at hk; omega⟩
  have hx : parseUnary (k + 2) (.sym .lpar :: (ts ++ .sym .rpar :: rest)) = parsePrim (k + 1) (.sym .lpar :: (ts ++ .sym .rpar :: rest)) := by
    rw [parseUnary]
    intro r hr
    injection hr with h1 h2
    simp at h1
  have e : (Tok.sym .lpar :: (ts ++ [.sym .rpar])) ++ rest = .sym .lpar :: (ts ++ .sym .rpar :: rest) := by simp
  rw [e, hx, parsePrim, h.2 k (.sym .rpar :: rest) (.inr (.inl ⟨_, rfl⟩)) (by simp at hk; omega)]

/-- Further operands. -/
def tailToks (op : Op) (l : List (List Tok × CE)) : List Tok := l.flatMap fun x => .sym (opSym op) :: x.1

theorem mulLoop_stop {k : Nat} {a : CE} {r : List Tok} (h : Stop r ∨ (∃ r', r = .sym .plus :: r') ∨ ∃ r', r = .sym .minus :: r') :
    mulLoop (k + 1) a r = some (a, r) := by
  rcases h with (rfl | ⟨r', rfl⟩ | ⟨r', rfl⟩) | ⟨r', rfl⟩ | ⟨r', rfl⟩ <;> simp [mulLoop]

theorem addLoop_stop {k : Nat} {a : CE} {r : List Tok} (h : Stop r) : addLoop (k + 1) a r = some (a, r) := by
  rcases h with rfl | ⟨r', rfl⟩ | ⟨r', rfl⟩ <;> simp [addLoop]

theorem mulLoop_tail {op : Op} (hop : op = .mul ∨ op = .div ∨ op = .mod) (l : List (List Tok × CE)) (hl : ∀ x ∈ l, UText x.1 x.2) :
    ∀ (k : Nat) (a : CE) (rest : List Tok), Stop rest → 4 * (tailToks op l).length + 1 ≤ k →
      mulLoop k a (tailToks op l ++ rest) = some (l.foldl (fun c x => .bin op c x.2) a, rest) := by
  induction l with
  | nil =>
    intro k a rest hs hk
    obtain ⟨k, rfl⟩ : ∃ j, k = j + 1 := ⟨k - 1, by omega⟩
    simp [tailToks, mulLoop_stop (.inl hs)]
  | cons x l ih =>
    intro k a rest hs hk
    have hu := hl x (by simp)
    have hlen : (tailToks op (x :: l)).length = 1 + x.1.length + (tailToks op l).length := by simp [tailToks]; omega
    obtain ⟨k, rfl⟩ : ∃ j, k = j + 1 := ⟨k - 1, by omega⟩
    have e : tailToks op (x :: l) ++ rest = .sym (opSym op) :: (x.1 ++ (tailToks op l ++ rest)) := by simp [tailToks]
    rw [e]
    have h1 := hu.2 k (tailToks op l ++ rest) (by omega)
    have h2 := ih (fun y hy => hl y (by simp [hy])) k (.bin op a x.2) rest hs (by omega)
    rcases hop with rfl | rfl | rfl <;> (simp only [opSym] at *; rw [mulLoop, h1]; simpa using h2)

theorem tail_head {op : Op} (hop : op = .add ∨ op = .sub) (l : List (List Tok × CE)) {rest : List Tok} (hs : Stop rest) :
    Stop (tailToks op l ++ rest) ∨ (∃ r', tailToks op l ++ rest = .sym .plus :: r') ∨ ∃ r', tailToks op l ++ rest = .sym .minus :: r' := by
  cases l with
  | nil => exact .inl (by simpa [tailToks] using hs)
  | cons x l => rcases hop with rfl | rfl <;> simp [tailToks, opSym]

theorem addLoop_tail {op : Op} (hop : op = .add ∨ op = .sub) (l : List (List Tok × CE)) (hl : ∀ x ∈ l, UText x.1 x.2) :
    ∀ (k : Nat) (a : CE) (rest : List Tok), Stop rest → 4 * (tailToks op l).length + 1 ≤ k →
      addLoop k a (tailToks op l ++ rest) = some (l.foldl (fun c x => .bin op c x.2) a, rest) := by
  induction l with
  | nil =>
    intro k a rest hs hk
    obtain ⟨k, rfl⟩ : ∃ j, k = j + 1 := ⟨k - 1, by omega⟩
    simp [tailToks, addLoop_stop hs]
  | cons x l ih =>
    intro k a rest hs hk
    have hu := hl x (by simp)
    have hlen : (tailToks op (x :: l)).length = 1 + x.1.length + (tailToks op l).length := by simp [tailToks]; omega
    have h1l := hu.1
    obtain ⟨k, rfl⟩ : ∃ j, k = j + 3 := ⟨k - 3, by omega⟩
    have e : tailToks op (x :: l) ++ rest = .sym (opSym op) :: (x.1 ++ (tailToks op l ++ rest)) := by simp [tailToks]
    rw [e]
    have h1 : parseMul (k + 2) (x.1 ++ (tailToks op l ++ rest)) = some (x.2, tailToks op l ++ rest) := by
      rw [parseMul, hu.2 (k + 1) _ (by omega)]
      exact mulLoop_stop (tail_head hop l hs)
    have h2 := ih (fun y hy => hl y (by simp [hy])) (k + 2) (.bin op a x.2) rest hs (by omega)
    rcases hop with rfl | rfl <;> (simp only [opSym] at *; rw [addLoop, h1]; simpa using h2)

/-- An operand followed by further operands with the same operator. -/
theorem atext_fold (op : Op) {ts : List Tok} {a : CE} (h : UText ts a) (l : List (List Tok × CE)) (hl : ∀ x ∈ l, UText x.1 x.2) :
    AText (ts ++ tailToks op l) (l.foldl (fun c x => .bin op c x.2) a) := by
  have h1 := h.1
  refine ⟨by simp; omega, fun k rest hs hk => ?_⟩
  simp only [List.length_append] at hk
  obtain ⟨k, rfl⟩ : ∃ j, k = j + 3 := ⟨k - 3, by omega⟩
  rw [List.append_assoc, parseAdd, parseMul, h.2 (k + 1) _ (by omega)]
  by_cases hop : op = .add ∨ op = .sub
  · simp only
    rw [mulLoop_stop (tail_head hop l hs)]
    simp only
    exact addLoop_tail hop l hl (k + 2) a rest hs (by omega)
  · have hop' : op = .mul ∨ op = .div ∨ op = .mod := by cases op <;> simp_all
    simp only
    rw [mulLoop_tail hop' l hl (k + 1) a rest hs (by omega)]
    simp only
    exact addLoop_stop hs

theorem UText.atext {ts : List Tok} {a : CE} (h : UText ts a) : AText ts a := by
  simpa [tailToks] using atext_fold .add h [] (by simp)

/-- Arguments. -/
def argToks : List (List Tok × CE) → List Tok
  | [] => []
  | [x] => x.1
  | x :: xs => x.1 ++ .sym .comma :: argToks xs

theorem parseArgs_ok (l : List (List Tok × CE)) (hne : l ≠ []) (hl : ∀ x ∈ l, UText x.1 x.2) :
    ∀ (k : Nat) (rest : List Tok), 4 * (argToks l).length + 5 ≤ k →
      parseArgs k (argToks l ++ .sym .rpar :: rest) = some (l.map (·.2), rest) := by
  induction l with
  | nil => exact absurd rfl hne
  | cons x l ih =>
    intro k rest hk
    have hu := (hl x (by simp)).atext
    obtain ⟨k, rfl⟩ : ∃ j, k = j + 1 := ⟨k - 1, by omega⟩
    cases l with
    | nil =>
      simp only [argToks] at *
      rw [parseArgs, hu.2 k _ (.inr (.inl ⟨_, rfl⟩)) (by omega)]
      rfl
    | cons y l =>
      have e : argToks (x :: y :: l) = x.1 ++ .sym .comma :: argToks (y :: l) := rfl
      have hlen : (argToks (x :: y :: l)).length = x.1.length + 1 + (argToks (y :: l)).length := by rw [e]; simp; omega
      rw [e, List.append_assoc, List.cons_append, parseArgs, hu.2 k _ (.inr (.inr ⟨_, rfl⟩)) (by omega)]
      have := ih (by simp) (fun z hz => hl z (by simp [hz])) k rest (by omega)
      simp only [this]
      rfl

theorem utext_call (f : String) (l : List (List Tok × CE)) (hne : l ≠ []) (hl : ∀ x ∈ l, UText x.1 x.2) :
    UText (.fn f :: .sym .lpar :: (argToks l ++ [.sym .rpar])) (.call f (l.map (·.2))) := by
  refine ⟨by simp, fun k rest hk => ?_⟩
  simp only [List.length_cons, List.length_append, List.length_nil] at hk
  obtain ⟨k, rfl⟩ : ∃ j, k = j + 2 := ⟨k - 2, by omega⟩
  have e : (Tok.fn f :: .sym .lpar :: (argToks l ++ [.sym .rpar])) ++ rest = .fn f :: .sym .lpar :: (argToks l ++ .sym .rpar :: rest) := by simp
  have hx : parseUnary (k + 2) (.fn f :: .sym .lpar :: (argToks l ++ .sym .rpar :: rest)) =
      parsePrim (k + 1) (.fn f :: .sym .lpar :: (argToks l ++ .sym .rpar :: rest)) := by
    rw [parseUnary]
    intro r hr
    simp at hr
  rw [e, hx, parsePrim, parseArgs_ok l hne hl k rest (by omega)]
  rfl

theorem parse_atext {t : List Piece} {a : CE} (h : AText (lex t) a) : parse t = some a := by
  unfold parse
  have := h.2 (4 * (lex t).length + 4) [] (.inl rfl) (by omega)
  rw [List.append_nil] at this
  rw [this]

end Yask.Comp
