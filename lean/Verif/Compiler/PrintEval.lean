import Verif.Compiler.PrintLemmas

/-! # Lemmas about the values of printed text -/

namespace Yask.Comp
open Spec.Cpp

/-! ## Constants -/

theorem nearestEven_spec (x : ℚ) : ⌊x⌋ ≤ nearestEven x ∧ nearestEven x ≤ ⌊x⌋ + 1 ∧ |x - nearestEven x| ≤ 1 / 2 := by
  have h1 := Int.floor_le x
  have h2 := Int.lt_floor_add_one x
  unfold nearestEven
  simp only
  split_ifs with a b c
  · refine ⟨le_refl _, by omega, ?_⟩
    rw [abs_le]; constructor <;> linarith
  · refine ⟨by omega, le_refl _, ?_⟩
    push_cast
    rw [abs_le]; constructor <;> linarith
  · refine ⟨le_refl _, by omega, ?_⟩
    rw [abs_le]; constructor <;> linarith
  · refine ⟨by omega, le_refl _, ?_⟩
    push_cast
    rw [abs_le]; constructor <;> linarith

theorem dec16_spec {q : ℚ} (hq : 0 < q) : IsDec16 q (dec16 q) := by
  have hlo : (10 : ℚ) ^ Int.log 10 q ≤ q := Int.zpow_log_le_self (by norm_num) hq
  have hhi : q < (10 : ℚ) ^ (Int.log 10 q + 1) := Int.lt_zpow_succ_log_self (by norm_num) q
  set e := Int.log 10 q with he
  have hu : (0 : ℚ) < (10 : ℚ) ^ (e - 15) := zpow_pos (by norm_num) _
  have e1 : (10 : ℚ) ^ e = 10 ^ 15 * (10 : ℚ) ^ (e - 15) := by
    rw [← zpow_natCast, ← zpow_add₀ (by norm_num)]; congr 1; push_cast; ring
  have e2 : (10 : ℚ) ^ (e + 1) = 10 ^ 16 * (10 : ℚ) ^ (e - 15) := by
    rw [← zpow_natCast, ← zpow_add₀ (by norm_num)]; congr 1; push_cast; ring
  set x := q / (10 : ℚ) ^ (e - 15) with hx
  have hxl : (10 : ℚ) ^ 15 ≤ x := by rw [hx, le_div_iff₀ hu, ← e1]; exact hlo
  have hxh : x < (10 : ℚ) ^ 16 := by rw [hx, div_lt_iff₀ hu, ← e2]; exact hhi
  obtain ⟨n1, n2, n3⟩ := nearestEven_spec x
  have f1 : (10 : ℤ) ^ 15 ≤ ⌊x⌋ := by rw [Int.le_floor]; exact_mod_cast hxl
  have f2 : ⌊x⌋ < (10 : ℤ) ^ 16 := by rw [Int.floor_lt]; exact_mod_cast hxh
  refine ⟨e, nearestEven x, by omega, by omega, ?_, ?_⟩
  · unfold dec16; rw [← he, ← hx]
  · have hd : dec16 q = nearestEven x * (10 : ℚ) ^ (e - 15) := by unfold dec16; rw [← he, ← hx]
    have hqx : q = x * (10 : ℚ) ^ (e - 15) := by rw [hx]; field_simp
    rw [hd]
    have : q - nearestEven x * (10 : ℚ) ^ (e - 15) = (x - nearestEven x) * (10 : ℚ) ^ (e - 15) := by
      rw [sub_mul, ← hqx]
    rw [this, abs_mul, abs_of_pos hu]
    nlinarith

theorem trunc_den (q : ℚ) : (trunc q : ℚ) = q ↔ q.den = 1 := by
  constructor
  · intro h; rw [← h]; simp
  · intro h
    have hq : q = (q.num : ℚ) := (Rat.den_eq_one_iff q).mp h |>.symm
    rw [hq]
    unfold trunc
    split_ifs <;> simp

/-- `trunc` is within the range of `int` for the numbers that are. -/
theorem trunc_range {q : ℚ} (h1 : -(2 ^ 31) - 1 < q) (h2 : q < 2 ^ 31) : -(2 ^ 31) ≤ trunc q ∧ trunc q < 2 ^ 31 := by
  unfold trunc
  split_ifs with h
  · constructor
    · have : (0 : ℤ) ≤ ⌊q⌋ := Int.floor_nonneg.mpr h
      omega
    · rw [Int.floor_lt]; exact_mod_cast h2
  · constructor
    · have : (-(2 ^ 31) - 1 : ℤ) < ⌈q⌉ := by rw [Int.lt_ceil]; push_cast; linarith
      omega
    · have : ⌈q⌉ ≤ 0 := by rw [Int.ceil_le]; push_cast; linarith
      omega

/-! ## Evaluation -/

section
variable {R π : Type}

/-- Variables are only added. -/
def EnvExt (env env' : Name → Option R) : Prop := ∀ x v, env x = some v → env' x = some v

theorem EnvExt.refl (env : Name → Option R) : EnvExt env env := fun _ _ h => h
theorem EnvExt.trans {a b c : Name → Option R} (h : EnvExt a b) (h' : EnvExt b c) : EnvExt a c := fun x v hx => h' x v (h x v hx)

/-- The value is the real number `r`, or the integer given by `io`, which is `r` as a real number. -/
def VOk (A : Arith R) (v : Val R) (r : R) (io : Option (Bool × Int)) : Prop :=
  v = .real r ∨ ∃ l n, io = some (l, n) ∧ v = .int l n ∧ A.lit (n : ℚ) = r

theorem VOk.toReal {A : Arith R} {v : Val R} {r : R} {io : Option (Bool × Int)} (h : VOk A v r io) : v.toReal A = r := by
  rcases h with rfl | ⟨l, n, _, rfl, h⟩
  · rfl
  · exact h

/-- The expression has the value in all further states. -/
def EvalsTo (A : Arith R) (env : Name → Option R) (c : CE) (r : R) (io : Option (Bool × Int)) : Prop :=
  ∃ v, (∀ env', EnvExt env env' → c.eval A env' = .ok v) ∧ VOk A v r io

theorem EvalsTo.mono {A : Arith R} {env env' : Name → Option R} {c : CE} {r : R} {io : Option (Bool × Int)}
    (h : EvalsTo A env c r io) (he : EnvExt env env') : EvalsTo A env' c r io := by
  obtain ⟨v, h1, h2⟩ := h
  exact ⟨v, fun e'' h' => h1 e'' (he.trans h'), h2⟩

theorem EvalsTo.var {A : Arith R} {env : Name → Option R} {x : Name} {r : R} (h : env x = some r) (io : Option (Bool × Int)) :
    EvalsTo A env (.var x) r io := by
  refine ⟨.real r, fun env' he => ?_, .inl rfl⟩
  rw [CE.eval, he x r h]

theorem EvalsTo.bin {A : Arith R} {env : Name → Option R} {op : Op} {a b : CE} {ra rb : R} {ia ib : Option (Bool × Int)}
    (ha : EvalsTo A env a ra ia) (hb : EvalsTo A env b rb ib) (hop : op ≠ .mod) (hi : IntOk A op ia ib) :
    EvalsTo A env (.bin op a b) (A.bin op ra rb) (intApply op ia ib) := by
  obtain ⟨v, hv, hv'⟩ := ha
  obtain ⟨w, hw, hw'⟩ := hb
  by_cases hint : ∃ l n l' n', v = .int l n ∧ w = .int l' n'
  · obtain ⟨l, n, l', n', rfl, rfl⟩ := hint
    rcases hv' with h | ⟨_, _, ea, e, la⟩
    · cases h
    · injection e with e1 e2
      subst e1 e2
      rcases hw' with h | ⟨_, _, eb, e, lb⟩
      · cases h
      · injection e with e1 e2
        subst e1 e2
        obtain ⟨k, hk1, hk2, hk3⟩ := hi _ _ _ _ ea eb
        refine ⟨.int (l || l') k, fun env' he => ?_, .inr ⟨l || l', k, ?_, rfl, ?_⟩⟩
        · rw [CE.eval, hv env' he, hw env' he]
          simp [binVal, hk1, mkInt, hk2]
        · rw [ea, eb]; simp [intApply, hk1]
        · rw [hk3, la, lb]
  · refine ⟨.real (A.bin op ra rb), fun env' he => ?_, .inl rfl⟩
    rw [CE.eval, hv env' he, hw env' he]
    have hx : binVal A op v w = .ok (.real (A.bin op (v.toReal A) (w.toReal A))) := by
      cases v with
      | real r => cases w <;> simp [binVal, hop]
      | int l n => cases w with
        | real r => simp [binVal, hop]
        | int l' n' => exact absurd ⟨l, n, l', n', rfl, rfl⟩ hint
    simp only [Outcome.bind_ok]
    rw [hx, hv'.toReal, hw'.toReal]

theorem EvalsTo.neg {A : Arith R} {env : Name → Option R} {a : CE} {ra : R} {ia : Option (Bool × Int)}
    (ha : EvalsTo A env a ra ia)
    (hi : ∀ l n, ia = some (l, n) → InRange l (-n) ∧ A.lit ((-n : Int) : ℚ) = A.neg (A.lit n)) :
    EvalsTo A env (.neg a) (A.neg ra) (intNeg ia) := by
  obtain ⟨v, hv, hv'⟩ := ha
  rcases hv' with rfl | ⟨l, n, e, rfl, hl⟩
  · refine ⟨.real (A.neg ra), fun env' he => ?_, .inl rfl⟩
    rw [CE.eval, hv env' he]; rfl
  · obtain ⟨h1, h2⟩ := hi l n e
    refine ⟨.int l (-n), fun env' he => ?_, .inr ⟨l, -n, by rw [e]; rfl, rfl, by rw [h2, hl]⟩⟩
    rw [CE.eval, hv env' he]
    simp [negVal, mkInt, h1]

/-- Values of several expressions. -/
theorem evalAll_ok {A : Arith R} {env : Name → Option R} (l : List (CE × R × Option (Bool × Int)))
    (hl : ∀ x ∈ l, EvalsTo A env x.1 x.2.1 x.2.2) :
    ∃ vs : List (Val R), (∀ env', EnvExt env env' → CE.evalAll A env' (l.map (·.1)) = .ok vs) ∧ vs.map (Val.toReal A) = l.map (·.2.1) := by
  induction l with
  | nil => exact ⟨[], fun _ _ => rfl, rfl⟩
  | cons x l ih =>
    obtain ⟨v, hv, hv'⟩ := hl x (by simp)
    obtain ⟨vs, h1, h2⟩ := ih fun y hy => hl y (by simp [hy])
    refine ⟨v :: vs, fun env' he => ?_, ?_⟩
    · simp [CE.evalAll, hv env' he, h1 env' he]
    · simp [h2, hv'.toReal]

theorem EvalsTo.call {A : Arith R} {env : Name → Option R} (f : String) (l : List (CE × R × Option (Bool × Int)))
    (hl : ∀ x ∈ l, EvalsTo A env x.1 x.2.1 x.2.2) (io : Option (Bool × Int)) :
    EvalsTo A env (.call f (l.map (·.1))) (A.fn f (l.map (·.2.1))) io := by
  obtain ⟨vs, h1, h2⟩ := evalAll_ok l hl
  refine ⟨.real (A.fn f (l.map (·.2.1))), fun env' he => ?_, .inl rfl⟩
  rw [CE.eval, h1 env' he]
  simp [h2]

/-! ## Texts -/

/-- The text is one operand; its value is that of the expression. -/
def TextOk (A : Arith R) (env : Name → Option R) (t : List Piece) (minus : Prop) (r : R) (io : Option (Bool × Int)) : Prop :=
  Clean t ∧ (∃ a u, t = a :: u ∧ (a = .sym .minus → minus)) ∧ ∃ c, UText (lex t) c ∧ EvalsTo A env c r io

theorem TextOk.mono {A : Arith R} {env env' : Name → Option R} {t : List Piece} {mi : Prop} {r : R} {io : Option (Bool × Int)}
    (h : TextOk A env t mi r io) (he : EnvExt env env') : TextOk A env' t mi r io := by
  obtain ⟨h1, h2, c, h3, h4⟩ := h
  exact ⟨h1, h2, c, h3, h4.mono he⟩

theorem TextOk.word {A : Arith R} {env : Name → Option R} {x : Name} {r : R} (h : env x = some r) (mi : Prop) (io : Option (Bool × Int)) :
    TextOk A env [.word x] mi r io :=
  ⟨clean_word x, ⟨_, _, rfl, fun h => by cases h⟩, .var x, by simpa [lex] using utext_id x, .var h io⟩

/-- A text of one or more operands. -/
def SumOk (A : Arith R) (env : Name → Option R) (t : List Piece) (r : R) (io : Option (Bool × Int)) : Prop :=
  Clean t ∧ ∃ c, AText (lex t) c ∧ EvalsTo A env c r io

theorem TextOk.sum {A : Arith R} {env : Name → Option R} {t : List Piece} {mi : Prop} {r : R} {io : Option (Bool × Int)}
    (h : TextOk A env t mi r io) : SumOk A env t r io := by
  obtain ⟨h1, _, c, h3, h4⟩ := h
  exact ⟨h1, c, h3.atext, h4⟩

/-- Evaluation of a declaration. -/
theorem SumOk.textVal {A : Arith R} {env : Name → Option R} {t : List Piece} {r : R} {io : Option (Bool × Int)}
    (h : SumOk A env t r io) : textVal A env t = .ok r := by
  obtain ⟨_, c, h3, v, hv, hv'⟩ := h
  unfold Spec.Cpp.textVal
  rw [parse_atext h3]
  simp [hv env (EnvExt.refl env), hv'.toReal]

theorem TextOk.minus {A : Arith R} {env : Name → Option R} {t : List Piece} {mi : Prop} {r : R} {io : Option (Bool × Int)}
    (h : TextOk A env t mi r io) (hm : ¬ mi)
    (hi : ∀ l n, io = some (l, n) → InRange l (-n) ∧ A.lit ((-n : Int) : ℚ) = A.neg (A.lit n)) (mi' : Prop) (hm' : mi') :
    TextOk A env (.sym .minus :: t) mi' (A.neg r) (intNeg io) := by
  obtain ⟨h1, ⟨a, u, rfl, ha⟩, c, h3, h4⟩ := h
  have hne : a ≠ .sym .minus := fun h => hm (ha h)
  refine ⟨clean_minus hne h1, ⟨_, _, rfl, fun _ => hm'⟩, .neg c, ?_, h4.neg hi⟩
  rw [lex_minus hne]
  exact h3.neg

theorem SumOk.paren {A : Arith R} {env : Name → Option R} {t : List Piece} {r : R} {io : Option (Bool × Int)}
    (h : SumOk A env t r io) (mi : Prop) : TextOk A env (.sym .lpar :: (t ++ [.sym .rpar])) mi r io := by
  obtain ⟨h1, c, h3, h4⟩ := h
  have hc : Clean (.sym .lpar :: (t ++ [.sym .rpar])) := clean_lpar.append (h1.append clean_rpar)
  refine ⟨hc, ⟨_, _, rfl, fun h => by cases h⟩, c, ?_, h4⟩
  have e : lex (.sym .lpar :: (t ++ [.sym .rpar])) = .sym .lpar :: (lex t ++ [.sym .rpar]) := by
    have := clean_lpar (t ++ [.sym .rpar])
    rw [List.singleton_append] at this
    rw [this, h1]
    simp [lex]
  rw [e]
  exact h3.paren

/-- Two operands. -/
theorem TextOk.bin {A : Arith R} {env : Name → Option R} {t u : List Piece} {mi mi' : Prop} {r r' : R} {io io' : Option (Bool × Int)}
    {op : Op} (h : TextOk A env t mi r io) (h' : TextOk A env u mi' r' io') (hop : op ≠ .mod) (hi : IntOk A op io io') :
    SumOk A env (t ++ opText op ++ u) (A.bin op r r') (intApply op io io') := by
  obtain ⟨h1, _, c, h3, h4⟩ := h
  obtain ⟨k1, _, d, k3, k4⟩ := h'
  refine ⟨(h1.append (clean_op op)).append k1, .bin op c d, ?_, h4.bin k4 hop hi⟩
  have e : lex (t ++ opText op ++ u) = lex t ++ tailToks op [(lex u, d)] := by
    rw [(h1.append (clean_op op)) u, h1, lex_op]
    simp [tailToks]
  rw [e]
  simpa using atext_fold op h3 [(lex u, d)] (by simpa using k3)

/-- Texts of the further operands of a sum or product, with their tokens. -/
theorem TextOk.fold {A : Arith R} {m : π → R} {env : Name → Option R} {op : Op} (hop : op ≠ .mod) (as : List (Ex π)) :
    ∀ (ts : List (List Piece)) (t : List Piece) (l : List (List Tok × CE)) (c : CE) (toks : List Tok) (r : R) (io : Option (Bool × Int)),
      List.Forall₂ (fun t a => TextOk A env t (Ex.Minus a) (a.value A m) a.intOf) ts as →
      Clean t → lex t = toks ++ tailToks op l → UText toks c → (∀ x ∈ l, UText x.1 x.2) →
      EvalsTo A env (l.foldl (fun c x => .bin op c x.2) c) r io → Ex.PlainFold A op io as →
      SumOk A env (t ++ (ts.flatMap fun t => opText op ++ t)) (Ex.foldValue A m op r as) (Ex.intFold op io as) := by
  induction as with
  | nil =>
    intro ts t l c toks r io hf hc hl hu hx he _
    cases hf
    refine ⟨by simpa using hc, _, ?_, he⟩
    simp only [List.flatMap_nil, List.append_nil]
    rw [hl]
    exact atext_fold op hu l hx
  | cons a as ih =>
    intro ts t l c toks r io hf hc hl hu hx he hp
    cases hf with
    | cons h1 h2 =>
      rename_i t1 ts
      obtain ⟨hp1, hp2, hp3⟩ := hp
      obtain ⟨k1, _, d, k3, k4⟩ := h1
      have e : t ++ ((t1 :: ts).flatMap fun t => opText op ++ t) = (t ++ opText op ++ t1) ++ (ts.flatMap fun t => opText op ++ t) := by
        simp
      rw [e]
      simp only [Ex.foldValue, Ex.intFold]
      apply ih ts (t ++ opText op ++ t1) (l ++ [(lex t1, d)]) c toks _ _ h2
      · exact (hc.append (clean_op op)).append k1
      · rw [(hc.append (clean_op op)) t1, hc, lex_op, hl]
        simp [tailToks]
      · exact hu
      · intro x hx'
        rcases List.mem_append.mp hx' with h | h
        · exact hx x h
        · simp at h; subst h; exact k3
      · rw [List.foldl_append]
        exact he.bin k4 hop hp2
      · exact hp3

theorem joinText_cons (sep t : List Piece) (ts : List (List Piece)) : joinText sep (t :: ts) = t ++ ts.flatMap fun t => sep ++ t := by
  induction ts generalizing t with
  | nil => simp [joinText]
  | cons u ts ih => rw [joinText, ih]; simp; simp

theorem TextOk.comm {A : Arith R} {m : π → R} {env : Name → Option R} {op : Op} (hop : op ≠ .mod) {a : Ex π} {as : List (Ex π)}
    {t : List Piece} {ts : List (List Piece)} (h : TextOk A env t (Ex.Minus a) (a.value A m) a.intOf)
    (hs : List.Forall₂ (fun t a => TextOk A env t (Ex.Minus a) (a.value A m) a.intOf) ts as) (hp : Ex.PlainFold A op a.intOf as) :
    SumOk A env (joinText (opText op) (t :: ts)) (Ex.foldValue A m op (a.value A m) as) (Ex.intFold op a.intOf as) := by
  rw [joinText_cons]
  obtain ⟨h1, _, c, h3, h4⟩ := h
  exact TextOk.fold hop as ts t [] c (lex t) _ _ hs h1 (by simp [tailToks]) h3 (by simp) h4 hp

/-- Arguments of a call. -/
theorem argText_ok {A : Arith R} {m : π → R} {env : Name → Option R} (as : List (Ex π)) :
    ∀ (ts : List (List Piece)), List.Forall₂ (fun t a => TextOk A env t (Ex.Minus a) (a.value A m) a.intOf) ts as →
      ∃ l : List (List Tok × CE × R × Option (Bool × Int)), l.map (·.2.2.1) = Ex.values A m as ∧ l.length = as.length ∧
        (∀ x ∈ l, UText x.1 x.2.1 ∧ EvalsTo A env x.2.1 x.2.2.1 x.2.2.2) ∧
        Clean (joinText [.sym .comma, .blank] ts) ∧
        lex (joinText [.sym .comma, .blank] ts) = argToks (l.map fun x => (x.1, x.2.1)) := by
  induction as with
  | nil =>
    intro ts h
    cases h
    exact ⟨[], rfl, rfl, by simp, clean_nil, rfl⟩
  | cons a as ih =>
    intro ts h
    cases h with
    | cons h1 h2 =>
      rename_i t ts
      obtain ⟨l, e1, e2, e3, e4, e5⟩ := ih ts h2
      obtain ⟨k1, _, d, k3, k4⟩ := h1
      refine ⟨(lex t, d, a.value A m, a.intOf) :: l, by simp [e1, Ex.values], by simp [e2], ?_, ?_, ?_⟩
      · intro x hx
        rcases List.mem_cons.mp hx with rfl | hx
        · exact ⟨k3, k4⟩
        · exact e3 x hx
      · cases ts with
        | nil => simpa [joinText] using k1
        | cons u ts => exact (k1.append clean_comma).append e4
      · cases ts with
        | nil =>
          cases h2
          have : l = [] := List.length_eq_zero_iff.mp e2
          subst this
          simp [joinText, argToks]
        | cons u ts =>
          cases h2 with
          | cons _ _ =>
            cases l with
            | nil => simp at e2
            | cons y l =>
              have ej : joinText [.sym .comma, .blank] (t :: u :: ts) = t ++ [.sym .comma, .blank] ++ joinText [.sym .comma, .blank] (u :: ts) := rfl
              rw [ej, (k1.append clean_comma), k1, e5]
              simp [lex, argToks]

theorem TextOk.call {A : Arith R} {m : π → R} {env : Name → Option R} (f : String) {as : List (Ex π)} (hne : as ≠ [])
    {ts : List (List Piece)} (h : List.Forall₂ (fun t a => TextOk A env t (Ex.Minus a) (a.value A m) a.intOf) ts as)
    (mi : Prop) (io : Option (Bool × Int)) :
    TextOk A env (.fn f :: .sym .lpar :: (joinText [.sym .comma, .blank] ts ++ [.sym .rpar])) mi (A.fn f (Ex.values A m as)) io := by
  obtain ⟨l, e1, e2, e3, e4, e5⟩ := argText_ok as ts h
  have hc : Clean (.fn f :: .sym .lpar :: (joinText [.sym .comma, .blank] ts ++ [.sym .rpar])) :=
    (clean_fn f).append (clean_lpar.append (e4.append clean_rpar))
  refine ⟨hc, ⟨_, _, rfl, fun h => by cases h⟩, .call f (l.map (·.2.1)), ?_, ?_⟩
  · have e : lex (.fn f :: .sym .lpar :: (joinText [.sym .comma, .blank] ts ++ [.sym .rpar])) =
        .fn f :: .sym .lpar :: (argToks (l.map fun x => (x.1, x.2.1)) ++ [.sym .rpar]) := by
      rw [← e5]
      simp only [lex]
      rw [e4]
      simp [lex]
    rw [e]
    have := utext_call f (l.map fun x => (x.1, x.2.1)) (by
      intro h; apply hne
      have : l = [] := by simpa using h
      subst this
      exact List.length_eq_zero_iff.mp e2.symm) (by
      intro x hx
      obtain ⟨y, hy, rfl⟩ := List.mem_map.mp hx
      exact (e3 y hy).1)
    simpa [List.map_map, Function.comp_def] using this
  · have := EvalsTo.call (A := A) (env := env) f (l.map fun x => (x.2.1, x.2.2.1, x.2.2.2)) (by
      intro x hx
      obtain ⟨y, hy, rfl⟩ := List.mem_map.mp hx
      exact (e3 y hy).2) io
    simp only [List.map_map, Function.comp_def] at this
    rw [← e1]
    exact this

theorem textVals_ok {A : Arith R} {m : π → R} {env : Name → Option R} (as : List (Ex π)) :
    ∀ ts : List (List Piece), List.Forall₂ (fun t a => TextOk A env t (Ex.Minus a) (a.value A m) a.intOf) ts as →
      textVals A env ts = .ok (Ex.values A m as) := by
  induction as with
  | nil => intro ts h; cases h; rfl
  | cons a as ih =>
    intro ts h
    cases h with
    | cons h1 h2 => simp [textVals, h1.sum.textVal, ih _ h2, Ex.values]

/-- Constants. -/
theorem constText_ok {A : Arith R} {m : π → R} (env : Name → Option R) (i : Nat) (q : ℚ) (h : (Ex.const (π := π) i q).Plain A) :
    ∃ t, constText q = .ok t ∧ TextOk A env t (Ex.Minus (.const (π := π) i q)) ((Ex.const i q).value A m) (Ex.const (π := π) i q).intOf := by
  obtain ⟨h1, h2, h3⟩ := h
  have hr := trunc_range h1 h2
  unfold constText
  rw [if_pos hr]
  refine ⟨_, rfl, ?_⟩
  simp only [Ex.value, Ex.Minus]
  by_cases hd : q.den = 1
  · have ht : (trunc q : ℚ) = q := (trunc_den q).mpr hd
    rw [if_pos ht]
    have hnum : q.num = trunc q := by
      have h := congrArg Rat.num ht
      rw [Rat.num_intCast] at h
      exact h.symm
    have hio : (Ex.const (π := π) i q).intOf = some (decide (trunc q = -(2 ^ 31)), trunc q) := by
      rw [Ex.intOf, hnum, if_pos ⟨hd, hr⟩]
    rw [hio]
    generalize trunc q = n at ht hr
    subst ht
    unfold intText
    split_ifs with hn
    · refine ⟨clean_minus (by simp) (clean_int _), ⟨_, _, rfl, fun _ => by exact_mod_cast hn⟩, .neg (.int n.natAbs), ?_, ?_⟩
      · rw [lex_minus (by simp)]; exact (utext_int _).neg
      · refine ⟨.int (decide (n = -(2 ^ 31))) n, fun env' _ => ?_, .inr ⟨_, _, rfl, rfl, rfl⟩⟩
        by_cases hmin : n = -(2 ^ 31)
        · subst hmin
          simp [CE.eval, negVal, mkInt, InRange]
        · have : n.natAbs < 2 ^ 31 := by omega
          have hneg : -(n.natAbs : ℤ) = n := by omega
          rw [CE.eval, CE.eval, if_pos this]
          simp only [Outcome.bind_ok, negVal, mkInt, hneg, decide_eq_false hmin]
          rw [if_pos]
          simp [InRange]; omega
    · refine ⟨clean_int _, ⟨_, _, rfl, fun h => by cases h⟩, .int n.natAbs, by simpa [lex] using utext_int _, ?_⟩
      refine ⟨.int (decide (n = -(2 ^ 31))) n, fun env' _ => ?_, .inr ⟨_, _, rfl, rfl, rfl⟩⟩
      have hmin : n ≠ -(2 ^ 31) := by omega
      have : n.natAbs < 2 ^ 31 := by omega
      have hpos : (n.natAbs : ℤ) = n := by omega
      rw [CE.eval, if_pos this, hpos, decide_eq_false hmin]
  · have ht : ¬ (trunc q : ℚ) = q := fun h => hd ((trunc_den q).mp h)
    rw [if_neg ht]
    obtain ⟨hp, hn⟩ := h3 hd
    have hio : (Ex.const (π := π) i q).intOf = none := by rw [Ex.intOf, if_neg]; exact fun h => hd h.1
    rw [hio]
    have hq0 : q ≠ 0 := by rintro rfl; exact hd rfl
    unfold realText
    split_ifs with hneg
    · refine ⟨clean_minus (by simp) (clean_real _), ⟨_, _, rfl, fun _ => hneg⟩, .neg (.real (dec16 (-q))), ?_, ?_⟩
      · rw [lex_minus (by simp)]; exact (utext_real _).neg
      · refine ⟨.real (A.lit q), fun env' _ => ?_, .inl rfl⟩
        simp [CE.eval, negVal, hn hneg _ (dec16_spec (by linarith))]
    · have hpos : 0 < q := lt_of_le_of_ne (not_lt.mp hneg) (Ne.symm hq0)
      refine ⟨clean_real _, ⟨_, _, rfl, fun h => by cases h⟩, .real (dec16 q), by simpa [lex] using utext_real _, ?_⟩
      refine ⟨.real (A.lit q), fun env' _ => ?_, .inl rfl⟩
      simp [CE.eval, hp hpos _ (dec16_spec hpos)]

end
end Yask.Comp
