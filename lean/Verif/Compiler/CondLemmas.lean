import Verif.Compiler.CondModel
import Verif.Compiler.PrintEval

/-! # Lemmas about the printed conditions: lexing, parsing, evaluation -/

namespace Yask.Comp
open Spec.Cpp (Op InRange intBin)
open Spec.Cond

namespace CondL
section
variable {π : Type}

/-! ## Lexing -/

/-- Text after which lexing starts afresh. -/
def Clean (t : List (Piece π)) : Prop := ∀ u, lex (t ++ u) = lex t ++ lex u

theorem Clean.append {t u : List (Piece π)} (ht : Clean t) (hu : Clean u) : Clean (t ++ u) := by
  intro w
  rw [List.append_assoc, ht, hu, ht, List.append_assoc]

theorem clean_nil : Clean ([] : List (Piece π)) := fun _ => by simp [lex]
theorem clean_word (d : Nat) : Clean [(.word d : Piece π)] := fun _ => by simp [lex]
theorem clean_size (d : Nat) : Clean [(.size d : Piece π)] := fun _ => by simp [lex]
theorem clean_read (p : π) : Clean [(.read p : Piece π)] := fun _ => by simp [lex]
theorem clean_int (n : Nat) : Clean [(.intLit n : Piece π)] := fun _ => by simp [lex]
theorem clean_real (q : ℚ) : Clean [(.realLit q : Piece π)] := fun _ => by simp [lex]
theorem clean_lpar : Clean [(.lpar : Piece π)] := fun _ => by simp [lex]
theorem clean_rpar : Clean [(.rpar : Piece π)] := fun _ => by simp [lex]
theorem clean_bang : Clean [(.bang : Piece π)] := fun _ => by simp [lex]
theorem clean_op (o : BOp) : Clean (condOp (π := π) o) := fun _ => by
  rcases o with o | o | _ | _ <;> first | (cases o <;> simp [lex, condOp]) | simp [lex, condOp]
theorem lex_op (o : BOp) : lex (condOp (π := π) o) = [.op o] := by
  rcases o with o | o | _ | _ <;> first | (cases o <;> simp [lex, condOp]) | simp [lex, condOp]

theorem lex_minus {a : Piece π} {r : List (Piece π)} (h : a ≠ .op (.ar .sub)) :
    lex (.op (.ar .sub) :: a :: r) = .op (.ar .sub) :: lex (a :: r) := by
  cases a with
  | op o =>
    rcases o with o | o | _ | _ <;> first | (cases o <;> first | exact absurd rfl h | simp [lex]) | simp [lex]
  | _ => simp [lex]

theorem clean_minus {a : Piece π} {r : List (Piece π)} (h : a ≠ .op (.ar .sub)) (hc : Clean (a :: r)) :
    Clean (.op (.ar .sub) :: a :: r) := by
  intro u
  have := hc u
  simp only [List.cons_append] at *
  rw [lex_minus h, lex_minus h, this, List.cons_append]

/-! ## Parsing -/

/-- Tokens that are one operand. -/
def UText (ts : List (Tok π)) (a : CE π) : Prop :=
  1 ≤ ts.length ∧ ∀ k rest, 16 * ts.length ≤ k → parseUnary k (ts ++ rest) = some (a, rest)

/-- What may follow an expression of a level. -/
def Follow (j : Nat) (r : List (Tok π)) : Prop := r = [] ∨ (∃ r', r = .rpar :: r') ∨ ∃ o r', r = .op o :: r' ∧ o.level < j

theorem Follow.mono {j j' : Nat} {r : List (Tok π)} (h : Follow j r) (hj : j ≤ j') : Follow j' r := by
  rcases h with h | h | ⟨o, r', h, hl⟩
  · exact .inl h
  · exact .inr (.inl h)
  · exact .inr (.inr ⟨o, r', h, by omega⟩)

theorem loop_stop {k j : Nat} {a : CE π} {r : List (Tok π)} (h : Follow j r) : parseLoop (k + 1) j a r = some (a, r) := by
  rcases h with rfl | ⟨r', rfl⟩ | ⟨o, r', rfl, hl⟩
  · simp [parseLoop]
  · simp [parseLoop]
  · rw [parseLoop, if_neg (by omega)]

theorem lvl_operand {ts : List (Tok π)} {a : CE π} (h : UText ts a) : ∀ (m j k : Nat) (rest : List (Tok π)), m + j = 6 → Follow j rest →
    16 * ts.length + m + 1 ≤ k → parseLvl k j (ts ++ rest) = some (a, rest)
  | 0, j, k, rest, hj, _, hk => by
    obtain ⟨k, rfl⟩ : ∃ i, k = i + 1 := ⟨k - 1, by omega⟩
    rw [parseLvl, if_neg (by omega), h.2 k rest (by omega)]
  | m + 1, j, k, rest, hj, hf, hk => by
    obtain ⟨k, rfl⟩ : ∃ i, k = i + 1 + 1 := ⟨k - 2, by omega⟩
    rw [parseLvl, if_pos (by omega), lvl_operand h m (j + 1) (k + 1) rest (by omega) (hf.mono (by omega)) (by omega)]
    exact loop_stop hf

/-- Further operands. -/
def tailToks (o : BOp) (l : List (List (Tok π) × CE π)) : List (Tok π) := l.flatMap fun x => .op o :: x.1

theorem level_le (o : BOp) : o.level ≤ 5 := by
  rcases o with o | o | _ | _ <;> first | (cases o <;> simp [BOp.level]) | simp [BOp.level]

theorem tail_follow {o : BOp} (l : List (List (Tok π) × CE π)) {rest : List (Tok π)} {j : Nat} (hj : o.level < j) (hf : Follow j rest) :
    Follow j (tailToks o l ++ rest) := by
  cases l with
  | nil => simpa [tailToks] using hf
  | cons x l => exact .inr (.inr ⟨o, x.1 ++ (tailToks o l ++ rest), by simp [tailToks], hj⟩)

theorem loop_tail {o : BOp} : ∀ (l : List (List (Tok π) × CE π)), (∀ x ∈ l, UText x.1 x.2) → ∀ (k : Nat) (a : CE π) (rest : List (Tok π)),
    Follow 0 rest → 16 * (tailToks o l).length + 1 ≤ k →
      parseLoop k o.level a (tailToks o l ++ rest) = some (l.foldl (fun c x => .bin o c x.2) a, rest)
  | [], _, k, a, rest, hs, hk => by
    obtain ⟨k, rfl⟩ : ∃ j, k = j + 1 := ⟨k - 1, by omega⟩
    simpa [tailToks] using loop_stop (k := k) (a := a) (hs.mono (Nat.zero_le _))
  | x :: l, hl, k, a, rest, hs, hk => by
    have hu := hl x (by simp)
    have hlen : (tailToks o (x :: l)).length = 1 + x.1.length + (tailToks o l).length := by simp [tailToks]; omega
    obtain ⟨k, rfl⟩ : ∃ j, k = j + 1 := ⟨k - 1, by omega⟩
    have e : tailToks o (x :: l) ++ rest = .op o :: (x.1 ++ (tailToks o l ++ rest)) := by simp [tailToks]
    have := level_le o
    have h1 := lvl_operand hu (5 - o.level) (o.level + 1) k (tailToks o l ++ rest) (by omega)
      (tail_follow l (by omega) (hs.mono (by omega))) (by omega)
    rw [e, parseLoop, if_pos rfl, h1]
    exact loop_tail l (fun y hy => hl y (by simp [hy])) k _ rest hs (by omega)

/-- Tokens that are an expression. -/
def AText (ts : List (Tok π)) (a : CE π) : Prop :=
  1 ≤ ts.length ∧ ∀ k rest, Follow 0 rest → 16 * ts.length + 16 ≤ k → parseLvl k 0 (ts ++ rest) = some (a, rest)

theorem fold_lvl {o : BOp} {ts : List (Tok π)} {a : CE π} (h : UText ts a) (l : List (List (Tok π) × CE π)) (hl : ∀ x ∈ l, UText x.1 x.2) :
    ∀ (m j k : Nat) (rest : List (Tok π)), m + j = o.level → Follow 0 rest → 16 * (ts ++ tailToks o l).length + 8 + m ≤ k →
      parseLvl k j (ts ++ (tailToks o l ++ rest)) = some (l.foldl (fun c x => .bin o c x.2) a, rest)
  | 0, j, k, rest, hj, hs, hk => by
    have := level_le o
    have h1 := h.1
    simp only [List.length_append] at hk
    obtain ⟨k, rfl⟩ : ∃ i, k = i + 1 := ⟨k - 1, by omega⟩
    have hj' : j = o.level := by omega
    subst hj'
    have h2 := lvl_operand h (5 - o.level) (o.level + 1) k (tailToks o l ++ rest) (by omega)
      (tail_follow l (by omega) (hs.mono (by omega))) (by omega)
    rw [parseLvl, if_pos (by omega), h2]
    exact loop_tail l hl k a rest hs (by omega)
  | m + 1, j, k, rest, hj, hs, hk => by
    have := level_le o
    obtain ⟨k, rfl⟩ : ∃ i, k = i + 1 + 1 := ⟨k - 2, by omega⟩
    rw [parseLvl, if_pos (by omega), fold_lvl h l hl m (j + 1) (k + 1) rest (by omega) hs (by omega)]
    exact loop_stop (hs.mono (by omega))

theorem atext_fold (o : BOp) {ts : List (Tok π)} {a : CE π} (h : UText ts a) (l : List (List (Tok π) × CE π)) (hl : ∀ x ∈ l, UText x.1 x.2) :
    AText (ts ++ tailToks o l) (l.foldl (fun c x => .bin o c x.2) a) := by
  have h1 := h.1
  refine ⟨by simp; omega, fun k rest hs hk => ?_⟩
  have := level_le o
  rw [List.append_assoc]
  exact fold_lvl h l hl o.level 0 k rest (by omega) hs (by omega)

theorem UText.atext {ts : List (Tok π)} {a : CE π} (h : UText ts a) : AText ts a := by
  simpa [tailToks] using atext_fold .or h [] (by simp)

theorem AText.paren {ts : List (Tok π)} {a : CE π} (h : AText ts a) : UText (.lpar :: (ts ++ [.rpar])) a := by
  refine ⟨by simp, fun k rest hk => ?_⟩
  simp only [List.length_cons, List.length_append, List.length_nil] at hk
  obtain ⟨k, rfl⟩ : ∃ j, k = j + 1 := ⟨k - 1, by omega⟩
  have e : (Tok.lpar :: (ts ++ [.rpar])) ++ rest = .lpar :: (ts ++ .rpar :: rest) := by simp
  rw [e, parseUnary, h.2 k (.rpar :: rest) (.inr (.inl ⟨_, rfl⟩)) (by omega)]

theorem utext_prim {t : Tok π} {a : CE π} (h : ∀ k r, parseUnary (k + 1) (t :: r) = some (a, r)) : UText [t] a := by
  refine ⟨by simp, fun k rest hk => ?_⟩
  obtain ⟨k, rfl⟩ : ∃ j, k = j + 1 := ⟨k - 1, by simp at hk; omega⟩
  exact h k rest

theorem utext_id (d : Nat) : UText [(.id d : Tok π)] (.var d) := utext_prim fun k r => by simp [parseUnary]
theorem utext_size (d : Nat) : UText [(.size d : Tok π)] (.size d) := utext_prim fun k r => by simp [parseUnary]
theorem utext_read (p : π) : UText [(.read p : Tok π)] (.read p) := utext_prim fun k r => by simp [parseUnary]
theorem utext_int (n : Nat) : UText [(.int n : Tok π)] (.int n) := utext_prim fun k r => by simp [parseUnary]
theorem utext_real (q : ℚ) : UText [(.real q : Tok π)] (.real q) := utext_prim fun k r => by simp [parseUnary]

theorem UText.neg {ts : List (Tok π)} {a : CE π} (h : UText ts a) : UText (.op (.ar .sub) :: ts) (.neg a) := by
  refine ⟨by simp, fun k rest hk => ?_⟩
  obtain ⟨k, rfl⟩ : ∃ j, k = j + 1 := ⟨k - 1, by simp at hk; omega⟩
  rw [List.cons_append, parseUnary, h.2 k rest (by simp at hk; omega)]
  rfl

theorem UText.not {ts : List (Tok π)} {a : CE π} (h : UText ts a) : UText (.bang :: ts) (.not a) := by
  refine ⟨by simp, fun k rest hk => ?_⟩
  obtain ⟨k, rfl⟩ : ∃ j, k = j + 1 := ⟨k - 1, by simp at hk; omega⟩
  rw [List.cons_append, parseUnary, h.2 k rest (by simp at hk; omega)]
  rfl

theorem parse_utext {t : List (Piece π)} {a : CE π} (h : UText (lex t) a) : parse t = some a := by
  unfold parse
  have := h.atext.2 (16 * (lex t).length + 16) [] (.inl rfl) (by omega)
  rw [List.append_nil] at this
  rw [this]

/-! ## Texts of operands -/

/-- A text that is one operand. -/
structure Opd (t : List (Piece π)) (a : CE π) : Prop where
  clean : Clean t
  text : UText (lex t) a
  pure : a.mods = []

/-- The operands of an operator in parentheses. -/
theorem Opd.fold (o : BOp) {t : List (Piece π)} {a : CE π} (h : Opd t a) (l : List (List (Piece π) × CE π)) (hl : ∀ x ∈ l, Opd x.1 x.2) :
    Opd (.lpar :: (condJoin o (t :: l.map (·.1)) ++ [.rpar])) (l.foldl (fun c x => .bin o c x.2) a) := by
  have hj : ∀ (l : List (List (Piece π) × CE π)) (t : List (Piece π)), Clean t → (∀ x ∈ l, Opd x.1 x.2) →
      Clean (condJoin o (t :: l.map (·.1))) ∧
      lex (condJoin o (t :: l.map (·.1))) = lex t ++ tailToks o (l.map fun x => (lex x.1, x.2)) := by
    intro l
    induction l with
    | nil => intro t ht _; simpa [condJoin, tailToks] using ht
    | cons x l ih =>
      intro t ht hl
      obtain ⟨c1, c2⟩ := ih x.1 (hl x (by simp)).clean fun y hy => hl y (by simp [hy])
      have e : condJoin o (t :: (x :: l).map (·.1)) = t ++ condOp o ++ condJoin o (x.1 :: l.map (·.1)) := by simp [condJoin]
      rw [e]
      refine ⟨(ht.append (clean_op o)).append c1, ?_⟩
      rw [(ht.append (clean_op o)) _, ht, lex_op, c2]
      simp [tailToks]
  obtain ⟨c1, c2⟩ := hj l t h.clean hl
  have e : (Piece.lpar :: (condJoin o (t :: l.map (·.1)) ++ [.rpar])) = [.lpar] ++ (condJoin o (t :: l.map (·.1)) ++ [.rpar]) := rfl
  refine ⟨?_, ?_, ?_⟩
  · rw [e]; exact clean_lpar.append (c1.append clean_rpar)
  · have e2 : lex (.lpar :: (condJoin o (t :: l.map (·.1)) ++ [.rpar])) =
        .lpar :: ((lex t ++ tailToks o (l.map fun x => (lex x.1, x.2))) ++ [.rpar]) := by
      rw [e, clean_lpar, c1, c2]; simp [lex]
    rw [e2]
    have := (atext_fold o h.text (l.map fun x => (lex x.1, x.2)) (by
      intro y hy
      obtain ⟨x, hx, rfl⟩ := List.mem_map.mp hy
      exact (hl x hx).text)).paren
    rwa [List.foldl_map] at this
  · clear hj c1 c2 e
    have : ∀ (l : List (List (Piece π) × CE π)) (a : CE π), a.mods = [] → (∀ x ∈ l, Opd x.1 x.2) →
        (l.foldl (fun c x => CE.bin o c x.2) a).mods = [] := by
      intro l
      induction l with
      | nil => intro a ha _; exact ha
      | cons x l ih =>
        intro a ha hl
        exact ih _ (by simp [CE.mods, ha, (hl x (by simp)).pure]) fun y hy => hl y (by simp [hy])
    exact this l a h.pure hl

/-- A binary operator in parentheses. -/
theorem Opd.bin (o : BOp) {t u : List (Piece π)} {a b : CE π} (h : Opd t a) (h' : Opd u b) :
    Opd (.lpar :: (t ++ condOp o ++ u ++ [.rpar])) (.bin o a b) := by
  have := h.fold o [(u, b)] (by simpa using h')
  simpa [condJoin] using this

theorem Opd.neg {p : Piece π} {r : List (Piece π)} {a : CE π} (h : Opd (p :: r) a) (hp : p ≠ .op (.ar .sub)) :
    Opd (.op (.ar .sub) :: p :: r) (.neg a) :=
  ⟨clean_minus hp h.clean, by rw [lex_minus hp]; exact h.text.neg, by simpa [CE.mods] using h.pure⟩

theorem Opd.not {t : List (Piece π)} {a : CE π} (h : Opd t a) : Opd (.bang :: t) (.not a) := by
  have e : (Piece.bang :: t) = [.bang] ++ t := rfl
  refine ⟨by rw [e]; exact clean_bang.append h.clean, ?_, by simpa [CE.mods] using h.pure⟩
  rw [e, clean_bang]
  exact h.text.not

theorem opd_word (d : Nat) : Opd [(.word d : Piece π)] (.var d) := ⟨clean_word d, by simpa [lex] using utext_id d, rfl⟩
theorem opd_size (d : Nat) : Opd [(.size d : Piece π)] (.size d) := ⟨clean_size d, by simpa [lex] using utext_size d, rfl⟩
theorem opd_read (p : π) : Opd [(.read p : Piece π)] (.read p) := ⟨clean_read p, by simpa [lex] using utext_read p, rfl⟩
theorem opd_int (n : Nat) : Opd [(.intLit n : Piece π)] (.int n) := ⟨clean_int n, by simpa [lex] using utext_int n, rfl⟩
theorem opd_real (q : ℚ) : Opd [(.realLit q : Piece π)] (.real q) := ⟨clean_real q, by simpa [lex] using utext_real q, rfl⟩

theorem conflict_pure {a b : CE π} (ha : a.mods = []) (hb : b.mods = []) : conflict a b = false := by simp [conflict, ha, hb]

/-! ## Values -/

/-- The value of an expression of C++ is a number of a type. -/
def ValOk (ty : Option Bool) (v : ℚ) (x : Val) : Prop :=
  match ty with
  | some l => ∃ n : Int, x = .int l n ∧ v = n
  | none => x = .real v

theorem toInt_int (n : Int) : Spec.Cond.toInt (n : ℚ) = n := by unfold Spec.Cond.toInt; split_ifs <;> simp

theorem num_int (l : Bool) (n : Int) : (Val.int l n).num = .int l n := rfl
theorem num_real (q : ℚ) : (Val.real q).num = .real q := rfl

theorem realBin_ok {rnd : ℚ → ℚ} {op : Op} {a b c : ℚ} (hop : op ≠ .mod) (hv : opVal op a b = some c) (hc : rnd c = c) :
    realBin rnd op a b = .ok (.real c) := by
  cases op with
  | mod => exact absurd rfl hop
  | div =>
    simp only [opVal] at hv
    split_ifs at hv with h
    injection hv with hv
    simp [realBin, h, hv, hc]
  | _ =>
    simp only [opVal] at hv
    injection hv with hv
    simp [realBin, hv, hc]

theorem arVal_ok {rnd : ℚ → ℚ} {op : Op} {x y : Option Bool} {a b c : ℚ} {v w : Val} (hx : ValOk x a v) (hy : ValOk y b w)
    (hv : opVal op a b = some c) (ho : OpOk rnd op x y a b c) : ∃ u, arVal rnd op v w = .ok u ∧ ValOk (joinTy x y) c u := by
  cases x with
  | none =>
    subst hx
    have ho' : op ≠ .mod ∧ rnd a = a ∧ rnd b = b ∧ rnd c = c := by cases y <;> exact ho
    refine ⟨.real c, ?_, by cases y <;> rfl⟩
    cases y with
    | none => subst hy; exact realBin_ok ho'.1 hv ho'.2.2.2
    | some l =>
      obtain ⟨n, rfl, rfl⟩ := hy
      have : arVal rnd op (.real a) (.int l n) = realBin rnd op a (rnd n) := rfl
      rw [this, ho'.2.2.1]
      exact realBin_ok ho'.1 hv ho'.2.2.2
  | some l =>
    obtain ⟨n, rfl, rfl⟩ := hx
    cases y with
    | none =>
      subst hy
      have ho' : op ≠ .mod ∧ rnd n = n ∧ rnd b = b ∧ rnd c = c := ho
      refine ⟨.real c, ?_, rfl⟩
      have : arVal rnd op (.int l n) (.real b) = realBin rnd op (rnd n) b := rfl
      rw [this, ho'.2.1]
      exact realBin_ok ho'.1 hv ho'.2.2.2
    | some l' =>
      obtain ⟨m, rfl, rfl⟩ := hy
      obtain ⟨h1, h2, h3⟩ := ho
      have key : ∃ k : Int, intBin op n m = .ok k ∧ c = k := by
        cases op with
        | add => exact ⟨_, rfl, by simp [opVal] at hv; rw [← hv]; push_cast; rfl⟩
        | sub => exact ⟨_, rfl, by simp [opVal] at hv; rw [← hv]; push_cast; rfl⟩
        | mul => exact ⟨_, rfl, by simp [opVal] at hv; rw [← hv]; push_cast; rfl⟩
        | div =>
          simp only [opVal] at hv
          split_ifs at hv with h
          injection hv with hv
          have hm : m ≠ 0 := by intro e; exact h (by simp [e])
          refine ⟨n.tdiv m, by simp [intBin, hm], ?_⟩
          have hc : c = (c.num : ℚ) := ((Rat.den_eq_one_iff c).mp (h2 rfl)).symm
          have hmq : (m : ℚ) ≠ 0 := h
          have : (n : ℚ) = (m * c.num : Int) := by
            push_cast; rw [← hc, ← hv]; field_simp
          have hn : n = m * c.num := by exact_mod_cast this
          rw [hn, Int.mul_tdiv_cancel_left _ hm]
          exact hc
        | mod =>
          obtain ⟨p1, p2⟩ := h1 rfl
          have q1 : 0 ≤ n := by exact_mod_cast p1
          have q2 : 0 < m := by exact_mod_cast p2
          simp only [opVal, toInt_int] at hv
          rw [if_neg (by omega)] at hv
          injection hv with hv
          refine ⟨n.tmod m, by simp [intBin, show m ≠ 0 by omega], ?_⟩
          rw [← hv, Int.tmod_eq_emod_of_nonneg q1, Int.fmod_eq_emod_of_nonneg _ (by omega)]
      obtain ⟨k, hk, rfl⟩ := key
      refine ⟨.int (l || l') k, ?_, k, rfl, rfl⟩
      have : arVal rnd op (.int l n) (.int l' m) = (intBin op n m >>= fun i => mkInt (l || l') i) := rfl
      rw [this, hk]
      simp only [Rat.num_intCast] at h3
      show mkInt (l || l') k = _
      unfold mkInt
      rw [if_pos h3]

theorem cmpVal_ok {rnd : ℚ → ℚ} {o : Cmp} {x y : Option Bool} {a b : ℚ} {v w : Val} (hx : ValOk x a v) (hy : ValOk y b w)
    (hr : (x = none ∨ y = none) → rnd a = a ∧ rnd b = b) : cmpVal rnd o v w = .bool (o.holds a b) := by
  cases x with
  | none =>
    subst hx
    have hr' := hr (.inl rfl)
    cases y with
    | none => subst hy; rfl
    | some l =>
      obtain ⟨n, rfl, rfl⟩ := hy
      have : cmpVal rnd o (.real a) (.int l n) = .bool (o.holds a (rnd n)) := rfl
      rw [this, hr'.2]
  | some l =>
    obtain ⟨n, rfl, rfl⟩ := hx
    cases y with
    | none =>
      subst hy
      have hr' := hr (.inr rfl)
      have : cmpVal rnd o (.int l n) (.real b) = .bool (o.holds (rnd n) b) := rfl
      rw [this, hr'.1]
    | some l' =>
      obtain ⟨m, rfl, rfl⟩ := hy
      rfl

theorem negVal_ok {x : Option Bool} {a : ℚ} {v : Val} (hx : ValOk x a v) (hr : ∀ l, x = some l → InRange l (-a.num)) :
    ∃ u, negVal v = .ok u ∧ ValOk x (-a) u := by
  cases x with
  | none => subst hx; exact ⟨_, rfl, rfl⟩
  | some l =>
    obtain ⟨n, rfl, rfl⟩ := hx
    have := hr l rfl
    simp only [Rat.num_intCast] at this
    refine ⟨.int l (-n), ?_, -n, rfl, by push_cast; rfl⟩
    show mkInt l (-n) = _
    unfold mkInt
    rw [if_pos this]

/-! ## Constants -/

theorem decN_spec (n : Nat) {q : ℚ} (hq : 0 < q) : IsDec n q (decN n q) := by
  have hlo : (10 : ℚ) ^ Int.log 10 q ≤ q := Int.zpow_log_le_self (by norm_num) hq
  have hhi : q < (10 : ℚ) ^ (Int.log 10 q + 1) := Int.lt_zpow_succ_log_self (by norm_num) q
  set e := Int.log 10 q with he
  have hu : (0 : ℚ) < (10 : ℚ) ^ (e - n) := zpow_pos (by norm_num) _
  have e1 : (10 : ℚ) ^ e = 10 ^ n * (10 : ℚ) ^ (e - n) := by
    rw [← zpow_natCast, ← zpow_add₀ (by norm_num)]; congr 1; ring
  have e2 : (10 : ℚ) ^ (e + 1) = 10 ^ (n + 1) * (10 : ℚ) ^ (e - n) := by
    rw [← zpow_natCast, ← zpow_add₀ (by norm_num)]; congr 1; push_cast; ring
  set x := q / (10 : ℚ) ^ (e - n) with hx
  have hxl : (10 : ℚ) ^ n ≤ x := by rw [hx, le_div_iff₀ hu, ← e1]; exact hlo
  have hxh : x < (10 : ℚ) ^ (n + 1) := by rw [hx, div_lt_iff₀ hu, ← e2]; exact hhi
  obtain ⟨n1, n2, n3⟩ := nearestEven_spec x
  have f1 : (10 : ℤ) ^ n ≤ ⌊x⌋ := by rw [Int.le_floor]; exact_mod_cast hxl
  have f2 : ⌊x⌋ < (10 : ℤ) ^ (n + 1) := by rw [Int.floor_lt]; exact_mod_cast hxh
  refine ⟨e, nearestEven x, by omega, by omega, ?_, ?_⟩
  · unfold decN; rw [← he, ← hx]
  · have hd : decN n q = nearestEven x * (10 : ℚ) ^ (e - n) := by unfold decN; rw [← he, ← hx]
    have hqx : q = x * (10 : ℚ) ^ (e - n) := by rw [hx]; field_simp
    rw [hd]
    have : q - nearestEven x * (10 : ℚ) ^ (e - n) = (x - nearestEven x) * (10 : ℚ) ^ (e - n) := by
      rw [sub_mul, ← hqx]
    rw [this, abs_mul, abs_of_pos hu]
    nlinarith

theorem fixed6_spec (q : ℚ) : IsFixed6 q (fixed6 q) := by
  refine ⟨nearestEven (q * 10 ^ 6), rfl, ?_⟩
  obtain ⟨_, _, h⟩ := nearestEven_spec (q * 10 ^ 6)
  unfold fixed6
  rw [abs_le] at h ⊢
  constructor <;> linarith

/-- The text of an operand, whether it starts with a minus, and its value. -/
def TextOk (rnd : ℚ → ℚ) (E : Env π) (minus : Prop) (ty : Option Bool) (v : ℚ) (t : List (Piece π)) : Prop :=
  ∃ a, Opd t a ∧ (∃ p r, t = p :: r ∧ (p = .op (.ar .sub) → minus)) ∧ ∃ x, a.eval rnd E E.idx = .ok (x, E.idx) ∧ ValOk ty v x

theorem signed_ok {rnd : ℚ → ℚ} {E : Env π} {q d : ℚ} (hd : rnd d = |q|) : TextOk rnd E (q < 0) none q (signed q d) := by
  unfold signed
  split_ifs with h
  · refine ⟨.neg (.real d), (opd_real d).neg (by simp), ⟨_, _, rfl, fun _ => h⟩, .real q, ?_, rfl⟩
    have : (CE.neg (.real d) : CE π).eval rnd E E.idx = .ok (.real (-(rnd d)), E.idx) := rfl
    rw [this, hd, abs_of_neg h, neg_neg]
  · refine ⟨.real d, opd_real d, ⟨_, _, rfl, fun h => by cases h⟩, .real q, ?_, rfl⟩
    have : (CE.real d : CE π).eval rnd E E.idx = .ok (.real (rnd d), E.idx) := rfl
    rw [this, hd, abs_of_nonneg (not_lt.mp h)]

theorem condConst_ok {dom : Bool} {rnd : ℚ → ℚ} {E : Env π} {q : ℚ} (h : (Num.const q : Num π).Plain dom rnd E) :
    ∃ t, condConst (π := π) dom q = .ok t ∧ TextOk rnd E (q < 0) (Num.const q : Num π).ty q t := by
  obtain ⟨h1, h2, h3⟩ := h
  have hr := trunc_range h1 h2
  refine ⟨_, by unfold condConst; rw [if_pos hr], ?_⟩
  by_cases hi : (trunc q : ℚ) = q
  · have hden := (trunc_den q).mp hi
    rw [if_pos hi]
    have hty : (Num.const q : Num π).ty = some (decide (q = -(2 ^ 31))) := by simp [Num.ty, hden]
    rw [hty]
    generalize trunc q = n at *
    subst hi
    split_ifs with hneg
    · have hn : n < 0 := by exact_mod_cast hneg
      refine ⟨.neg (.int n.natAbs), (opd_int _).neg (by simp), ⟨_, _, rfl, fun _ => hneg⟩, .int (decide ((n : ℚ) = -(2 ^ 31))) n, ?_, n, rfl, rfl⟩
      have hdec : decide ((n : ℚ) = -(2 ^ 31)) = decide (n = -(2 ^ 31)) := by
        apply decide_eq_decide.mpr
        constructor
        · intro h; exact_mod_cast h
        · intro h; rw [h]; norm_num
      rw [hdec]
      by_cases hm : n = -(2 ^ 31)
      · subst hm
        have : (CE.neg (.int (-(2 ^ 31) : Int).natAbs) : CE π).eval rnd E E.idx = .ok (.int true (-(2 ^ 31)), E.idx) := rfl
        rw [this]; rfl
      · have e0 : (CE.int n.natAbs : CE π).eval rnd E E.idx = .ok (.int false n.natAbs, E.idx) := by
          rw [CE.eval, if_pos (by omega)]
        have e1 : (CE.neg (.int n.natAbs) : CE π).eval rnd E E.idx = (mkInt false (-(n.natAbs : Int)) >>= fun v => .ok (v, E.idx)) := by
          rw [CE.eval, e0]; rfl
        have e2 : -(n.natAbs : Int) = n := by omega
        rw [e1, e2]
        have hin : InRange false n := by
          show -(2 ^ 31) ≤ n ∧ n < 2 ^ 31
          omega
        have : mkInt false n = .ok (.int false n) := by unfold mkInt; rw [if_pos hin]
        rw [this, decide_eq_false hm]
        rfl
    · have hn : 0 ≤ n := by have := not_lt.mp hneg; exact_mod_cast this
      refine ⟨.int n.natAbs, opd_int _, ⟨_, _, rfl, fun h => by cases h⟩, .int (decide ((n : ℚ) = -(2 ^ 31))) n, ?_, n, rfl, rfl⟩
      have hm : ¬ (n : ℚ) = -(2 ^ 31) := by
        intro h
        have : n = -(2 ^ 31) := by exact_mod_cast h
        omega
      rw [CE.eval, if_pos (by omega)]
      have e2 : ((n.natAbs : Nat) : Int) = n := by omega
      simp only [hm, decide_false]
      rw [e2]
  · have hden : q.den ≠ 1 := fun h => hi ((trunc_den q).mpr h)
    have hq0 : q ≠ 0 := by rintro rfl; exact hden rfl
    have hty : (Num.const q : Num π).ty = none := by simp [Num.ty, hden]
    rw [if_neg hi, hty]
    have hl := h3 hden
    cases dom with
    | false =>
      simp only [LitOk, Bool.false_eq_true, if_false] at hl ⊢
      exact signed_ok (hl _ (decN_spec 15 (abs_pos.mpr hq0)))
    | true =>
      simp only [LitOk, if_true] at hl ⊢
      by_cases hs : q < 1 / 10 ^ 4 ∨ 10 ^ 5 ≤ q
      · simp only [hs, if_true] at hl ⊢
        exact signed_ok (hl _ (decN_spec 6 (abs_pos.mpr hq0)))
      · simp only [hs, if_false] at hl ⊢
        have hpos : ¬ q < 0 := by
          intro h
          exact hs (.inl (by linarith [show (0 : ℚ) < 1 / 10 ^ 4 by norm_num]))
        have := signed_ok (E := E) (hl _ (fixed6_spec q))
        simpa [signed, hpos] using this

end
end CondL
end Yask.Comp
