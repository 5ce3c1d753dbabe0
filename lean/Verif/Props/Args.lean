import Verif.Common.ArgsModel
import Mathlib.Data.List.Induction
import Mathlib.Tactic.Tauto

/-!
# Command-line arguments: property C43

The specification is a grammar.  A written word is a nonempty concatenation of plain characters (neither
whitespace nor quotes) and quoted pieces; its meaning is the word without the quoting.  A command line is a
sequence of words separated by whitespace.
-/

namespace Yask
open Args

/-- White space: a blank, or one of the characters with codes 9 (tab) to 13 (carriage return). -/
def WhiteSpace (c : Char) : Bool := c.toNat = 32 ∨ (9 ≤ c.toNat ∧ c.toNat ≤ 13)

theorem isSpace_eq (c : Char) : isSpace c = WhiteSpace c := by
  have key : ∀ d : Char, (c == d) = decide (c.toNat = d.toNat) := fun d => by
    rw [beq_eq_decide, decide_eq_decide]
    exact ⟨fun h => h ▸ rfl, fun h => Char.ext (UInt32.toNat_inj.1 h)⟩
  unfold isSpace WhiteSpace
  rw [Bool.eq_iff_iff]
  simp only [key, Bool.or_eq_true, decide_eq_true_eq]
  have e1 : ' '.toNat = 32 := rfl
  have e2 : '\t'.toNat = 9 := rfl
  have e3 : '\n'.toNat = 10 := rfl
  have e4 : '\x0b'.toNat = 11 := rfl
  have e5 : '\x0c'.toNat = 12 := rfl
  have e6 : '\r'.toNat = 13 := rfl
  omega

/-- `IsWord w a`: the written word `w` means the argument `a`. -/
inductive IsWord : Str → Str → Prop
  | plain (c : Char) (hs : WhiteSpace c = false) (h1 : c ≠ '"') (h2 : c ≠ '\'') : IsWord [c] [c]
  | quoted (q : Char) (b : Str) (hq : q = '"' ∨ q = '\'') (hb : q ∉ b) : IsWord (q :: b ++ [q]) b
  | append {w a w' a' : Str} : IsWord w a → IsWord w' a' → IsWord (w ++ w') (a ++ a')

/-- `IsLines s args`: `s` is empty or ends in whitespace, and its words mean `args`. -/
inductive IsLines : Str → List Str → Prop
  | nil : IsLines [] []
  | space {p : Str} {args : List Str} (c : Char) : IsLines p args → WhiteSpace c = true → IsLines (p ++ [c]) args
  | word {p w a : Str} {args : List Str} (c : Char) : IsLines p args → IsWord w a → WhiteSpace c = true →
      IsLines (p ++ w ++ [c]) (args ++ [a])

/-- `IsCmdLine s args`: the command line `s` means the arguments `args`. -/
def IsCmdLine (s : Str) (args : List Str) : Prop :=
  IsLines s args ∨ ∃ p w a args', IsLines p args' ∧ IsWord w a ∧ s = p ++ w ∧ args = args' ++ [a]

theorem tok_quoted (b : Str) (q : Char) (hb : q ∉ b) (s : Tok) (hq : s.inQuote = some q) :
    b.foldl tokStep s = { s with tmp := s.tmp ++ b } := by
  induction b generalizing s with
  | nil => simp
  | cons c b ih =>
    rw [List.mem_cons, not_or] at hb
    rw [List.foldl_cons]
    have e : tokStep s c = { s with tmp := s.tmp ++ [c] } := by
      unfold tokStep; simp only [hq]; rw [if_neg hb.1]
    rw [e, ih hb.2 { s with tmp := s.tmp ++ [c] } hq]
    simp

theorem quote_not_space (q : Char) (hq : q = '"' ∨ q = '\'') : WhiteSpace q = false := by
  rcases hq with rfl | rfl <;> decide

theorem tok_word {w a : Str} (h : IsWord w a) (s : Tok) (hq : s.inQuote = none) :
    w.foldl tokStep s = { s with tmp := s.tmp ++ a, isOk := true } := by
  induction h generalizing s with
  | plain c hs h1 h2 =>
    simp only [List.foldl_cons, List.foldl_nil]
    unfold tokStep
    simp only [hq]
    rw [isSpace_eq, if_neg (by simp [hs]), if_neg (by tauto)]
  | quoted q b hq' hb =>
    simp only [List.cons_append, List.foldl_cons, List.foldl_append, List.foldl_nil]
    have e : tokStep s q = { s with inQuote := some q } := by
      unfold tokStep
      simp only [hq]
      rw [isSpace_eq, if_neg (by simp [quote_not_space q hq']), if_pos hq']
    rw [e, tok_quoted b q hb _ rfl]
    unfold tokStep
    simp [hq]
  | @append w a w' a' _ _ ih1 ih2 =>
    rw [List.foldl_append, ih1 s hq]
    have e := ih2 ⟨s.tmp ++ a, true, s.inQuote, s.args⟩ hq
    rw [e]
    simp

theorem tok_space (c : Char) (hc : WhiteSpace c = true) (s : Tok) (hq : s.inQuote = none) :
    tokStep s c = { s with args := if s.isOk then s.args ++ [s.tmp] else s.args, tmp := [], isOk := false } := by
  unfold tokStep
  simp only [hq]
  rw [isSpace_eq, if_pos hc]

theorem tok_lines {p : Str} {args : List Str} (h : IsLines p args) :
    p.foldl tokStep ⟨[], false, none, []⟩ = ⟨[], false, none, args⟩ := by
  induction h with
  | nil => rfl
  | space c _ hc ih => rw [List.foldl_append, ih]; simp [tok_space c hc]
  | word c _ hw hc ih =>
    rw [List.foldl_append, List.foldl_append, ih, tok_word hw _ rfl]
    simp [tok_space c hc]

/-- What the tokenizer state says about the text read so far. -/
def TokInv (s : Str) (t : Tok) : Prop :=
  match t.inQuote with
  | none => (t.isOk = false ∧ t.tmp = [] ∧ IsLines s t.args) ∨
      (t.isOk = true ∧ ∃ p w, IsLines p t.args ∧ IsWord w t.tmp ∧ s = p ++ w)
  | some q => (q = '"' ∨ q = '\'') ∧ ∃ p b, q ∉ b ∧ IsLines p t.args ∧
      ((t.isOk = false ∧ t.tmp = b ∧ s = p ++ q :: b) ∨
        (t.isOk = true ∧ ∃ w a, IsWord w a ∧ t.tmp = a ++ b ∧ s = p ++ w ++ q :: b))

theorem tok_inv (s : Str) : TokInv s (s.foldl tokStep ⟨[], false, none, []⟩) := by
  induction s using List.reverseRecOn with
  | nil => exact Or.inl ⟨rfl, rfl, .nil⟩
  | append_singleton s c ih =>
    rw [List.foldl_append]
    simp only [List.foldl_cons, List.foldl_nil]
    generalize s.foldl tokStep ⟨[], false, none, []⟩ = t at ih
    obtain ⟨tmp, isOk, inQuote, args⟩ := t
    cases inQuote with
    | none =>
      simp only [TokInv] at ih
      unfold tokStep
      simp only [isSpace_eq]
      by_cases hc : WhiteSpace c
      · rw [if_pos hc]
        refine Or.inl ⟨rfl, rfl, ?_⟩
        rcases ih with ⟨h1, h2, h3⟩ | ⟨h1, p, w, h3, h4, h5⟩
        · simp only [h1, Bool.false_eq_true, if_false]; exact .space c h3 hc
        · simp only [h1, if_true]; rw [h5]; exact .word c h3 h4 hc
      · rw [if_neg hc]
        by_cases hq : c = '"' ∨ c = '\''
        · rw [if_pos hq]
          refine ⟨hq, ?_⟩
          rcases ih with ⟨h1, h2, h3⟩ | ⟨h1, p, w, h3, h4, h5⟩
          · exact ⟨s, [], by simp, h3, Or.inl ⟨h1, h2, rfl⟩⟩
          · exact ⟨p, [], by simp, h3, Or.inr ⟨h1, w, tmp, h4, by simp, by rw [h5]⟩⟩
        · rw [if_neg hq]
          rw [not_or] at hq
          have hw := IsWord.plain c (by simpa using hc) hq.1 hq.2
          rcases ih with ⟨h1, h2, h3⟩ | ⟨h1, p, w, h3, h4, h5⟩
          · exact Or.inr ⟨rfl, s, [c], h3, by rw [show tmp = [] from h2]; exact hw, rfl⟩
          · exact Or.inr ⟨rfl, p, w ++ [c], h3, .append h4 hw, by rw [h5]; simp⟩
    | some q =>
      simp only [TokInv] at ih
      obtain ⟨hq, p, b, hb, hl, hcase⟩ := ih
      unfold tokStep
      simp only
      by_cases hqc : q = c
      · subst hqc
        rw [if_pos rfl]
        have hw := IsWord.quoted q b hq hb
        refine Or.inr ⟨rfl, ?_⟩
        rcases hcase with ⟨h1, h2, h3⟩ | ⟨h1, w, a, h3, h4, h5⟩
        · exact ⟨p, _, hl, by rw [show tmp = b from h2]; exact hw, by rw [h3]; simp⟩
        · exact ⟨p, _, hl, by rw [show tmp = a ++ b from h4]; exact .append h3 hw, by rw [h5]; simp⟩
      · rw [if_neg hqc]
        refine ⟨hq, p, b ++ [c], by simp [hb, hqc], hl, ?_⟩
        rcases hcase with ⟨h1, h2, h3⟩ | ⟨h1, w, a, h3, h4, h5⟩
        · exact Or.inl ⟨h1, by rw [show tmp = b from h2], by rw [h3]; simp⟩
        · exact Or.inr ⟨h1, w, a, h3, by rw [show tmp = a ++ b from h4]; simp, by rw [h5]; simp⟩

/-- C43: splitting succeeds with `args` exactly when the string is a command line meaning `args`: quoting is
undone, and nothing else is accepted. -/
theorem C43_split_iff (s : Str) (args : List Str) : setArgs s = some args ↔ IsCmdLine s args := by
  constructor
  · intro h
    have hi := tok_inv s
    unfold setArgs at h
    simp only at h
    generalize s.foldl tokStep ⟨[], false, none, []⟩ = t at hi h
    obtain ⟨tmp, isOk, inQuote, args'⟩ := t
    cases inQuote with
    | some q => simp at h
    | none =>
      simp only [TokInv] at hi
      simp only [Option.isSome_none, Bool.false_eq_true, if_false, Option.some.injEq] at h
      rcases hi with ⟨h1, h2, h3⟩ | ⟨h1, p, w, h3, h4, h5⟩
      · rw [if_neg (by simp [h1])] at h
        left; rw [← h]; exact h3
      · rw [if_pos h1] at h
        right; exact ⟨p, w, tmp, args', h3, h4, h5, h.symm⟩
  · rintro (h | ⟨p, w, a, args', h1, h2, rfl, rfl⟩)
    · unfold setArgs; rw [tok_lines h]; rfl
    · unfold setArgs
      rw [List.foldl_append, tok_lines h1, tok_word h2 _ rfl]
      rfl

/-- C43: strings that are not command lines (unbalanced quotes) are rejected. -/
theorem C43_unbalanced_rejected (s : Str) : setArgs s = none ↔ ∀ args, ¬ IsCmdLine s args := by
  constructor
  · intro h args hc
    rw [(C43_split_iff s args).2 hc] at h
    simp at h
  · intro h
    cases hs : setArgs s with
    | none => rfl
    | some args => exact absurd ((C43_split_iff s args).1 hs) (h args)

/-! ### Re-quoting -/

/-- Arguments that `quote_whitespace` handles: without quotes of either kind, and either containing a blank, tab
or line end, or nonempty without any whitespace. -/
def Quotable (a : Str) : Prop :=
  (∀ c ∈ a, c ≠ '"' ∧ c ≠ '\'') ∧ (a.any isQuotedSpace ∨ (a ≠ [] ∧ ∀ c ∈ a, WhiteSpace c = false))

theorem plain_word (a : Str) (h0 : a ≠ []) (h : ∀ c ∈ a, WhiteSpace c = false ∧ c ≠ '"' ∧ c ≠ '\'') :
    IsWord a a := by
  induction a with
  | nil => exact absurd rfl h0
  | cons c a ih =>
    have hc := h c List.mem_cons_self
    have h1 := IsWord.plain c hc.1 hc.2.1 hc.2.2
    by_cases ha : a = []
    · subst ha; exact h1
    · exact .append h1 (ih ha fun d hd => h d (List.mem_cons_of_mem _ hd))

theorem quoteWs_word (a : Str) (h : Quotable a) : IsWord (quoteWs a) a := by
  unfold quoteWs
  obtain ⟨hq, h⟩ := h
  by_cases hs : a.any isQuotedSpace
  · rw [if_pos hs, if_pos fun hm => (hq _ hm).2 rfl]
    exact .quoted _ _ (Or.inl rfl) fun hm => (hq _ hm).1 rfl
  · rw [if_neg hs]
    rcases h with h | ⟨h1, h2⟩
    · exact absurd h hs
    · exact plain_word a h1 fun c hc => ⟨h2 c hc, hq c hc⟩

theorem word_ne_nil {w a : Str} (h : IsWord w a) : w ≠ [] := by
  induction h with
  | plain => simp
  | quoted => simp
  | append _ _ ih1 _ => simp [ih1]

/-- The joined string is a command line that means the arguments, and it is empty only if there are none. -/
theorem joinRem_cmdline (l : List Str) (h : ∀ a ∈ l, Quotable a) :
    (l = [] ∧ joinRem l = []) ∨ ∃ p w a args', IsLines p args' ∧ IsWord w a ∧ joinRem l = p ++ w ∧
      l = args' ++ [a] := by
  induction l using List.reverseRecOn with
  | nil => exact Or.inl ⟨rfl, rfl⟩
  | append_singleton l a ih =>
    right
    have hw := quoteWs_word a (h a (by simp))
    have e : joinRem (l ++ [a]) =
        (if (joinRem l).length ≠ 0 then joinRem l ++ [' '] else joinRem l) ++ quoteWs a := by
      unfold joinRem; rw [List.foldl_append]; rfl
    rw [e]
    rcases ih fun b hb => h b (by simp [hb]) with ⟨h1, h2⟩ | ⟨p, w, b, args', h1, h2, h3, h4⟩
    · rw [h2, if_neg (by simp), h1]
      exact ⟨[], _, a, [], .nil, hw, rfl, rfl⟩
    · have hne : (joinRem l).length ≠ 0 := by
        rw [h3]
        have := List.length_pos_iff.2 (word_ne_nil h2)
        simp only [List.length_append]; omega
      rw [if_pos hne, h3, h4]
      exact ⟨p ++ w ++ [' '], _, a, args' ++ [b], .word ' ' h1 h2 (by decide), hw, rfl, rfl⟩

/-- C43 (part): the string returned for the unused arguments splits back into those arguments, when none of them
contains a quote, none is empty, and whitespace other than vertical tab and form feed marks those that need
quoting.  Missing: `C43_requote_apostrophe` etc. show that it fails for arguments with quotes. -/
theorem C43_requote_roundtrip_partial (l : List Str) (h : ∀ a ∈ l, Quotable a) :
    setArgs (joinRem l) = some l := by
  rw [C43_split_iff]
  rcases joinRem_cmdline l h with ⟨h1, h2⟩ | ⟨p, w, a, args', h1, h2, h3, h4⟩
  · rw [h2, h1]; exact Or.inl .nil
  · exact Or.inr ⟨p, w, a, args', h1, h2, h3, h4⟩

/-- C43, finding: an argument with an apostrophe (and no double quote) is quoted with apostrophes, so the result
cannot be split any more. -/
theorem C43_requote_apostrophe :
    quoteWs "it's here".toList = "'it's here'".toList ∧ setArgs (quoteWs "it's here".toList) = none := by
  decide +kernel

/-- C43, finding: an argument with double quotes (and no apostrophe) is quoted with double quotes, so the quotes
are lost. -/
theorem C43_requote_double_quotes :
    quoteWs "say \"hi\" now".toList = "\"say \"hi\" now\"".toList ∧
    setArgs (quoteWs "say \"hi\" now".toList) = some ["say hi now".toList] := by
  decide +kernel

/-- C43, finding: an empty unused argument disappears, and one with a form feed is split. -/
theorem C43_requote_empty_lost : setArgs (joinRem [[], ['a']]) = some [['a']] ∧
    setArgs (joinRem [['a', '\x0c', 'b']]) = some [['a'], ['b']] := by
  decide +kernel

/-- Not vacuous. -/
example : ∀ a ∈ ["-v".toList, "a b".toList, "x\ty".toList], Quotable a := by
  unfold Quotable; decide +kernel
example : joinRem ["-v".toList, "a b".toList] = "-v \"a b\"".toList := by decide +kernel
example : setArgs " -g  '1 2'x\"\" '' ".toList = some ["-g".toList, "1 2x".toList, []] := by decide +kernel
example : setArgs "-g 'abc".toList = none := by decide +kernel

/-! ### Options -/

/-- What the user wrote: a boolean option switched on or off, an option with its value, or something else. -/
inductive CmdItem (V : Type*)
  | flag (o : Opt V) (b : Bool)
  | value (o : Opt V) (text : Str) (val : V)
  | other (s : Str)

/-- The argument strings of an item. -/
def CmdItem.strings {V : Type*} : CmdItem V → List Str
  | .flag o true => ['-' :: o.name]
  | .flag o false => ['-' :: 'n' :: 'o' :: '-' :: o.name]
  | .value o text _ => ['-' :: o.name, text]
  | .other s => [s]

/-- The spellings an option is recognised by. -/
def Args.Opt.spellings {V : Type*} (o : Opt V) : List Str :=
  if o.isBool then ['-' :: o.name, '-' :: 'n' :: 'o' :: '-' :: o.name] else ['-' :: o.name]

/-- An item is well formed for a set of options. -/
def CmdItem.Valid {V : Type*} (opts : List (Opt V)) : CmdItem V → Prop
  | .flag o _ => o ∈ opts ∧ o.isBool = true
  | .value o text val => o ∈ opts ∧ o.isBool = false ∧ o.parse text = some val
  | .other s => ∀ o ∈ opts, s ∉ o.spellings

/-- The effect of an item on the option values. -/
def CmdItem.apply {V : Type*} (tr fa : V) (st : Vals V) : CmdItem V → Vals V
  | .flag o b => fun n => if n = o.name then (if b then tr else fa) else st n
  | .value o _ val => fun n => if n = o.name then val else st n
  | .other _ => st

/-- No spelling belongs to two options. -/
def Unambiguous {V : Type*} (opts : List (Opt V)) : Prop :=
  opts.Pairwise fun o o' => ∀ s ∈ o.spellings, s ∉ o'.spellings

section
variable {V : Type*}

theorem checkOpt_no (o : Opt V) (a : Str) (h : a ∉ o.spellings) : checkOpt o a = .no := by
  unfold checkOpt
  unfold Args.Opt.spellings at h
  by_cases hb : o.isBool
  · rw [if_pos hb] at h ⊢
    simp only [List.mem_cons, List.not_mem_nil, or_false, not_or] at h
    rw [if_neg h.1, if_neg h.2]
  · rw [if_neg hb] at h ⊢
    simp only [List.mem_cons, List.not_mem_nil, or_false] at h
    rw [if_neg h]

theorem checkOpt_ne_no (o : Opt V) (a : Str) (h : a ∈ o.spellings) : checkOpt o a ≠ .no := by
  unfold checkOpt
  unfold Args.Opt.spellings at h
  by_cases hb : o.isBool
  · rw [if_pos hb] at h ⊢
    simp only [List.mem_cons, List.not_mem_nil, or_false] at h
    by_cases h1 : a = '-' :: o.name
    · rw [if_pos h1]; simp
    · rw [if_neg h1, if_pos]
      · simp
      · rcases h with h | h
        · exact absurd h h1
        · exact h
  · rw [if_neg hb] at h ⊢
    simp only [List.mem_cons, List.not_mem_nil, or_false] at h
    rw [if_pos (by exact h)]; simp

theorem findOpt_no (opts : List (Opt V)) (a : Str) (h : ∀ o ∈ opts, a ∉ o.spellings) :
    findOpt opts a = .no := by
  induction opts with
  | nil => rfl
  | cons o os ih =>
    unfold findOpt
    rw [checkOpt_no o a (h o List.mem_cons_self)]
    exact ih fun o' h' => h o' (List.mem_cons_of_mem _ h')

theorem findOpt_mem (opts : List (Opt V)) (hu : Unambiguous opts) (o : Opt V) (ho : o ∈ opts) (a : Str)
    (ha : a ∈ o.spellings) : findOpt opts a = checkOpt o a := by
  induction opts with
  | nil => simp at ho
  | cons o' os ih =>
    unfold Unambiguous at hu
    rw [List.pairwise_cons] at hu
    unfold findOpt
    rcases List.mem_cons.1 ho with rfl | ho
    · have := checkOpt_ne_no o a ha
      cases hc : checkOpt o a with
      | no => exact absurd hc this
      | bool n b => rfl
      | value o => rfl
    · rw [checkOpt_no o' a fun h => hu.1 o ho a h ha]
      exact ih hu.2 ho

end

/-- C43: for unambiguous options, every well-formed command line sets exactly the options it names, in order (the
last one wins), and the strings not recognised are the unused ones, in order. -/
theorem C43_options_applied {V : Type*} (tr fa : V) (opts : List (Opt V)) (hu : Unambiguous opts) (st : Vals V)
    (items : List (CmdItem V)) (hv : ∀ i ∈ items, i.Valid opts) :
    parseArgs tr fa opts st (items.flatMap CmdItem.strings) =
      some (items.foldl (CmdItem.apply tr fa) st,
        joinRem (items.flatMap fun i => match i with | .other s => [s] | _ => [])) := by
  unfold parseArgs
  suffices h : parseLoop tr fa opts st (items.flatMap CmdItem.strings) =
      some (items.foldl (CmdItem.apply tr fa) st,
        items.flatMap fun i => match i with | .other s => [s] | _ => []) by
    rw [h]; rfl
  induction items generalizing st with
  | nil => simp [parseLoop]
  | cons i items ih =>
    have hi := hv i List.mem_cons_self
    have ih := fun st => ih st fun j hj => hv j (List.mem_cons_of_mem _ hj)
    rw [List.flatMap_cons, List.flatMap_cons, List.foldl_cons]
    cases i with
    | other s =>
      simp only [CmdItem.strings, List.cons_append, List.nil_append]
      rw [parseLoop.eq_def]
      simp only
      rw [findOpt_no opts s hi]
      simp only
      rw [ih st]
      rfl
    | flag o b =>
      obtain ⟨ho, hb⟩ := hi
      cases b with
      | true =>
        simp only [CmdItem.strings, List.cons_append, List.nil_append]
        rw [parseLoop.eq_def]
        simp only
        rw [findOpt_mem opts hu o ho _ (by simp [Args.Opt.spellings, hb])]
        have e : checkOpt o ('-' :: o.name) = .bool o.name true := by simp [checkOpt, hb]
        rw [e]
        simp only
        rw [ih]
        congr 3
        funext n
        simp [CmdItem.apply, Function.update_apply]
      | false =>
        simp only [CmdItem.strings, List.cons_append, List.nil_append]
        rw [parseLoop.eq_def]
        simp only
        rw [findOpt_mem opts hu o ho _ (by simp [Args.Opt.spellings, hb])]
        have e : checkOpt o ('-' :: 'n' :: 'o' :: '-' :: o.name) = .bool o.name false := by
          have hne : ('-' :: 'n' :: 'o' :: '-' :: o.name) ≠ '-' :: o.name := by
            intro h
            have := congrArg List.length h
            simp only [List.length_cons] at this
            omega
          unfold checkOpt
          rw [if_pos hb, if_neg hne, if_pos rfl]
        rw [e]
        simp only
        rw [ih]
        congr 3
        funext n
        simp [CmdItem.apply, Function.update_apply]
    | value o text val =>
      obtain ⟨ho, hb, hp⟩ := hi
      simp only [CmdItem.strings, List.cons_append, List.nil_append]
      rw [parseLoop.eq_def]
      simp only
      rw [findOpt_mem opts hu o ho _ (by simp [Args.Opt.spellings, hb])]
      have e : checkOpt o ('-' :: o.name) = .value o := by simp [checkOpt, hb]
      rw [e]
      simp only [hp]
      rw [ih]
      congr 3
      funext n
      simp [CmdItem.apply, Function.update_apply]

/-- C43: a missing or invalid value after well-formed items is reported. -/
theorem C43_bad_value_throws {V : Type*} (tr fa : V) (opts : List (Opt V)) (hu : Unambiguous opts) (st : Vals V)
    (items : List (CmdItem V)) (hv : ∀ i ∈ items, i.Valid opts) (o : Opt V) (ho : o ∈ opts) (hb : o.isBool = false)
    (rest : List Str) (hr : ∀ v, rest.head? = some v → o.parse v = none) :
    parseArgs tr fa opts st (items.flatMap CmdItem.strings ++ ('-' :: o.name) :: rest) = none := by
  unfold parseArgs
  rw [Option.map_eq_none_iff]
  induction items generalizing st with
  | nil =>
    simp only [List.flatMap_nil, List.nil_append]
    rw [parseLoop.eq_def]
    simp only
    rw [findOpt_mem opts hu o ho _ (by simp [Args.Opt.spellings, hb])]
    have e : checkOpt o ('-' :: o.name) = .value o := by simp [checkOpt, hb]
    rw [e]
    cases rest with
    | nil => rfl
    | cons v rest => simp only [hr v rfl]
  | cons i items ih =>
    have hi := hv i List.mem_cons_self
    have ih := fun st => ih st fun j hj => hv j (List.mem_cons_of_mem _ hj)
    rw [List.flatMap_cons, List.append_assoc]
    cases i with
    | other s =>
      simp only [CmdItem.strings, List.cons_append, List.nil_append] at ih ⊢
      rw [parseLoop.eq_def]
      simp only
      rw [findOpt_no opts s hi]
      simp only
      rw [ih st]
      rfl
    | flag o b =>
      obtain ⟨ho, hb⟩ := hi
      have hm : ∃ s, (CmdItem.flag o b).strings = [s] ∧ s ∈ o.spellings := by
        cases b <;> exact ⟨_, rfl, by simp [Args.Opt.spellings, hb]⟩
      obtain ⟨s, hs, hsp⟩ := hm
      rw [hs]
      simp only [List.cons_append, List.nil_append] at ih ⊢
      rw [parseLoop.eq_def]
      simp only
      rw [findOpt_mem opts hu o ho _ hsp]
      have hne := checkOpt_ne_no o s hsp
      cases hc : checkOpt o s with
      | no => exact absurd hc hne
      | bool n b' => exact ih _
      | value o' =>
        unfold checkOpt at hc
        rw [if_pos hb] at hc
        split at hc
        · simp at hc
        · split at hc <;> simp at hc
    | value o text val =>
      obtain ⟨ho, hb, hp⟩ := hi
      simp only [CmdItem.strings, List.cons_append, List.nil_append] at ih ⊢
      rw [parseLoop.eq_def]
      simp only
      rw [findOpt_mem opts hu o ho _ (by simp [Args.Opt.spellings, hb])]
      have e : checkOpt o ('-' :: o.name) = .value o := by simp [checkOpt, hb]
      rw [e]
      simp only [hp]
      exact ih _

/-- Not vacuous: options `g` (a value) and `v` (a boolean). -/
def demoOpts : List (Opt Nat) :=
  [⟨['g'], false, fun s => if s = ['8'] then some 8 else none⟩, ⟨['v'], true, fun _ => none⟩]
example : Unambiguous demoOpts := by unfold Unambiguous demoOpts; decide +kernel
example : (parseArgs 1 0 demoOpts (fun _ => 5) ["-v".toList, "-g".toList, "8".toList, "x y".toList,
    "-no-v".toList]).map (fun r => (r.1 ['g'], r.1 ['v'], r.2)) = some (8, 0, "\"x y\"".toList) := by
  decide +kernel

end Yask
