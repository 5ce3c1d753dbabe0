import Verif.Spec.OptSpec
import Mathlib.Tactic.IntervalCases
import Mathlib.Tactic.Ring
import Mathlib.Tactic.NormNum
import Mathlib.Data.List.Induction
import Mathlib.Data.List.TakeWhile
import Mathlib.Data.List.Forall2

/-!
# Integers on the command line (lemmas)
-/

namespace Yask.Options

open Args (Str)

theorem char_of_toNat {c d : Char} (h : c.toNat = d.toNat) : c = d := Char.ext (UInt32.toNat_inj.1 h)

theorem digit_spec_small (v : Nat) (hv : v < 16) (c : Char) (h : DigitOf c v) : digit c = some v := by
  unfold DigitOf at h
  interval_cases v <;> simp at h <;> rcases h with rfl | rfl <;> decide

theorem digit_of (c : Char) (v : Nat) (h : DigitOf c v) : digit c = some v := by
  by_cases hv : v < 16
  · exact digit_spec_small v hv c h
  · exfalso
    unfold DigitOf at h
    have e1 : "0123456789abcdef".toList.length ≤ v := by
      have : "0123456789abcdef".toList.length = 16 := by decide
      omega
    have e2 : "0123456789ABCDEF".toList.length ≤ v := by
      have : "0123456789ABCDEF".toList.length = 16 := by decide
      omega
    rw [List.getElem?_eq_none e1, List.getElem?_eq_none e2] at h
    simp at h

theorem of_digit (c : Char) (v : Nat) (h : digit c = some v) : DigitOf c v := by
  unfold digit at h
  by_cases h1 : 48 ≤ c.toNat ∧ c.toNat ≤ 57
  · rw [if_pos h1] at h
    obtain ⟨ha, hb⟩ := h1
    simp only [Option.some.injEq] at h
    generalize hm : c.toNat = m at ha hb h
    interval_cases m <;> subst h <;>
      first
      | (have := char_of_toNat (c := c) (d := '0') hm; subst this; exact Or.inl (by decide))
      | (have := char_of_toNat (c := c) (d := '1') hm; subst this; exact Or.inl (by decide))
      | (have := char_of_toNat (c := c) (d := '2') hm; subst this; exact Or.inl (by decide))
      | (have := char_of_toNat (c := c) (d := '3') hm; subst this; exact Or.inl (by decide))
      | (have := char_of_toNat (c := c) (d := '4') hm; subst this; exact Or.inl (by decide))
      | (have := char_of_toNat (c := c) (d := '5') hm; subst this; exact Or.inl (by decide))
      | (have := char_of_toNat (c := c) (d := '6') hm; subst this; exact Or.inl (by decide))
      | (have := char_of_toNat (c := c) (d := '7') hm; subst this; exact Or.inl (by decide))
      | (have := char_of_toNat (c := c) (d := '8') hm; subst this; exact Or.inl (by decide))
      | (have := char_of_toNat (c := c) (d := '9') hm; subst this; exact Or.inl (by decide))
  · rw [if_neg h1] at h
    by_cases h2 : 97 ≤ c.toNat ∧ c.toNat ≤ 102
    · rw [if_pos h2] at h
      obtain ⟨ha, hb⟩ := h2
      simp only [Option.some.injEq] at h
      generalize hm : c.toNat = m at ha hb h
      interval_cases m <;> subst h <;>
        first
        | (have := char_of_toNat (c := c) (d := 'a') hm; subst this; exact Or.inl (by decide))
        | (have := char_of_toNat (c := c) (d := 'b') hm; subst this; exact Or.inl (by decide))
        | (have := char_of_toNat (c := c) (d := 'c') hm; subst this; exact Or.inl (by decide))
        | (have := char_of_toNat (c := c) (d := 'd') hm; subst this; exact Or.inl (by decide))
        | (have := char_of_toNat (c := c) (d := 'e') hm; subst this; exact Or.inl (by decide))
        | (have := char_of_toNat (c := c) (d := 'f') hm; subst this; exact Or.inl (by decide))
    · rw [if_neg h2] at h
      by_cases h3 : 65 ≤ c.toNat ∧ c.toNat ≤ 70
      · rw [if_pos h3] at h
        obtain ⟨ha, hb⟩ := h3
        simp only [Option.some.injEq] at h
        generalize hm : c.toNat = m at ha hb h
        interval_cases m <;> subst h <;>
          first
          | (have := char_of_toNat (c := c) (d := 'A') hm; subst this; exact Or.inr (by decide))
          | (have := char_of_toNat (c := c) (d := 'B') hm; subst this; exact Or.inr (by decide))
          | (have := char_of_toNat (c := c) (d := 'C') hm; subst this; exact Or.inr (by decide))
          | (have := char_of_toNat (c := c) (d := 'D') hm; subst this; exact Or.inr (by decide))
          | (have := char_of_toNat (c := c) (d := 'E') hm; subst this; exact Or.inr (by decide))
          | (have := char_of_toNat (c := c) (d := 'F') hm; subst this; exact Or.inr (by decide))
      · rw [if_neg h3] at h
        simp at h

theorem isDigit_iff (b : Nat) (c : Char) : isDigit b c = true ↔ ∃ v, DigitOf c v ∧ v < b := by
  unfold isDigit
  constructor
  · intro h
    cases hd : digit c with
    | none => rw [hd] at h; simp at h
    | some v => rw [hd] at h; exact ⟨v, of_digit c v hd, by simpa using h⟩
  · rintro ⟨v, h1, h2⟩
    rw [digit_of c v h1]
    simpa using h2

theorem horner_append (b : Nat) (s : Str) (c : Char) :
    horner b (s ++ [c]) = horner b s * b + (digit c).getD 0 := by
  unfold horner
  rw [List.foldl_append]
  rfl

theorem digitsOf_horner (b : Nat) (s : Str) (ds : List Nat) (h : DigitsOf b s ds) :
    (∀ c ∈ s, isDigit b c = true) ∧ horner b s = Nat.ofDigits b ds := by
  induction s using List.reverseRecOn generalizing ds with
  | nil =>
    cases h
    exact ⟨by simp, rfl⟩
  | append_singleton s c ih =>
    unfold DigitsOf at h
    rw [List.reverse_append] at h
    simp only [List.reverse_cons, List.reverse_nil, List.nil_append, List.cons_append] at h
    cases ds with
    | nil => cases h
    | cons v ds =>
      rw [List.forall₂_cons] at h
      obtain ⟨i1, i2⟩ := ih ds h.2
      refine ⟨fun d hd => ?_, ?_⟩
      · rw [List.mem_append, List.mem_singleton] at hd
        rcases hd with hd | rfl
        · exact i1 d hd
        · exact (isDigit_iff b d).2 ⟨v, h.1⟩
      · rw [horner_append, i2, digit_of c v h.1.1, Nat.ofDigits_cons]
        simp only [Option.getD_some]
        push_cast
        ring

theorem digitsOf_exists (b : Nat) (s : Str) (h : ∀ c ∈ s, isDigit b c = true) : ∃ ds, DigitsOf b s ds := by
  induction s using List.reverseRecOn with
  | nil => exact ⟨[], by simp [DigitsOf]⟩
  | append_singleton s c ih =>
    obtain ⟨ds, hds⟩ := ih fun d hd => h d (by simp [hd])
    obtain ⟨v, hv⟩ := (isDigit_iff b c).1 (h c (by simp))
    refine ⟨v :: ds, ?_⟩
    unfold DigitsOf at hds ⊢
    rw [List.reverse_append]
    simp only [List.reverse_cons, List.reverse_nil, List.nil_append, List.cons_append, List.forall₂_cons]
    exact ⟨hv, hds⟩

theorem horner_zero (b : Nat) (s : Str) : horner b ('0' :: s) = horner b s := by
  unfold horner
  rw [List.foldl_cons]
  have : 0 * b + (digit '0').getD 0 = 0 := by
    have : digit '0' = some 0 := by decide
    rw [this]; simp
  rw [this]

theorem readBase_zero (s : Str) :
    (∃ x d w, s = x :: d :: w ∧ (x = 'x' ∨ x = 'X') ∧ isDigit 16 d = true ∧ readBase ('0' :: s) = (16, d :: w)) ∨
    readBase ('0' :: s) = (8, '0' :: s) := by
  match s with
  | [] => right; rfl
  | [x] => right; rfl
  | x :: d :: w =>
    by_cases h : (x = 'x' ∨ x = 'X') ∧ isDigit 16 d = true
    · left
      refine ⟨x, d, w, rfl, h.1, h.2, ?_⟩
      exact if_pos h
    · right
      exact if_neg h

theorem readBase_other (u : Str) (h : u.head? ≠ some '0') : readBase u = (10, u) := by
  match u with
  | [] => rfl
  | c :: w =>
    have hc : c ≠ '0' := by
      intro h'; subst h'; simp at h
    unfold readBase
    split
    · rename_i heq
      simp only [List.cons.injEq] at heq
      exact absurd heq.1 hc
    · rename_i heq
      simp only [List.cons.injEq] at heq
      exact absurd heq.1 hc
    · rfl

theorem not_octal_x (x : Char) (h : x = 'x' ∨ x = 'X') : isDigit 8 x = false := by
  rcases h with rfl | rfl <;> decide

theorem unsigned_read (u : Str) (m : Nat) (h : Unsigned u m) :
    (readBase u).2 ≠ [] ∧ (∀ c ∈ (readBase u).2, isDigit (readBase u).1 c = true) ∧
    horner (readBase u).1 (readBase u).2 = m := by
  cases h with
  | dec _ ds h0 hz h =>
    rw [readBase_other u hz]
    obtain ⟨h1, h2⟩ := digitsOf_horner 10 u ds h
    exact ⟨h0, h1, by simpa using h2⟩
  | oct s ds h =>
    obtain ⟨h1, h2⟩ := digitsOf_horner 8 s ds h
    rcases readBase_zero s with ⟨x, d, w, rfl, hx, _, _⟩ | e
    · have := h1 x List.mem_cons_self
      rw [not_octal_x x hx] at this
      simp at this
    · rw [e]
      refine ⟨by simp, fun c hc => ?_, ?_⟩
      · rcases List.mem_cons.1 hc with rfl | hc
        · show isDigit 8 '0' = true
          decide
        · exact h1 c hc
      · simp only
        rw [horner_zero, h2]
  | hex x s ds hx h0 h =>
    obtain ⟨h1, h2⟩ := digitsOf_horner 16 s ds h
    cases s with
    | nil => exact absurd rfl h0
    | cons d w =>
      have hb : readBase ('0' :: x :: d :: w) = (16, d :: w) := by
        exact if_pos ⟨hx, h1 d List.mem_cons_self⟩
      rw [hb]
      exact ⟨by simp, h1, h2⟩

theorem read_unsigned (u : Str) (h0 : (readBase u).2 ≠ [])
    (h : ∀ c ∈ (readBase u).2, isDigit (readBase u).1 c = true) :
    Unsigned u (horner (readBase u).1 (readBase u).2) := by
  by_cases hz : u.head? = some '0'
  · cases u with
    | nil => simp at hz
    | cons c s =>
      simp only [List.head?_cons, Option.some.injEq] at hz
      subst hz
      rcases readBase_zero s with ⟨x, d, w, rfl, hx, _, e⟩ | e
      · rw [e] at h ⊢
        obtain ⟨ds, hds⟩ := digitsOf_exists 16 _ h
        simp only
        rw [(digitsOf_horner 16 _ ds hds).2]
        exact .hex x (d :: w) ds hx (by simp) hds
      · rw [e] at h ⊢
        obtain ⟨ds, hds⟩ := digitsOf_exists 8 s fun c hc => h c (List.mem_cons_of_mem _ hc)
        simp only
        rw [horner_zero, (digitsOf_horner 8 _ ds hds).2]
        exact .oct s ds hds
  · rw [readBase_other u hz] at h h0 ⊢
    obtain ⟨ds, hds⟩ := digitsOf_exists 10 u h
    simp only
    rw [(digitsOf_horner 10 _ ds hds).2]
    exact .dec u ds h0 hz hds

theorem dropWhile_eq_nil_all {p : Char → Bool} {l : Str} (h : l.dropWhile p = []) : ∀ c ∈ l, p c = true :=
  List.dropWhile_eq_nil_iff.1 h

theorem unsigned_head (u : Str) (m : Nat) (h : Unsigned u m) :
    ∃ c w, u = c :: w ∧ isDigit 10 c = true := by
  cases h with
  | dec _ ds h0 hz h =>
    cases u with
    | nil => exact absurd rfl h0
    | cons c w => exact ⟨c, w, rfl, (digitsOf_horner 10 _ ds h).1 c List.mem_cons_self⟩
  | oct s ds h => exact ⟨_, _, rfl, by decide⟩
  | hex x s ds hx h0 h => exact ⟨_, _, rfl, by decide⟩

theorem isDigit_not_space (c : Char) (h : isDigit 10 c = true) : Args.isSpace c = false := by
  obtain ⟨v, hv, hlt⟩ := (isDigit_iff 10 c).1 h
  unfold DigitOf at hv
  interval_cases v <;> simp at hv <;> subst hv <;> decide

theorem isDigit_not_sign (c : Char) (h : isDigit 10 c = true) : c ≠ '-' ∧ c ≠ '+' := by
  constructor <;> rintro rfl <;> revert h <;> decide

theorem dropWhile_space (w : Str) (c : Char) (u : Str) (hw : ∀ d ∈ w, Args.isSpace d = true)
    (hc : Args.isSpace c = false) : (w ++ c :: u).dropWhile Args.isSpace = c :: u := by
  induction w with
  | nil => simp [List.dropWhile_cons, hc]
  | cons d w ih =>
    rw [List.cons_append, List.dropWhile_cons, if_pos (hw d List.mem_cons_self)]
    exact ih fun e he => hw e (List.mem_cons_of_mem _ he)

theorem readSign_other (c : Char) (u : Str) (h : c ≠ '-' ∧ c ≠ '+') : readSign (c :: u) = (false, c :: u) := by
  unfold readSign
  split
  · rename_i heq
    simp only [List.cons.injEq] at heq
    exact absurd heq.1 h.1
  · rename_i heq
    simp only [List.cons.injEq] at heq
    exact absurd heq.1 h.2
  · rfl

theorem strtoll_read (s u : Str) (neg : Bool) (m : Nat) (hs : readSign (s.dropWhile Args.isSpace) = (neg, u))
    (hu : Unsigned u m) : strtoll s = (saturate neg m, []) := by
  obtain ⟨h1, h2, h3⟩ := unsigned_read u m hu
  unfold strtoll
  rw [hs]
  have e1 : (readBase u).2.takeWhile (isDigit (readBase u).1) = (readBase u).2 := List.takeWhile_eq_self_iff.2 h2
  have e2 : (readBase u).2.dropWhile (isDigit (readBase u).1) = [] := List.dropWhile_eq_nil_iff.2 h2
  simp only
  rw [e1, e2, if_neg h1, h3]

theorem numeral_strtoll (s : Str) (n : Int) (h : Numeral s n) :
    ∃ neg m, strtoll s = (saturate neg m, []) ∧ n = if neg then -(m : Int) else (m : Int) := by
  cases h with
  | plain w u n hw hu =>
    obtain ⟨c, t, rfl, hc⟩ := unsigned_head u n hu
    refine ⟨false, n, strtoll_read _ _ false n ?_ hu, rfl⟩
    rw [dropWhile_space w c t hw (isDigit_not_space c hc), readSign_other c t (isDigit_not_sign c hc)]
  | plus w u n hw hu =>
    refine ⟨false, n, strtoll_read _ _ false n ?_ hu, rfl⟩
    rw [dropWhile_space w '+' u hw (by decide)]
    rfl
  | minus w u n hw hu =>
    refine ⟨true, n, strtoll_read _ _ true n ?_ hu, rfl⟩
    rw [dropWhile_space w '-' u hw (by decide)]
    rfl

theorem numeral_ne_nil (s : Str) (n : Int) (h : Numeral s n) : s ≠ [] := by
  cases h with
  | plain w u n hw hu =>
    obtain ⟨c, t, rfl, _⟩ := unsigned_head u n hu
    simp
  | plus => simp
  | minus => simp

theorem cStr_self (s : Str) (h : NoNull s) : cStr s = s := by
  unfold cStr
  rw [List.takeWhile_eq_self_iff]
  intro c hc
  have : c ≠ '\x00' := fun e => h (e ▸ hc)
  simpa using this

theorem saturate_range (neg : Bool) (m : Nat) (n : Int) (e : n = if neg then -(m : Int) else (m : Int)) :
    (¬ (saturate neg m = llongMin ∨ saturate neg m = llongMax) ∧ saturate neg m = n) ↔ IdxRange n := by
  have e63 : (2 : Int) ^ 63 = 9223372036854775808 := by norm_num
  unfold saturate llongMin llongMax IdxRange
  rw [e63]
  cases neg
  · simp only [Bool.false_eq_true, if_false] at e ⊢
    subst e
    split_ifs
    · constructor
      · rintro ⟨h, _⟩; exact absurd (Or.inr rfl) h
      · intro h; omega
    · constructor
      · rintro ⟨h, _⟩; rw [not_or] at h; omega
      · intro h; refine ⟨?_, rfl⟩; rw [not_or]; refine ⟨fun e => ?_, fun e => ?_⟩ <;> omega
  · simp only [if_true] at e ⊢
    subst e
    split_ifs
    · constructor
      · rintro ⟨h, _⟩; exact absurd (Or.inl rfl) h
      · intro h; omega
    · constructor
      · rintro ⟨h, _⟩; rw [not_or] at h; omega
      · intro h; refine ⟨?_, rfl⟩; rw [not_or]; omega

theorem idxVal_of (s : Str) (n : Int) (hz : NoNull s) (h : Numeral s n) (hn : IdxRange n) : idxVal s = some n := by
  obtain ⟨neg, m, e, en⟩ := numeral_strtoll s n h
  have h0 := numeral_ne_nil s n h
  obtain ⟨h1, h2⟩ := (saturate_range neg m n en).2 hn
  unfold idxVal
  rw [if_neg (by simpa using h0), cStr_self s hz, e]
  simp only
  rw [if_neg (by simp only [not_or] at h1 ⊢; exact ⟨h1.1, h1.2, by simp⟩), h2]

theorem of_idxVal (s : Str) (n : Int) (hz : NoNull s) (h : idxVal s = some n) : Numeral s n ∧ IdxRange n := by
  unfold idxVal at h
  by_cases h0 : s.length = 0
  · rw [if_pos h0] at h; simp at h
  rw [if_neg h0, cStr_self s hz] at h
  simp only at h
  by_cases hc : (strtoll s).1 = llongMin ∨ (strtoll s).1 = llongMax ∨ (strtoll s).2 ≠ []
  · rw [if_pos hc] at h; simp at h
  rw [if_neg hc] at h
  simp only [Option.some.injEq] at h
  simp only [not_or, not_not] at hc
  obtain ⟨hc1, hc2, hc3⟩ := hc
  have hsplit := List.takeWhile_append_dropWhile (p := Args.isSpace) (l := s)
  have hw : ∀ c ∈ s.takeWhile Args.isSpace, Args.isSpace c = true := fun c hc => List.mem_takeWhile_imp hc
  cases hr : readSign (s.dropWhile Args.isSpace) with
  | mk neg u =>
  have key : (readBase u).2 ≠ [] ∧ (∀ c ∈ (readBase u).2, isDigit (readBase u).1 c = true) := by
    unfold strtoll at hc3
    rw [hr] at hc3
    simp only at hc3
    by_cases hd : (readBase u).2.takeWhile (isDigit (readBase u).1) = []
    · rw [if_pos hd] at hc3
      simp only at hc3
      rw [hc3] at h0
      simp at h0
    · rw [if_neg hd] at hc3
      refine ⟨fun e => hd (by rw [e]; rfl), dropWhile_eq_nil_all hc3⟩
  have hu := read_unsigned u key.1 key.2
  have hst := strtoll_read s u neg _ hr hu
  rw [hst] at h hc1 hc2
  simp only at h hc1 hc2
  generalize hm : horner (readBase u).1 (readBase u).2 = m at hu h hc1 hc2
  have hrange : IdxRange n ∧ n = if neg then -(m : Int) else (m : Int) := by
    have := saturate_range neg m (if neg then -(m : Int) else (m : Int)) rfl
    have hsat : saturate neg m = if neg then -(m : Int) else (m : Int) := by
      unfold saturate at hc1 hc2 ⊢
      cases neg <;> simp only [Bool.false_eq_true, if_false, if_true] at hc1 hc2 ⊢ <;>
        (split_ifs at hc1 hc2 ⊢ <;> first | rfl | (exfalso; first | exact hc1 rfl | exact hc2 rfl))
    rw [← h, hsat]
    exact ⟨this.1 ⟨by simp [hc1, hc2], hsat⟩, rfl⟩
  refine ⟨?_, hrange.1⟩
  rw [hrange.2]
  rw [← hsplit]
  generalize s.dropWhile Args.isSpace = t at hr
  unfold readSign at hr
  split at hr
  · obtain ⟨rfl, rfl⟩ := Prod.mk.inj hr
    exact .minus _ _ m hw hu
  · obtain ⟨rfl, rfl⟩ := Prod.mk.inj hr
    exact .plus _ _ m hw hu
  · obtain ⟨rfl, rfl⟩ := Prod.mk.inj hr
    exact .plain _ _ m hw hu

theorem toInt32_self (n : Int) (h : IntRange n) : toInt32 n = n := by
  unfold IntRange at h
  unfold toInt32
  omega

theorem intRange_idx (n : Int) (h : IntRange n) : IdxRange n := by
  unfold IntRange at h
  unfold IdxRange
  omega

theorem splitComma_piece (cur s : Str) (h : ',' ∉ s) (t : Str) :
    splitComma cur (s ++ ',' :: t) = (cur ++ s) :: splitComma [] t := by
  induction s generalizing cur with
  | nil => simp [splitComma]
  | cons c s ih =>
    rw [List.mem_cons, not_or] at h
    rw [List.cons_append, splitComma, if_neg (fun e => h.1 e.symm), ih _ h.2]
    simp

theorem splitComma_last (cur s : Str) (h : ',' ∉ s) (h0 : cur ++ s ≠ []) : splitComma cur s = [cur ++ s] := by
  induction s generalizing cur with
  | nil =>
    simp only [List.append_nil] at h0
    simp [splitComma, h0]
  | cons c s ih =>
    rw [List.mem_cons, not_or] at h
    rw [splitComma, if_neg (fun e => h.1 e.symm), ih _ h.2 (by simp)]
    simp

theorem splitComma_join (l : List Str) (h : ∀ s ∈ l, ',' ∉ s ∧ s ≠ []) :
    splitComma [] (List.intercalate [','] l) = l := by
  induction l with
  | nil => rfl
  | cons a l ih =>
    cases l with
    | nil =>
      have := splitComma_last [] a (h a List.mem_cons_self).1 (by simpa using (h a List.mem_cons_self).2)
      simpa using this
    | cons b l =>
      have e : List.intercalate [','] (a :: b :: l) = a ++ ',' :: List.intercalate [','] (b :: l) := by
        simp [List.intercalate]
      rw [e, splitComma_piece [] a (h a List.mem_cons_self).1, ih fun s hs => h s (List.mem_cons_of_mem _ hs)]
      simp

theorem pushAll_allowed (allowed val l : List Str) (h : ∀ s ∈ l, s ∈ allowed) :
    pushAll allowed val l = (val ++ l, false) := by
  induction l generalizing val with
  | nil => simp [pushAll]
  | cons s l ih =>
    rw [pushAll, if_neg (by
      intro hc
      exact hc.2 (h s List.mem_cons_self)), ih _ fun t ht => h t (List.mem_cons_of_mem _ ht)]
    simp

end Yask.Options
