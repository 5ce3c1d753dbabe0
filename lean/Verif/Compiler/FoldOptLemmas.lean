import Verif.Spec.FoldOptSpec
import Verif.Common.OptNumLemmas

/-!
# Lemmas for requests of fold lengths
-/

namespace Yask.FoldOpt
open Args (Str)
open Options

theorem lookup_addBack (l : Tup) (d : Str) (v : Int) (d' : Str) :
    lookup (addBack l d v) d' = if d = d' then some v else lookup l d' := by
  induction l with
  | nil =>
    by_cases h : d = d' <;> simp [lookup, addBack, h]
  | cons e l ih =>
    unfold addBack
    by_cases h : e.1 = d
    · rw [if_pos h]
      by_cases h' : d = d'
      · simp [lookup, h']
      · have : e.1 ≠ d' := fun e' => h' (h.symm.trans e')
        simp [lookup, h', this]
    · rw [if_neg h]
      by_cases h'' : e.1 = d'
      · have : d ≠ d' := fun e' => h (h''.trans e'.symm)
        simp [lookup, h'', this]
      · have h1 : lookup (e :: addBack l d v) d' = lookup (addBack l d v) d' := by simp [lookup, h'']
        have h2 : lookup (e :: l) d' = lookup l d' := by simp [lookup, h'']
        rw [h1, h2, ih]

theorem takeWhile_key (k t : Str) (h : '=' ∉ k) :
    (k ++ '=' :: t).takeWhile (· ≠ '=') = k ∧ (k ++ '=' :: t).dropWhile (· ≠ '=') = '=' :: t := by
  induction k with
  | nil => simp
  | cons c k ih =>
    rw [List.mem_cons, not_or] at h
    have hc : c ≠ '=' := fun e => h.1 e.symm
    obtain ⟨i1, i2⟩ := ih h.2
    simp only [List.cons_append]
    constructor
    · rw [List.takeWhile_cons_of_pos (by simpa using hc), i1]
    · rw [List.dropWhile_cons_of_pos (by simpa using hc), i2]

theorem piece_of {s : Str} {e : Str × Int} (hz : NoNull s) (h : Assign s e) :
    piece s = some (e.1, toInt32 e.2) := by
  obtain ⟨t, rfl, h1, h2, h3, h4⟩ := h
  obtain ⟨e1, e2⟩ := takeWhile_key e.1 t h2
  have ht : NoNull t := fun h => hz (by simp [h])
  have hn : t ≠ [] := numeral_ne_nil t _ h3
  unfold piece
  rw [e2]
  simp only [e1]
  rw [if_neg (by simpa using h1), if_neg (by simpa using hn), idxVal_of t _ ht h3 h4]
  rfl

theorem of_piece {s : Str} {p : Str × Int} (hz : NoNull s) (h : piece s = some p) :
    ∃ n, Assign s (p.1, n) ∧ p.2 = toInt32 n := by
  unfold piece at h
  split at h
  · cases h
  · next c sval e =>
    simp only at h
    split at h
    · cases h
    · next hk =>
      split at h
      · cases h
      · rw [Option.map_eq_some_iff] at h
        obtain ⟨n, h1, rfl⟩ := h
        have hs : s.takeWhile (· ≠ '=') ++ s.dropWhile (· ≠ '=') = s := List.takeWhile_append_dropWhile
        have hc : c = '=' := by
          have := List.head_dropWhile_not (p := fun c => decide (c ≠ '=')) (l := s) (by rw [e]; simp)
          simp only [e, List.head_cons] at this
          simpa using this
        rw [e, hc] at hs
        have ht : NoNull sval := fun h => hz (by rw [← hs]; simp [h])
        obtain ⟨h2, h3⟩ := of_idxVal sval n ht h1
        refine ⟨n, ⟨sval, hs.symm, by simpa using hk, ?_, h2, h3⟩, rfl⟩
        intro hm
        have := List.mem_takeWhile_imp hm
        simp at this

theorem mem_of_reverse_find (es : List (Str × Int)) (d d' : Str) (v : Int) :
    lastOf (es ++ [(d, v)]) d' = if d = d' then some v else lastOf es d' := by
  unfold lastOf
  rw [List.reverse_append]
  by_cases h : d = d' <;> simp [h]

/-- After assignments, values are the last ones written. -/
theorem pieces_last {ss : List Str} {ps : List (Str × Int)} (h : List.Forall₂ Assign ss ps)
    (hz : ∀ s ∈ ss, NoNull s) (hr : ∀ e ∈ ps, IntRange e.2) (l : Tup) (es : List (Str × Int))
    (hl : ∀ d, lookup l d = lastOf es d) :
    (pieces l ss).2 = false ∧ ∀ d, lookup (pieces l ss).1 d = lastOf (es ++ ps) d := by
  induction h generalizing l es with
  | nil => simpa [pieces] using hl
  | @cons s e ss ps h1 h2 ih =>
    unfold pieces
    rw [piece_of (hz s (List.mem_cons_self ..)) h1, toInt32_self _ (hr e (List.mem_cons_self ..))]
    have := ih (fun s hs => hz s (List.mem_cons_of_mem _ hs)) (fun e he => hr e (List.mem_cons_of_mem _ he))
      (addBack l e.1 e.2) (es ++ [e]) (by
        intro d
        rw [lookup_addBack, show e = (e.1, e.2) from rfl, mem_of_reverse_find, hl])
    simpa using this

theorem assign_ne {s : Str} {e : Str × Int} (h : Assign s e) : s ≠ [] := by
  obtain ⟨t, rfl, _⟩ := h
  simp

theorem split_assigns {ss : List Str} {ps : List (Str × Int)} (hc : ∀ s ∈ ss, ',' ∉ s)
    (h : List.Forall₂ Assign ss ps) : splitComma [] (List.intercalate [','] ss) = ss := by
  refine splitComma_join ss fun s hs => ⟨hc s hs, ?_⟩
  induction h with
  | nil => cases hs
  | cons h1 _ ih =>
    rcases List.mem_cons.1 hs with rfl | hs
    · exact assign_ne h1
    · exact ih (fun s hs => hc s (List.mem_cons_of_mem _ hs)) hs

theorem mem_intercalate {ss : List Str} {s : Str} (hs : s ∈ ss) {c : Char} (h : c ∈ s) :
    c ∈ List.intercalate [','] ss := by
  induction ss with
  | nil => cases hs
  | cons a l ih =>
    cases l with
    | nil =>
      rw [List.mem_singleton] at hs
      subst hs
      simpa using h
    | cons b l =>
      have e : List.intercalate [','] (a :: b :: l) = a ++ ',' :: List.intercalate [','] (b :: l) := by
        simp [List.intercalate]
      rw [e, List.mem_append, List.mem_cons]
      rcases List.mem_cons.1 hs with rfl | hs
      · exact .inl h
      · exact .inr (.inr (ih hs))

theorem applyAll_snoc (l : Tup) (os : List Op) (o : Op) (h : (applyAll l os).2 = false) :
    applyAll l (os ++ [o]) = o.apply (applyAll l os).1 := by
  induction os generalizing l with
  | nil =>
    show (match o.apply l with | (l', true) => (l', true) | (l', false) => applyAll l' []) = o.apply l
    rcases o.apply l with ⟨l', b⟩
    cases b <;> rfl
  | cons p os ih =>
    unfold applyAll at h
    simp only [List.cons_append]
    conv_lhs => unfold applyAll
    conv_rhs => unfold applyAll
    rcases hp : p.apply l with ⟨l', b⟩
    rw [hp] at h
    cases b with
    | true => simp at h
    | false => exact ih l' h

/-- A loop that does not throw had only assignments. -/
theorem pieces_ok {l : Tup} {ss : List Str} (hz : ∀ s ∈ ss, NoNull s) (h : (pieces l ss).2 = false) :
    ∃ ps, List.Forall₂ Assign ss ps := by
  induction ss generalizing l with
  | nil => exact ⟨[], .nil⟩
  | cons s ss ih =>
    unfold pieces at h
    split at h
    · simp at h
    · next d v hp =>
      obtain ⟨n, hn, _⟩ := of_piece (hz s (List.mem_cons_self ..)) hp
      obtain ⟨ps, hps⟩ := ih (fun s hs => hz s (List.mem_cons_of_mem _ hs)) h
      exact ⟨(d, n) :: ps, .cons hn hps⟩

/-- Splitting and joining again, up to a comma at the end. -/
theorem splitComma_back (cur s : Str) (hc : ',' ∉ cur) :
    (∀ p ∈ splitComma cur s, ',' ∉ p) ∧
    (cur ++ s = List.intercalate [','] (splitComma cur s) ∨
      cur ++ s = List.intercalate [','] (splitComma cur s) ++ [',']) := by
  induction s generalizing cur with
  | nil =>
    unfold splitComma
    split
    · next h => subst h; simp [List.intercalate]
    · simp [hc, List.intercalate]
  | cons c s ih =>
    unfold splitComma
    split
    · next h =>
      subst h
      obtain ⟨i1, i2⟩ := ih [] (by simp)
      refine ⟨?_, ?_⟩
      · intro p hp
        rcases List.mem_cons.1 hp with rfl | hp
        · exact hc
        · exact i1 p hp
      · cases hl : splitComma [] s with
        | nil =>
          rw [hl] at i2
          simp only [List.nil_append] at i2
          rcases i2 with i2 | i2
          · right; simp [i2, List.intercalate]
          · exfalso
            rw [i2] at hl
            simp [List.intercalate, splitComma] at hl
        | cons b l =>
          rw [hl] at i2
          have e : List.intercalate [','] (cur :: b :: l) = cur ++ ',' :: List.intercalate [','] (b :: l) := by
            simp [List.intercalate]
          rw [e]
          simp only [List.nil_append] at i2
          rcases i2 with i2 | i2
          · left; rw [← i2]
          · right; rw [i2]; simp
    · next h =>
      obtain ⟨i1, i2⟩ := ih (cur ++ [c]) (by simp [hc]; exact fun e => h e.symm)
      refine ⟨i1, ?_⟩
      simpa using i2

/-- A comma at the end gives no more strings. -/
theorem splitComma_comma (cur s : Str) (h : cur ++ s ≠ []) (hl : (cur ++ s).getLast h ≠ ',') :
    splitComma cur (s ++ [',']) = splitComma cur s := by
  induction s generalizing cur with
  | nil =>
    have : cur ≠ [] := by simpa using h
    simp [splitComma, this]
  | cons c s ih =>
    rw [List.cons_append]
    conv_lhs => unfold splitComma
    conv_rhs => unfold splitComma
    by_cases hc : c = ','
    · subst hc
      rw [if_pos rfl, if_pos rfl]
      cases s with
      | nil => simp at hl
      | cons b s =>
        have := ih [] (by simp) (by simpa using hl)
        rw [this]
    · rw [if_neg hc, if_neg hc]
      exact ih (cur ++ [c]) (by simp) (by simpa using hl)

theorem last_intercalate (ss : List Str) (hn : ∀ s ∈ ss, s ≠ []) (hc : ∀ s ∈ ss, ',' ∉ s)
    (h : List.intercalate [','] ss ≠ []) : (List.intercalate [','] ss).getLast h ≠ ',' := by
  induction ss with
  | nil => exact absurd rfl h
  | cons a l ih =>
    cases l with
    | nil =>
      intro e
      have e1 : List.intercalate [','] [a] = a := by simp
      have := List.getLast_mem h
      rw [e] at this
      rw [e1] at this
      exact hc a (by simp) this
    | cons b l =>
      have e : List.intercalate [','] (a :: b :: l) = (a ++ [',']) ++ List.intercalate [','] (b :: l) := by
        simp [List.intercalate]
      have hne : List.intercalate [','] (b :: l) ≠ [] := by
        obtain ⟨c, t, hb⟩ := List.exists_cons_of_ne_nil (hn b (by simp))
        intro e0
        have : c ∈ List.intercalate [','] (b :: l) := mem_intercalate (List.mem_cons_self ..) (by rw [hb]; simp)
        rw [e0] at this
        cases this
      have := ih (fun s hs => hn s (List.mem_cons_of_mem _ hs)) (fun s hs => hc s (List.mem_cons_of_mem _ hs)) hne
      rwa [List.getLast_congr h (by simp) e, List.getLast_append_of_ne_nil _ hne]

theorem split_assigns_comma {ss : List Str} {ps : List (Str × Int)} (hc : ∀ s ∈ ss, ',' ∉ s)
    (h : List.Forall₂ Assign ss ps) (ha : List.intercalate [','] ss ≠ []) :
    splitComma [] (List.intercalate [','] ss ++ [',']) = ss := by
  have hn : ∀ s ∈ ss, s ≠ [] := by
    intro s hs
    obtain ⟨i, hi, rfl⟩ := List.mem_iff_getElem.1 hs
    have h2 := (List.forall₂_iff_get.1 h)
    exact assign_ne (h2.2 i hi (h2.1 ▸ hi))
  rw [splitComma_comma [] _ (by simpa using ha) (by simpa using last_intercalate ss hn hc ha), split_assigns hc h]

end Yask.FoldOpt
