import Verif.Setup.NewVarModel
import Mathlib.Data.List.Nodup

/-! Helper lemmas about creating vars. -/

namespace Yask.Setup

theorem foldl_addDim (l acc : List String) :
    (acc.Nodup → (l.foldl addDimBack acc).Nodup) ∧ (∀ x, x ∈ l.foldl addDimBack acc ↔ x ∈ acc ∨ x ∈ l) ∧
    ((acc ++ l).Nodup → l.foldl addDimBack acc = acc ++ l) := by
  induction l generalizing acc with
  | nil => simp
  | cons d l ih =>
    obtain ⟨i1, i2, i3⟩ := ih (addDimBack acc d)
    refine ⟨fun h => i1 ?_, fun x => ?_, fun h => ?_⟩
    · unfold addDimBack
      split
      · exact h
      · rename_i hd
        rw [List.nodup_append']
        refine ⟨h, by simp, ?_⟩
        intro x hx hx'
        rw [List.mem_singleton] at hx'
        exact hd (hx' ▸ hx)
    · rw [List.foldl_cons, i2, List.mem_cons]
      unfold addDimBack
      split
      · rename_i hd
        constructor
        · rintro (h | h)
          · exact Or.inl h
          · exact Or.inr (Or.inr h)
        · rintro (h | rfl | h)
          · exact Or.inl h
          · exact Or.inl hd
          · exact Or.inr h
      · rw [List.mem_append, List.mem_singleton, or_assoc]
    · have hd : d ∉ acc := by
        intro hd
        have := (List.nodup_append'.1 h).2.2
        exact this hd (by simp)
      have e : addDimBack acc d = acc ++ [d] := by unfold addDimBack; rw [if_neg hd]
      rw [List.foldl_cons, i3, e, List.append_assoc]
      · rfl
      · rw [e, List.append_assoc]; exact h

theorem tupleDims_nodup (l : List String) : (tupleDims l).Nodup := (foldl_addDim l []).1 List.nodup_nil

theorem mem_tupleDims (l : List String) (x : String) : x ∈ tupleDims l ↔ x ∈ l := by
  unfold tupleDims
  rw [(foldl_addDim l []).2.1]
  simp

theorem tupleDims_of_nodup {l : List String} (h : l.Nodup) : tupleDims l = l := by
  have := (foldl_addDim l []).2.2 (by simpa using h)
  unfold tupleDims
  simpa using this

/-- The step dim is at most in the first place. -/
def StepFirst (s : Soln) (gdims : List String) : Prop := s.stepDim ∉ gdims.tail

theorem checkDims_spec (s : Soln) : ∀ (l : List String) (i : Nat) (misc : List String) (used : Bool),
    (∃ new, (checkDims s i l misc used).1 = misc ++ new ∧ (∀ x ∈ new, x ∈ l ∧ x ∉ s.domain ∧ x ≠ s.stepDim)) ∧
    ((checkDims s i l misc used).2 = none ↔ ∃ k, l[k]? = some s.stepDim ∧ 0 < i + k) ∧
    ((checkDims s i l misc used).2 = none ∨
      (checkDims s i l misc used).2 = some (used || l.contains s.stepDim) ∧
        ∀ x ∈ l, x ≠ s.stepDim → x ∉ s.domain → x ∈ (checkDims s i l misc used).1) := by
  intro l
  induction l with
  | nil =>
    intro i misc used
    refine ⟨⟨[], by simp [checkDims]⟩, by simp [checkDims], Or.inr (by simp [checkDims])⟩
  | cons d l ih =>
    intro i misc used
    unfold checkDims
    by_cases hstep : d = s.stepDim
    · by_cases hi : i = 0
      · have e : checkDim s [] i d misc used = some (misc, true) := by
          unfold checkDim
          simp [hstep, hi]
        rw [e]
        simp only
        obtain ⟨⟨new, a1, a2⟩, b, c⟩ := ih (i + 1) misc true
        refine ⟨⟨new, a1, fun x hx => ⟨List.mem_cons_of_mem _ (a2 x hx).1, (a2 x hx).2⟩⟩, ?_, ?_⟩
        · rw [b]
          constructor
          · rintro ⟨k, h1, h2⟩
            exact ⟨k + 1, by simpa using h1, by omega⟩
          · rintro ⟨k, h1, h2⟩
            cases k with
            | zero => omega
            | succ k => exact ⟨k, by simpa using h1, by omega⟩
        · rcases c with c | ⟨c1, c2⟩
          · exact Or.inl c
          · refine Or.inr ⟨?_, fun x hx h1 h2 => ?_⟩
            · rw [c1]; simp [hstep]
            · rcases List.mem_cons.1 hx with rfl | hx
              · exact absurd hstep h1
              · exact c2 x hx h1 h2
      · have e : checkDim s [] i d misc used = none := by
          unfold checkDim
          simp [hstep, hi]
        rw [e]
        simp only
        refine ⟨⟨[], by simp⟩, ⟨fun _ => ⟨0, by simp [hstep], by omega⟩, fun _ => by trivial⟩, Or.inl (by trivial)⟩
    · obtain ⟨m2, e, n0, hn0, hn1, hm⟩ : ∃ m2, checkDim s [] i d misc used = some (m2, used) ∧
          ∃ n0, m2 = misc ++ n0 ∧ (∀ x ∈ n0, x = d ∧ x ∉ s.domain) ∧ (d ∉ s.domain → d ∈ m2) := by
        unfold checkDim
        simp only [List.not_mem_nil, if_false, hstep]
        by_cases h1 : d ∈ s.domain
        · rw [if_pos h1]; exact ⟨misc, rfl, [], by simp, by simp, fun h => absurd h1 h⟩
        · rw [if_neg h1]
          by_cases h2 : d ∈ misc
          · rw [if_pos h2]; exact ⟨misc, rfl, [], by simp, by simp, fun _ => h2⟩
          · rw [if_neg h2]; exact ⟨misc ++ [d], rfl, [d], rfl, by simp [h1], fun _ => by simp⟩
      rw [e]
      simp only
      obtain ⟨⟨new, a1, a2⟩, b, c⟩ := ih (i + 1) m2 used
      refine ⟨⟨n0 ++ new, by rw [a1, hn0, List.append_assoc], fun x hx => ?_⟩, ?_, ?_⟩
      · rcases List.mem_append.1 hx with hx | hx
        · obtain ⟨rfl, h2⟩ := hn1 x hx
          exact ⟨by simp, h2, hstep⟩
        · exact ⟨List.mem_cons_of_mem _ (a2 x hx).1, (a2 x hx).2⟩
      · rw [b]
        constructor
        · rintro ⟨k, h1, h2⟩
          exact ⟨k + 1, by simpa using h1, by omega⟩
        · rintro ⟨k, h1, h2⟩
          cases k with
          | zero => simp [hstep] at h1
          | succ k => exact ⟨k, by simpa using h1, by omega⟩
      · rcases c with c | ⟨c1, c2⟩
        · exact Or.inl c
        · refine Or.inr ⟨?_, fun x hx h1 h2 => ?_⟩
          · rw [c1]
            have : (d :: l).contains s.stepDim = l.contains s.stepDim := by
              rw [List.contains_cons]
              have : (s.stepDim == d) = false := by simpa using fun h => hstep h.symm
              rw [this, Bool.false_or]
            rw [this]
          · rcases List.mem_cons.1 hx with rfl | hx
            · rw [a1]; exact List.mem_append_left _ (hm h2)
            · exact c2 x hx h1 h2

theorem checkDims_none (s : Soln) (l misc : List String) (used : Bool) :
    (checkDims s 0 l misc used).2 = none ↔ ¬ StepFirst s l := by
  rw [(checkDims_spec s l 0 misc used).2.1]
  unfold StepFirst
  rw [not_not, List.mem_iff_getElem?]
  constructor
  · rintro ⟨k, h1, h2⟩
    refine ⟨k - 1, ?_⟩
    rw [List.getElem?_tail]
    rw [Nat.sub_add_cancel (by omega)]
    exact h1
  · rintro ⟨k, h⟩
    rw [List.getElem?_tail] at h
    exact ⟨k + 1, h, by omega⟩

end Yask.Setup
