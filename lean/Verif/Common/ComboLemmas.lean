import Verif.Common.ComboModel
import Mathlib.Data.Nat.Choose.Basic
import Mathlib.Data.List.Nodup
import Mathlib.Data.Nat.Bitwise
import Mathlib.Tactic.Linarith
import Mathlib.Tactic.Ring

/-! Helper lemmas for `Verif.Common.ComboModel`. -/

namespace Yask

theorem asInt32_some {x : Int} (h : 0 ≤ x) (h2 : x ≤ 2147483647) : asInt32 x = some x := by
  unfold asInt32; rw [if_pos]; omega

theorem choose_bound : ∀ n < 30, ∀ i ≤ n, n.choose i * i ≤ 2147483647 := by decide +kernel

theorem nckLoop_eq (n : Nat) (hn : n < 30) (len i : Nat) (hi : 1 ≤ i) (hl : i + len ≤ n + 1) :
    nckLoop n len i (n.choose (i - 1)) = some (n.choose (i - 1 + len) : Int) := by
  induction len generalizing i with
  | zero => simp [nckLoop]
  | succ len ih =>
    unfold nckLoop
    have h1 : n.choose i * i = n.choose (i - 1) * (n - (i - 1)) := by
      have := Nat.choose_succ_right_eq n (i - 1)
      rwa [Nat.sub_add_cancel hi] at this
    have h2 : ((n.choose (i - 1) : Int) * ((n : Int) - i + 1)) = ((n.choose i * i : Nat) : Int) := by
      rw [h1]; push_cast [show i - 1 ≤ n by omega]; congr 1; omega
    rw [h2, asInt32_some (by positivity) (by exact_mod_cast choose_bound n hn i (by omega))]
    have h3 : ((n.choose i * i : Nat) : Int).tdiv i = (n.choose i : Int) := by
      push_cast; rw [Int.mul_tdiv_cancel]; omega
    simp only [Option.bind_eq_bind, Option.bind_some]
    rw [h3]
    have := ih (i + 1) (by omega) (by omega)
    simp only [Nat.add_sub_cancel] at this
    push_cast at this
    rw [this]; congr 3; omega

theorem nChooseK_eq (n k : Nat) (hn : n < 30) : nChooseK n k = some (n.choose k : Int) := by
  unfold nChooseK
  by_cases h0 : k = 0
  · subst h0; simp
  by_cases h1 : k = n
  · subst h1; simp
  rw [if_neg (by omega)]
  by_cases h2 : n < k
  · rw [if_pos (by omega), Nat.choose_eq_zero_of_lt h2]; rfl
  rw [if_neg (by omega)]
  simp only
  have key : ∀ k' : Nat, 1 ≤ k' → k' ≤ n → nckLoop n ((k' : Int) - 1).toNat 2 n =
      some (n.choose k' : Int) := by
    intro k' h1 h2
    have := nckLoop_eq n hn (k' - 1) 2 (by omega) (by omega)
    simp only [Nat.choose_one_right, show 2 - 1 = 1 from rfl, Nat.cast_ofNat] at this
    rw [show ((k' : Int) - 1).toNat = k' - 1 by omega, this]; congr 3; omega
  by_cases h3 : (k : Int) * 2 > n
  · rw [if_pos h3]
    have := key (n - k) (by omega) (by omega)
    rw [show ((n - k : Nat) : Int) = (n : Int) - k by omega] at this
    rw [this, Nat.choose_symm (by omega)]
  · rw [if_neg h3]; exact key k (by omega) (by omega)

/-- All `k`-element subsets of `{off, …, off + m - 1}` as increasing lists, in lexicographic order. -/
def combos : Nat → Nat → Nat → List (List Nat)
  | _, _, 0 => [[]]
  | _, 0, _ + 1 => []
  | off, m + 1, k + 1 => (combos (off + 1) m k).map (off :: ·) ++ combos (off + 1) m (k + 1)

theorem combos_length (off m k : Nat) : (combos off m k).length = m.choose k := by
  induction m generalizing off k with
  | zero => cases k <;> simp [combos]
  | succ m ih =>
    cases k with
    | zero => simp [combos]
    | succ k => simp [combos, ih, Nat.choose_succ_succ]

theorem mem_combos (off m k : Nat) (l : List Nat) :
    l ∈ combos off m k ↔ l.length = k ∧ l.Pairwise (· < ·) ∧ ∀ x ∈ l, off ≤ x ∧ x < off + m := by
  induction m generalizing off k l with
  | zero =>
    cases k with
    | zero =>
      simp only [combos, List.mem_singleton, List.length_eq_zero_iff]
      exact ⟨by rintro rfl; simp, fun h => h.1⟩
    | succ k =>
      simp only [combos, List.not_mem_nil, false_iff]
      rintro ⟨h1, _, h3⟩
      cases l with
      | nil => simp at h1
      | cons x l => have := h3 x List.mem_cons_self; omega
  | succ m ih =>
    cases k with
    | zero =>
      simp only [combos, List.mem_singleton, List.length_eq_zero_iff]
      exact ⟨by rintro rfl; simp, fun h => h.1⟩
    | succ k =>
      simp only [combos, List.mem_append, List.mem_map, ih]
      constructor
      · rintro (⟨l', ⟨h1, h2, h3⟩, rfl⟩ | ⟨h1, h2, h3⟩)
        · refine ⟨by simp [h1], List.pairwise_cons.2 ⟨fun x hx => ?_, h2⟩, ?_⟩
          · have := h3 x hx; omega
          · intro x hx
            rcases List.mem_cons.1 hx with rfl | hx
            · omega
            · have := h3 x hx; omega
        · exact ⟨h1, h2, fun x hx => by have := h3 x hx; omega⟩
      · rintro ⟨h1, h2, h3⟩
        cases l with
        | nil => simp at h1
        | cons x l =>
          have hx := h3 x List.mem_cons_self
          have hp := List.pairwise_cons.1 h2
          by_cases he : x = off
          · subst he
            left
            refine ⟨l, ⟨by simpa using h1, hp.2, fun y hy => ?_⟩, rfl⟩
            have := h3 y (List.mem_cons_of_mem _ hy); have := hp.1 y hy; omega
          · right
            refine ⟨h1, h2, fun y hy => ?_⟩
            have := h3 y hy
            rcases List.mem_cons.1 hy with rfl | hy
            · omega
            · have := hp.1 y hy; omega

theorem combos_nodup (off m k : Nat) : (combos off m k).Nodup := by
  induction m generalizing off k with
  | zero => cases k <;> simp [combos]
  | succ m ih =>
    cases k with
    | zero => simp [combos]
    | succ k =>
      simp only [combos]
      rw [List.nodup_append]
      refine ⟨(ih _ _).map (fun a b h => by simpa using h), ih _ _, ?_⟩
      intro a ha b hb hab
      obtain ⟨l, _, rfl⟩ := List.mem_map.1 ha
      have := ((mem_combos _ _ _ _).1 hb).2.2
      rw [← hab] at this
      have := this off List.mem_cons_self
      omega

theorem nckSearch_spec (n : Nat) (hn : n < 30) (kk r : Nat) (hkk : 1 ≤ kk) (fuel : Nat) :
    ∀ (lo m : Nat) (j : Nat), lo + m = n → m ≤ fuel → j ≤ r → r - j < m.choose (kk + 1) →
    ∃ c j' : Nat, nckSearch n kk r fuel ((lo : Int) - 1) j = some ((c : Int), (j' : Int)) ∧
      lo ≤ c ∧ c < n ∧ j' ≤ r ∧ r - j' < (n - c - 1).choose kk ∧
      (combos lo m (kk + 1))[r - j]? = (combos (c + 1) (n - c - 1) kk)[r - j']?.map (c :: ·) := by
  induction fuel with
  | zero =>
    intro lo m j h1 h2 h3 h4
    have : m = 0 := by omega
    subst this; simp at h4
  | succ fuel ih =>
    intro lo m j h1 h2 h3 h4
    cases m with
    | zero => simp at h4
    | succ m =>
      unfold nckSearch
      have e : (n : Int) - ((lo : Int) - 1 + 1 + 1) = (m : Int) := by omega
      rw [e, nChooseK_eq m kk (by omega)]
      simp only [Option.bind_eq_bind, Option.bind_some]
      by_cases hc : ((j : Int) + (m.choose kk : Int) ≥ (r : Int) + 1)
      · rw [if_pos hc]
        have hc' : r + 1 ≤ j + m.choose kk := by exact_mod_cast hc
        refine ⟨lo, j, by congr 2; omega, by omega, by omega, h3, ?_, ?_⟩
        · rw [show n - lo - 1 = m by omega]; omega
        · rw [show n - lo - 1 = m by omega]
          simp only [combos]
          rw [List.getElem?_append_left (by simp [combos_length]; omega), List.getElem?_map]
      · rw [if_neg hc]
        have hc' : j + m.choose kk < r + 1 := by
          by_contra hh; exact hc (by exact_mod_cast Nat.le_of_not_lt hh)
        rw [Nat.choose_succ_succ, Nat.succ_eq_add_one] at h4
        obtain ⟨c, j', e1, e2, e3, e4, e5, e6⟩ := ih (lo + 1) m (j + m.choose kk) (by omega) (by omega)
          (by omega) (by omega)
        refine ⟨c, j', ?_, by omega, e3, e4, e5, ?_⟩
        · rw [← e1]; congr 1; push_cast; omega
        · rw [← e6]
          simp only [combos]
          rw [List.getElem?_append_right (by simp [combos_length]; omega)]
          congr 1
          simp [combos_length]; omega

theorem nckElems_spec (n : Nat) (hn : n < 30) (r : Nat) (len : Nat) :
    ∀ (lo j : Nat), lo ≤ n → j ≤ r → r - j < (n - lo).choose (len + 1) →
    nckElems n r len ((lo : Int) - 1) j =
      (combos lo (n - lo) (len + 1))[r - j]?.map (fun l => l.map Int.ofNat) := by
  induction len with
  | zero =>
    intro lo j h1 h2 h3
    have : ∀ (m off i : Nat), i < m → (combos off m 1)[i]? = some [off + i] := by
      intro m
      induction m with
      | zero => intro off i h; omega
      | succ m ih =>
        intro off i h
        simp only [combos, List.map_cons, List.map_nil, List.cons_append, List.nil_append]
        cases i with
        | zero => simp
        | succ i => simp [ih (off + 1) i (by omega)]; omega
    simp only [Nat.choose_one_right, zero_add] at h3
    rw [this _ _ _ h3]
    simp only [nckElems, Option.map_some, List.map_cons, List.map_nil]
    congr 2
    simp only [Int.ofNat_eq_natCast]; omega
  | succ len ih =>
    intro lo j h1 h2 h3
    obtain ⟨c, j', e1, e2, e3, e4, e5, e6⟩ := nckSearch_spec n hn (len + 1) r (by omega) n lo (n - lo) j
      (by omega) (by omega) h2 h3
    simp only [nckElems, Option.bind_eq_bind]
    rw [show ((len : Int) + 1) = ((len + 1 : Nat) : Int) by push_cast; rfl,
      show (n : Int).toNat = n by omega, e1]
    simp only [Option.bind_some]
    rw [e6]
    have := ih (c + 1) j' (by omega) e4 (by rw [show n - (c + 1) = n - c - 1 by omega]; exact e5)
    rw [show (((c + 1 : Nat) : Int) - 1) = c by omega] at this
    rw [this, show n - (c + 1) = n - c - 1 by omega]
    cases (combos (c + 1) (n - c - 1) (len + 1))[r - j']? <;> simp

theorem testBit_setBit (m b : Nat) (i : Int) :
    (setBit m i).testBit b = (m.testBit b || decide (i.toNat = b)) := by
  unfold setBit
  rw [Nat.testBit_or, Nat.one_shiftLeft, Nat.testBit_two_pow]

theorem isBitSet_eq (m b : Nat) : isBitSet m b = m.testBit b := by
  unfold isBitSet
  rw [Nat.one_shiftLeft, Nat.and_two_pow]
  cases m.testBit b <;> simp

theorem testBit_foldl (l : List Nat) (m b : Nat) :
    ((l.map Int.ofNat).foldl setBit m).testBit b = (m.testBit b || decide (b ∈ l)) := by
  induction l generalizing m with
  | nil => simp
  | cons x l ih =>
    simp only [List.map_cons, List.foldl_cons, ih, testBit_setBit, List.mem_cons]
    simp only [Int.ofNat_eq_natCast, Int.toNat_natCast]
    by_cases h1 : x = b
    · subst h1; simp
    · have : ¬ b = x := fun h => h1 h.symm
      simp [h1, this]

/-- The mask computed for combination number `r` has exactly the bits of that combination. -/
theorem nChooseKSet_spec (n k r : Nat) (hn : n < 30) (hk : k ≤ 8) (hr : r < n.choose k) :
    ∃ l m, (combos 0 n k)[r]? = some l ∧ nChooseKSet n k r = some m ∧
      ∀ b, isBitSet m b = decide (b ∈ l) := by
  unfold nChooseKSet
  by_cases h0 : n = 0 ∨ k = 0
  · rw [if_pos (by omega)]
    rcases h0 with rfl | rfl
    · cases k with
      | zero =>
        simp at hr; subst hr
        exact ⟨[], 0, by simp [combos], rfl, by simp [isBitSet]⟩
      | succ k => simp at hr
    · simp at hr; subst hr
      exact ⟨[], 0, by simp [combos], rfl, by simp [isBitSet]⟩
  rw [if_neg (by omega)]
  have main := nckElems_spec n hn r (k - 1) 0 0 (by omega) (by omega)
    (by rw [show k - 1 + 1 = k by omega]; simpa using hr)
  rw [show k - 1 + 1 = k by omega] at main
  simp only [Nat.sub_zero, Nat.cast_zero, Int.zero_sub] at main
  have hl : r < (combos 0 n k).length := by rw [combos_length]; exact hr
  rw [List.getElem?_eq_getElem hl] at main ⊢
  by_cases h1 : k = 1
  · subst h1
    simp only [Nat.sub_self, nckElems, Option.map_some, Option.some.injEq] at main
    refine ⟨_, setBit 0 r, rfl, by simp, fun b => ?_⟩
    rw [isBitSet_eq, testBit_setBit]
    have e : (combos 0 n 1)[r] = [r] := by
      generalize (combos 0 n 1)[r] = l at main
      match l, main with
      | [], main => simp at main
      | [x], main => simp at main ⊢; omega
      | x :: y :: l, main => simp at main
    rw [e]
    simp only [Nat.zero_testBit, Bool.false_or, List.mem_singleton, Int.toNat_natCast]
    rw [decide_eq_decide]; exact eq_comm
  · rw [if_neg (by omega), if_neg (by omega), show ((k : Int) - 1).toNat = k - 1 by omega, main]
    refine ⟨_, _, rfl, rfl, fun b => ?_⟩
    rw [isBitSet_eq, testBit_foldl]; simp

end Yask
