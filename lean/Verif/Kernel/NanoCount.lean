import Verif.Kernel.NanoParts

/-!
# Counting how often each point is written by a nano-block
-/

namespace Yask.Nano
open Spec

/-- The vector indices and offsets of a point match the part `(cdims, lr)`, from dimension `j` on. -/
def MatchP (cdims lr : Nat) : Nat → Nat → List NanoDim → List Int → List Int → Prop
  | _, _, [], [], [] => True
  | j, nsel, d :: ds, v :: vs, o :: os =>
    if isBitSet cdims j then
      if !isBitSet lr nsel then isL d v o ∧ MatchP cdims lr (j + 1) (nsel + 1) ds vs os
      else isR d v o ∧ MatchP cdims lr (j + 1) (nsel + 1) ds vs os
    else isF d v ∧ MatchP cdims lr (j + 1) nsel ds vs os
  | _, _, _, _, _ => False

theorem dimMasks_left (fi : Bool) (sizes : List Int) (hpos : ∀ d ∈ sizes, 0 < d) (hP : prodVals sizes ≤ 63)
    (j : Nat) (d : NanoDim) (hl : d.left = true) (O : List Int) (hO : InSpace sizes O) :
    (dimMasks fi sizes j d).1.getLsbD (layoutVals fi sizes O) = decide (pCond d (O.getD j 0)) := by
  have hlt := layout_lt fi sizes O hO
  have hbit : ∀ c, (foldMask fi sizes c).getLsbD (layoutVals fi sizes O) = c O := by
    intro c
    rw [foldMask_bit fi sizes hpos hP c _ (by unfold foldPts; omega), unlayout_layout _ _ _ hO]
  have hl0 : d.left0 = true := hl
  unfold dimMasks
  simp only [hl0, Bool.true_or, if_true]
  by_cases hs : d.same = true
  · rw [if_pos hs]
    simp only
    rw [BitVec.getLsbD_and, hbit, hbit]
    simp [pCond, hs]
  · rw [if_neg hs]
    simp only
    rw [hbit]
    simp [pCond, hs]

theorem dimMasks_right (fi : Bool) (sizes : List Int) (hpos : ∀ d ∈ sizes, 0 < d) (hP : prodVals sizes ≤ 63)
    (j : Nat) (d : NanoDim) (hr : d.right = true) (O : List Int) (hO : InSpace sizes O) :
    (dimMasks fi sizes j d).2.getLsbD (layoutVals fi sizes O) = decide (rCond d (O.getD j 0)) := by
  have hlt := layout_lt fi sizes O hO
  have hbit : ∀ c, (foldMask fi sizes c).getLsbD (layoutVals fi sizes O) = c O := by
    intro c
    rw [foldMask_bit fi sizes hpos hP c _ (by unfold foldPts; omega), unlayout_layout _ _ _ hO]
  unfold NanoDim.right at hr
  by_cases hs : d.same = true
  · simp [hs] at hr
  · rw [if_neg hs] at hr
    unfold dimMasks
    simp only [hr, Bool.or_true, if_true]
    rw [if_neg hs]
    simp only
    rw [hbit]

theorem partGo_match (fi : Bool) (sizes : List Int) (hpos : ∀ d ∈ sizes, 0 < d) (hP : prodVals sizes ≤ 63)
    (cdims lr : Nat) (O : List Int) (hO : InSpace sizes O) (ds : List NanoDim) (vs os : List Int)
    (hv : vs.length = ds.length) (ho : os.length = ds.length) (j nsel : Nat)
    (hj : ∀ i, i < os.length → O.getD (j + i) 0 = os.getD i 0) :
    ((partGo fi sizes cdims lr j nsel ds).2.2 = true ∧ InBox vs (partGo fi sizes cdims lr j nsel ds).1 ∧
      (partGo fi sizes cdims lr j nsel ds).2.1.getLsbD (layoutVals fi sizes O) = true) ↔
      MatchP cdims lr j nsel ds vs os := by
  have hlt : layoutVals fi sizes O < 64 := by
    have := layout_lt fi sizes O hO
    omega
  induction ds generalizing vs os j nsel with
  | nil =>
    have : vs = [] := by simpa using hv
    subst this
    have : os = [] := by simpa using ho
    subst this
    simp only [partGo, MatchP, BitVec.getLsbD_allOnes]
    simp [hlt]
  | cons d ds ih =>
    match vs, hv, os, ho with
    | v :: vs, hv, o :: os, ho =>
      have hj0 : O.getD j 0 = o := by
        have := hj 0 (by simp); simpa using this
      have hj' : ∀ i, i < os.length → O.getD (j + 1 + i) 0 = os.getD i 0 := by
        intro i hi
        have := hj (i + 1) (by simpa using hi)
        rw [show j + 1 + i = j + (i + 1) by omega, this]; simp
      have ihn := ih vs os (by simpa using hv) (by simpa using ho) (j + 1)
      unfold partGo MatchP
      by_cases hc : isBitSet cdims j = true
      · have ih1 := ihn (nsel + 1) hj'
        simp only [hc, if_true]
        by_cases hb : isBitSet lr nsel = true
        · simp only [hb, Bool.not_true, Bool.false_eq_true, if_false, Bool.and_eq_true,
            List.forall₂_cons, BitVec.getLsbD_and]
          constructor
          · rintro ⟨⟨h1, h2⟩, ⟨h3, h4⟩, h5, h6⟩
            rw [dimMasks_right fi sizes hpos hP j d h2 O hO, hj0, decide_eq_true_eq] at h6
            exact ⟨⟨h2, h3, h6⟩, ih1.1 ⟨h1, h4, h5⟩⟩
          · rintro ⟨⟨h2, h3, h6⟩, hM⟩
            obtain ⟨h1, h4, h5⟩ := ih1.2 hM
            refine ⟨⟨h1, h2⟩, ⟨h3, h4⟩, h5, ?_⟩
            rw [dimMasks_right fi sizes hpos hP j d h2 O hO, hj0, decide_eq_true_eq]
            exact h6
        · simp only [hb, Bool.not_false, if_true, Bool.and_eq_true,
            List.forall₂_cons, BitVec.getLsbD_and]
          constructor
          · rintro ⟨⟨h1, h2⟩, ⟨h3, h4⟩, h5, h6⟩
            rw [dimMasks_left fi sizes hpos hP j d h2 O hO, hj0, decide_eq_true_eq] at h6
            exact ⟨⟨h2, h3, h6⟩, ih1.1 ⟨h1, h4, h5⟩⟩
          · rintro ⟨⟨h2, h3, h6⟩, hM⟩
            obtain ⟨h1, h4, h5⟩ := ih1.2 hM
            refine ⟨⟨h1, h2⟩, ⟨h3, h4⟩, h5, ?_⟩
            rw [dimMasks_left fi sizes hpos hP j d h2 O hO, hj0, decide_eq_true_eq]
            exact h6
      · have ih1 := ihn nsel hj'
        simp only [hc, if_false, Bool.false_eq_true, List.forall₂_cons]
        constructor
        · rintro ⟨h1, ⟨h3, h4⟩, h5⟩
          exact ⟨h3, ih1.1 ⟨h1, h4, h5⟩⟩
        · rintro ⟨h3, hM⟩
          obtain ⟨h1, h4, h5⟩ := ih1.2 hM
          exact ⟨h1, ⟨h3, h4⟩, h5⟩

theorem partGo_ok (fi : Bool) (sizes : List Int) (cdims lr : Nat) (ds : List NanoDim)
    (hd : ∀ d ∈ ds, d.Ok) (j nsel : Nat) :
    (partGo fi sizes cdims lr j nsel ds).1.length = ds.length ∧
      ∀ x ∈ ds.zip (partGo fi sizes cdims lr j nsel ds).1, LoopOk x.1 x.2 := by
  induction ds generalizing j nsel with
  | nil => simp [partGo]
  | cons d ds ih =>
    obtain ⟨k1, k2, k3⟩ := dim_loopOk d (hd d List.mem_cons_self)
    have ih' := fun j nsel => ih (fun d h => hd d (List.mem_cons_of_mem _ h)) j nsel
    unfold partGo
    split
    · simp only
      split
      · simp only [List.length_cons, List.zip_cons_cons, List.mem_cons]
        refine ⟨by rw [(ih' _ _).1], ?_⟩
        rintro x (rfl | hx)
        · exact k2
        · exact (ih' _ _).2 x hx
      · simp only [List.length_cons, List.zip_cons_cons, List.mem_cons]
        refine ⟨by rw [(ih' _ _).1], ?_⟩
        rintro x (rfl | hx)
        · exact k3
        · exact (ih' _ _).2 x hx
    · simp only [List.length_cons, List.zip_cons_cons, List.mem_cons]
      refine ⟨by rw [(ih' _ _).1], ?_⟩
      rintro x (rfl | hx)
      · exact k1
      · exact (ih' _ _).2 x hx

/-! ### Which part a point belongs to -/

/-- All dimensions are in one of the three classes. -/
def AllIn : List NanoDim → List Int → List Int → Prop
  | [], [], [] => True
  | d :: ds, v :: vs, o :: os => (isF d v ∨ isL d v o ∨ isR d v o) ∧ AllIn ds vs os
  | _, _, _ => False

/-- Per dimension: not in the full range. -/
def selList : List NanoDim → List Int → List Bool
  | d :: ds, v :: vs => (!decide (isF d v)) :: selList ds vs
  | _, _ => []

/-- Sides of the selected dimensions. -/
def sideList : List NanoDim → List Int → List Int → List Bool
  | d :: ds, v :: vs, o :: os =>
    if isF d v then sideList ds vs os else decide (isR d v o) :: sideList ds vs os
  | _, _, _ => []

/-- The three classes exclude each other in every dimension. -/
def Excl : List NanoDim → List Int → List Int → Prop
  | d :: ds, v :: vs, o :: os =>
    ((isF d v → ¬ isL d v o ∧ ¬ isR d v o) ∧ (isL d v o → ¬ isR d v o)) ∧ Excl ds vs os
  | _, _, _ => True

theorem match_iff (cdims lr : Nat) (ds : List NanoDim) (vs os : List Int) (hv : vs.length = ds.length)
    (ho : os.length = ds.length) (hx : Excl ds vs os) (j nsel : Nat) :
    MatchP cdims lr j nsel ds vs os ↔ AllIn ds vs os ∧
      (∀ i, i < ds.length → isBitSet cdims (j + i) = (selList ds vs).getD i false) ∧
      ∀ t, t < (sideList ds vs os).length → isBitSet lr (nsel + t) = (sideList ds vs os).getD t false := by
  induction ds generalizing vs os j nsel with
  | nil =>
    have : vs = [] := by simpa using hv
    subst this
    have : os = [] := by simpa using ho
    subst this
    simp [MatchP, AllIn, sideList]
  | cons d ds ih =>
    match vs, hv, os, ho with
    | v :: vs, hv, o :: os, ho =>
      obtain ⟨⟨x1, x2⟩, x3⟩ := hx
      have ihn := ih vs os (by simpa using hv) (by simpa using ho) x3 (j + 1)
      have shift : ∀ (P : Nat → Prop) (n : Nat), (∀ i, i < n + 1 → P i) ↔ P 0 ∧ ∀ i, i < n → P (i + 1) := by
        intro P n
        constructor
        · intro h; exact ⟨h 0 (by omega), fun i hi => h (i + 1) (by omega)⟩
        · rintro ⟨h0, h1⟩ i hi
          cases i with
          | zero => exact h0
          | succ i => exact h1 i (by omega)
      have e : ∀ a i : Nat, a + 1 + i = a + (i + 1) := by omega
      simp only [MatchP, AllIn, selList, List.length_cons]
      rw [shift]
      simp only [List.getD_cons_zero, List.getD_cons_succ, Nat.add_zero]
      by_cases hF : isF d v
      · have hs : sideList (d :: ds) (v :: vs) (o :: os) = sideList ds vs os := by
          simp only [sideList]; rw [if_pos hF]
        rw [hs, decide_eq_true hF]
        have ih0 := ihn nsel
        simp only [e] at ih0
        by_cases hc : isBitSet cdims j = true
        · simp only [hc, if_true, Bool.not_true, Bool.true_eq_false, false_and, and_false, iff_false]
          split
          · exact fun h => (x1 hF).1 h.1
          · exact fun h => (x1 hF).2 h.1
        · rw [if_neg hc]
          simp only [Bool.not_eq_true] at hc
          rw [ih0, hc]
          simp only [Bool.not_true, true_and]
          exact ⟨fun h => ⟨⟨Or.inl hF, h.2.1⟩, h.2.2⟩, fun h => ⟨hF, h.1.2, h.2⟩⟩
      · have hs : sideList (d :: ds) (v :: vs) (o :: os) = decide (isR d v o) :: sideList ds vs os := by
          simp only [sideList]; rw [if_neg hF]
        rw [hs, decide_eq_false hF]
        have ih0 := ihn (nsel + 1)
        simp only [e] at ih0
        simp only [List.length_cons]
        rw [shift]
        simp only [List.getD_cons_zero, List.getD_cons_succ, Nat.add_zero, Bool.not_false]
        by_cases hc : isBitSet cdims j = true
        · rw [if_pos hc, hc]
          by_cases hb : isBitSet lr nsel = true
          · simp only [hb, Bool.not_true, Bool.false_eq_true, if_false]
            rw [ih0]
            by_cases hR : isR d v o
            · rw [decide_eq_true hR]
              exact ⟨fun h => ⟨⟨Or.inr (Or.inr hR), h.2.1⟩, ⟨trivial, h.2.2.1⟩, rfl, h.2.2.2⟩,
                fun h => ⟨hR, h.1.2, h.2.1.2, h.2.2.2⟩⟩
            · rw [decide_eq_false hR]
              exact ⟨fun h => absurd h.1 hR, fun h => absurd h.2.2.1 (by simp)⟩
          · simp only [hb, Bool.not_false, if_true]
            rw [ih0]
            by_cases hR : isR d v o
            · rw [decide_eq_true hR]
              exact ⟨fun h => absurd hR (x2 h.1), fun h => absurd h.2.2.1 (by simp)⟩
            · rw [decide_eq_false hR]
              exact ⟨fun h => ⟨⟨Or.inr (Or.inl h.1), h.2.1⟩, ⟨trivial, h.2.2.1⟩, rfl, h.2.2.2⟩,
                fun h => ⟨by
                  rcases h.1.1 with h1 | h1 | h1
                  · exact absurd h1 hF
                  · exact h1
                  · exact absurd h1 hR, h.1.2, h.2.1.2, h.2.2.2⟩⟩
        · rw [if_neg hc]
          exact ⟨fun h => absurd h.1 hF, fun h => absurd h.2.1.1 hc⟩

theorem sideList_length (ds : List NanoDim) (vs os : List Int) (hv : vs.length = ds.length)
    (ho : os.length = ds.length) :
    (sideList ds vs os).length = (selList ds vs).count true := by
  induction ds generalizing vs os with
  | nil => rfl
  | cons d ds ih =>
    match vs, hv, os, ho with
    | v :: vs, hv, o :: os, ho =>
      have := ih vs os (by simpa using hv) (by simpa using ho)
      simp only [sideList, selList, List.count_cons]
      by_cases hF : isF d v
      · rw [if_pos hF, this, decide_eq_true hF]; simp
      · rw [if_neg hF, decide_eq_false hF]; simp [this]

theorem selList_length (ds : List NanoDim) (vs : List Int) (hv : vs.length = ds.length) :
    (selList ds vs).length = ds.length := by
  induction ds generalizing vs with
  | nil => rfl
  | cons d ds ih =>
    match vs, hv with
    | v :: vs, hv => simp [selList, ih vs (by simpa using hv)]

/-- The set of positions at which a list of flags is true. -/
def trueSet (l : List Bool) : Finset Nat := (Finset.range l.length).filter fun i => l.getD i false = true

theorem trueSet_card (l : List Bool) : (trueSet l).card = l.count true := by
  induction l using List.reverseRecOn with
  | nil => rfl
  | append_singleton l a ih =>
    have e : trueSet (l ++ [a]) = if a then insert l.length (trueSet l) else trueSet l := by
      ext i
      cases a
      · simp only [trueSet, Finset.mem_filter, Finset.mem_range, List.length_append, List.length_singleton,
          Bool.false_eq_true, if_false, List.getD_eq_getElem?_getD, List.getElem?_append]
        by_cases h : i < l.length
        · have h4 : i < l.length + 1 := by omega
          simp [h, h4]
        · by_cases h2 : i = l.length
          · subst h2; simp
          · have h4 : ¬ i < l.length + 1 := by omega
            simp [h, h4]
      · simp only [trueSet, Finset.mem_filter, Finset.mem_range, List.length_append, List.length_singleton,
          if_true, List.getD_eq_getElem?_getD, List.getElem?_append, Finset.mem_insert]
        by_cases h : i < l.length
        · have h3 : ¬ i = l.length := by omega
          have h4 : i < l.length + 1 := by omega
          simp [h, h3, h4]
        · by_cases h2 : i = l.length
          · subst h2; simp
          · have h4 : ¬ i < l.length + 1 := by omega
            simp [h, h2, h4]
    rw [e, List.count_append]
    cases a
    · simp [ih]
    · rw [if_pos rfl, Finset.card_insert_of_notMem (by simp [trueSet]), ih]
      simp

theorem exists_bits (w : List Bool) : ∃ n < 2 ^ w.length, ∀ t < w.length, isBitSet n t = w.getD t false := by
  induction w using List.reverseRecOn with
  | nil => exact ⟨0, by simp, by simp⟩
  | append_singleton w a ih =>
    obtain ⟨n, hn, hb⟩ := ih
    refine ⟨if a then 2 ^ w.length + n else n, ?_, ?_⟩
    · rw [List.length_append, List.length_singleton, pow_succ]
      split <;> omega
    · intro t ht
      rw [List.length_append, List.length_singleton] at ht
      have hb' : ∀ t < w.length, n.testBit t = w.getD t false := by
        intro t ht; rw [← hb t ht, isBitSet_eq]
      rw [isBitSet_eq, List.getD_eq_getElem?_getD, List.getElem?_append]
      by_cases h : t < w.length
      · rw [if_pos h, ← List.getD_eq_getElem?_getD, ← hb' t h]
        split
        · rw [Nat.testBit_two_pow_add_gt h]
        · rfl
      · have : t = w.length := by omega
        subst this
        cases a
        · simp [Nat.testBit_lt_two_pow hn]
        · simp [Nat.testBit_two_pow_add_eq, Nat.testBit_lt_two_pow hn]

theorem bits_unique {k n m : Nat} (hn : n < 2 ^ k) (hm : m < 2 ^ k)
    (h : ∀ t < k, isBitSet n t = isBitSet m t) : n = m := by
  apply Nat.eq_of_testBit_eq
  intro i
  by_cases hi : i < k
  · have := h i hi; rwa [isBitSet_eq, isBitSet_eq] at this
  · have h1 := Nat.testBit_lt_two_pow (lt_of_lt_of_le hn (Nat.pow_le_pow_right (by omega) (by omega : k ≤ i)))
    have h2 := Nat.testBit_lt_two_pow (lt_of_lt_of_le hm (Nat.pow_le_pow_right (by omega) (by omega : k ≤ i)))
    rw [h1, h2]

end Yask.Nano
