import Verif.Kernel.BBModel
import Verif.Kernel.NanoLemmas
import Verif.Props.Tuple
import Verif.Common.CompactLemmas
import Verif.Sched.ScanLemmas

/-! Helper lemmas about the search for bounding boxes: one rectangle. -/

namespace Yask.BB
open Spec

theorem foldUntil_search {σ α : Type} (V : α → Bool) (g : σ → α → Option σ) (l : List α) (s : σ) :
    (foldUntil (fun s k => if V k then (s, true) else stopWith (g s k) s) l s = (s, true) ∧ ∀ k ∈ l, V k = true ∨ g s k = none) ∨
    ∃ l1 k l2 r, l = l1 ++ k :: l2 ∧ (∀ i ∈ l1, V i = true ∨ g s i = none) ∧ g s k = some r ∧
      foldUntil (fun s k => if V k then (s, true) else stopWith (g s k) s) l s = (r, false) := by
  induction l with
  | nil => exact Or.inl ⟨rfl, by simp⟩
  | cons a l ih =>
    have step : (V a = true ∨ g s a = none) →
        foldUntil (fun s k => if V k then (s, true) else stopWith (g s k) s) (a :: l) s =
        foldUntil (fun s k => if V k then (s, true) else stopWith (g s k) s) l s := by
      rintro (h | h)
      · simp only [foldUntil, h, if_true]
      · by_cases hv : V a
        · simp only [foldUntil, hv, if_true]
        · simp only [foldUntil, hv, h, stopWith]; rfl
    by_cases hs : V a = true ∨ g s a = none
    · rw [step hs]
      rcases ih with ⟨h1, h2⟩ | ⟨l1, k, l2, r, h1, h2, h3, h4⟩
      · refine Or.inl ⟨h1, fun k hk => ?_⟩
        rcases List.mem_cons.1 hk with rfl | hk
        · exact hs
        · exact h2 k hk
      · refine Or.inr ⟨a :: l1, k, l2, r, by rw [h1]; rfl, fun i hi => ?_, h3, h4⟩
        rcases List.mem_cons.1 hi with rfl | hi
        · exact hs
        · exact h2 i hi
    · rw [not_or] at hs
      obtain ⟨r, hr⟩ := Option.ne_none_iff_exists'.1 hs.2
      refine Or.inr ⟨[], a, l, r, rfl, by simp, hr, ?_⟩
      simp only [foldUntil, hs.1, hr, stopWith]
      rfl

/-- Component-wise order. -/
def LeAll (a b : List Int) : Prop := List.Forall₂ (· ≤ ·) a b

theorem leAll_refl (a : List Int) : LeAll a a := by
  unfold LeAll
  induction a with
  | nil => exact .nil
  | cons x a ih => exact .cons (Int.le_refl _) ih

theorem leAll_trans {a b c : List Int} (h1 : LeAll a b) (h2 : LeAll b c) : LeAll a c := by
  unfold LeAll at *
  induction h1 generalizing c with
  | nil => exact h2
  | cons h _ ih => cases h2 with | cons h' t => exact .cons (Int.le_trans h h') (ih t)

theorem inSpace_mono {a b q : List Int} (h : LeAll a b) (hq : InSpace a q) : InSpace b q := by
  unfold LeAll InSpace at *
  induction h generalizing q with
  | nil => exact hq
  | cons h _ ih => cases hq with | cons h' t => exact .cons ⟨h'.1, Int.lt_of_lt_of_le h'.2 h⟩ (ih t)

theorem shrinkAt_none (lens ofs : List Int) (h : InSpace lens ofs) (hn : shrinkAt lens ofs = none) :
    ∀ o ∈ ofs, o = 0 := by
  unfold InSpace at h
  induction h with
  | nil => simp
  | @cons o l os ls h t ih =>
    rw [shrinkAt] at hn
    split at hn
    · simp at hn
    · rw [Option.map_eq_none_iff] at hn
      intro x hx
      rcases List.mem_cons.1 hx with rfl | hx
      · omega
      · exact ih hn x hx

theorem shrinkAt_some (lens ofs : List Int) (h : InSpace lens ofs) (r : List Int × Bool)
    (hr : shrinkAt lens ofs = some r) :
    LeAll r.1 lens ∧ ((∀ l ∈ lens, 0 < l) → ∀ l ∈ r.1, 0 < l) ∧ r.1.sum < lens.sum ∧
    (r.2 = false → ∀ q, InSpace r.1 q → linFirst lens q < linFirst lens ofs) := by
  unfold InSpace at h
  induction h generalizing r with
  | nil => simp [shrinkAt] at hr
  | @cons o l os ls h t ih =>
    rw [shrinkAt] at hr
    split at hr
    · next ho =>
      simp only [Option.some.injEq] at hr
      subst hr
      refine ⟨.cons (by omega) (leAll_refl ls), ?_, ?_, ?_⟩
      · intro hp x hx
        rcases List.mem_cons.1 hx with rfl | hx
        · exact ho
        · exact hp x (List.mem_cons_of_mem _ hx)
      · simp only [List.sum_cons]; omega
      · intro hl q hq
        have : ls = [] := by simpa using hl
        subst this
        cases t
        unfold InSpace at hq
        cases hq with
        | cons hq t => cases t; simp only [linFirst]; omega
    · next ho =>
      rw [Option.map_eq_some_iff] at hr
      obtain ⟨r', hr', rfl⟩ := hr
      obtain ⟨h1, h2, h3, h4⟩ := ih r' hr'
      refine ⟨.cons (Int.le_refl _) h1, ?_, ?_, ?_⟩
      · intro hp x hx
        rcases List.mem_cons.1 hx with rfl | hx
        · exact hp _ List.mem_cons_self
        · exact h2 (fun y hy => hp y (List.mem_cons_of_mem _ hy)) x hx
      · simp only [List.sum_cons]; omega
      · intro hl q hq
        unfold InSpace at hq
        cases hq with
        | @cons q0 _ qs _ hq tq =>
          have := h4 hl qs tq
          simp only [linFirst]
          have e : o = 0 := by omega
          subst e
          have hm : l * (linFirst ls qs + 1) ≤ l * linFirst ls os :=
            Int.mul_le_mul_of_nonneg_left (by omega) (by omega)
          rw [Int.mul_add] at hm
          omega

theorem addPts_zero (pt ofs : List Int) (hl : ofs.length = pt.length) (h : ∀ o ∈ ofs, o = 0) :
    addPts pt ofs = pt := by
  unfold addPts
  induction pt generalizing ofs with
  | nil => cases ofs <;> rfl
  | cons x pt ih =>
    cases ofs with
    | nil => simp at hl
    | cons o ofs =>
      have := h o List.mem_cons_self
      subst this
      simp only [List.zipWith_cons_cons, Int.add_zero]
      rw [ih ofs (by simpa using hl) fun y hy => h y (List.mem_cons_of_mem _ hy)]

theorem inSpace_length {s p : List Int} (h : InSpace s p) : p.length = s.length := h.length_eq

theorem scanOnce_spec (fresh : List Int → Bool) (pt lens : List Int) (hl : pt.length = lens.length)
    (hpos : ∀ l ∈ lens, 0 < l) (hf : fresh pt = true) :
    LeAll (scanOnce fresh pt lens).1 lens ∧ (∀ l ∈ (scanOnce fresh pt lens).1, 0 < l) ∧
    ((scanOnce fresh pt lens).2 = true → (scanOnce fresh pt lens).1.sum < lens.sum) ∧
    ((scanOnce fresh pt lens).2 = false →
      ∀ q, InSpace (scanOnce fresh pt lens).1 q → fresh (addPts pt q) = true) := by
  have e : scanOnce fresh pt lens =
      (foldUntil (fun (s : List Int × Bool) (k : Nat) =>
        if fresh (addPts pt (unlayoutVals true lens k)) then (s, true)
        else stopWith (shrinkAt s.1 (unlayoutVals true lens k)) s) (List.range (numPoints lens).toNat) (lens, false)).1 := by
    unfold scanOnce
    rw [C38_visit_indices true lens hpos]
  have hsp : ∀ k, InSpace lens (unlayoutVals true lens k) := unlayout_inSpace true lens hpos
  have hnone : ∀ k : Nat, (fresh (addPts pt (unlayoutVals true lens k)) = true ∨
      shrinkAt lens (unlayoutVals true lens k) = none) →
      fresh (addPts pt (unlayoutVals true lens k)) = true := by
    rintro k (h | h)
    · exact h
    · rw [addPts_zero pt _ (by rw [inSpace_length (hsp k), hl]) (shrinkAt_none lens _ (hsp k) h)]
      exact hf
  rcases foldUntil_search (fun (k : Nat) => fresh (addPts pt (unlayoutVals true lens k)))
    (fun (s : List Int × Bool) (k : Nat) => shrinkAt s.1 (unlayoutVals true lens k))
    (List.range (numPoints lens).toNat) (lens, false) with ⟨h1, h2⟩ | ⟨l1, k, l2, r, h1, h2, h3, h4⟩
  · rw [e, h1]
    refine ⟨leAll_refl _, hpos, by simp, fun _ q hq => ?_⟩
    have hm := ((C38_points_complete true lens hpos).2 q).2 hq
    obtain ⟨k, hk, rfl⟩ := List.mem_map.1 hm
    exact hnone k (h2 k hk)
  · rw [e, h4]
    obtain ⟨a, b, c, d⟩ := shrinkAt_some lens _ (hsp k) r h3
    refine ⟨a, b hpos, fun _ => c, fun hr q hq => ?_⟩
    have hlt := d hr q hq
    have hq' := inSpace_mono a hq
    have hm := ((C38_points_complete true lens hpos).2 q).2 hq'
    obtain ⟨i, hi, rfl⟩ := List.mem_map.1 hm
    have hkm : k ∈ List.range (numPoints lens).toNat := by rw [h1]; simp
    rw [List.mem_range] at hi hkm
    have ei := C38_points_in_layout_order true lens hpos i (by omega)
    have ek := C38_points_in_layout_order true lens hpos k (by omega)
    simp only [lin, if_true] at ei ek
    have hik : i < k := by rw [ei, ek] at hlt; omega
    have : i ∈ l1 := by
      have hg : ∀ (n : Nat) (l1 : List Nat) (k : Nat) (l2 : List Nat), List.range n = l1 ++ k :: l2 →
          l1 = List.range k := by
        intro n l1 k l2 h
        have hk : k = l1.length := by
          have := congrArg (fun l => l[l1.length]?) h
          simp only [List.getElem?_append_right (Nat.le_refl _), Nat.sub_self] at this
          rw [List.getElem?_range] at this
          · simpa using this.symm
          · have := congrArg List.length h
            simp at this; omega
        subst hk
        have := congrArg (List.take l1.length) h
        rw [List.take_left, List.take_range] at this
        have hlen := congrArg List.length h
        simp only [List.length_range, List.length_append, List.length_cons] at hlen
        rw [Nat.min_eq_left (by omega)] at this
        exact this.symm
      rw [hg _ _ _ _ h1]
      exact List.mem_range.2 hik
    exact hnone i (h2 i this)

theorem sum_nonneg_of_pos {l : List Int} (h : ∀ x ∈ l, 0 < x) : 0 ≤ l.sum := by
  induction l with
  | nil => simp
  | cons a l ih =>
    have := ih fun x hx => h x (List.mem_cons_of_mem _ hx)
    have := h a List.mem_cons_self
    rw [List.sum_cons]; omega

theorem scanLoop_spec (fresh : List Int → Bool) (pt : List Int) (hf : fresh pt = true) (fuel : Nat)
    (lens : List Int) (hl : pt.length = lens.length) (hpos : ∀ l ∈ lens, 0 < l)
    (hfuel : lens.sum < fuel) :
    ∃ r, scanLoop fresh pt fuel lens = some r ∧ LeAll r lens ∧ (∀ l ∈ r, 0 < l) ∧
      ∀ q, InSpace r q → fresh (addPts pt q) = true := by
  induction fuel generalizing lens with
  | zero => have := sum_nonneg_of_pos hpos; omega
  | succ fuel ih =>
    obtain ⟨h1, h2, h3, h4⟩ := scanOnce_spec fresh pt lens hl hpos hf
    rw [scanLoop]
    by_cases hs : (scanOnce fresh pt lens).2 = true
    · rw [if_pos hs]
      have := h3 hs
      obtain ⟨r, a, b, c⟩ := ih _ (by rw [hl]; exact h1.length_eq.symm) h2 (by push_cast at hfuel; omega)
      exact ⟨r, a, leAll_trans b h1, c⟩
    · rw [if_neg hs]
      exact ⟨_, rfl, h1, h2, h4 (by simpa using hs)⟩

end Yask.BB
