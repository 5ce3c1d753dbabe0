import Verif.Kernel.NanoMask
import Verif.Props.Combo

/-!
# Classification of points by full, peel and remainder ranges, and the loop over the parts
-/

namespace Yask.Nano
open Spec

/-- Conditions on one dimension of a nano-block: positive sizes, and not empty. -/
def NanoDim.Ok (d : NanoDim) : Prop := 0 < d.fold ∧ 0 < d.pico ∧ d.fold ≤ d.tile ∧ d.b < d.e

/-- Condition for a bit of the peel mask. -/
abbrev pCond (d : NanoDim) (o : Int) : Prop :=
  d.ebgn ≤ d.ovbgn + o ∧ (d.same = true → d.fvend + o < d.eend)

/-- Condition for a bit of the remainder mask. -/
abbrev rCond (d : NanoDim) (o : Int) : Prop := d.fvend + o < d.eend

abbrev isF (d : NanoDim) (v : Int) : Prop := d.norm d.fvbgn ≤ v ∧ v < d.norm d.fvend
abbrev isL (d : NanoDim) (v o : Int) : Prop :=
  d.left = true ∧ (d.norm d.ovbgn ≤ v ∧ v < d.norm d.fvbgn) ∧ pCond d o
abbrev isR (d : NanoDim) (v o : Int) : Prop :=
  d.right = true ∧ (d.norm d.fvend ≤ v ∧ v < d.norm d.ovend) ∧ rCond d o

theorem lex_le {f q r v o : Int} (hr : 0 ≤ r ∧ r < f) (ho : 0 ≤ o ∧ o < f) :
    q * f + r ≤ v * f + o ↔ q < v ∨ (q = v ∧ r ≤ o) := by
  constructor
  · intro h
    rcases lt_trichotomy q v with h1 | h1 | h1
    · exact Or.inl h1
    · subst h1; exact Or.inr ⟨rfl, by omega⟩
    · exfalso
      have : (v + 1) * f ≤ q * f := mul_le_mul_of_nonneg_right (by omega) (by omega)
      have e : (v + 1) * f = v * f + f := by ring
      omega
  · rintro (h | ⟨rfl, h⟩)
    · have : (q + 1) * f ≤ v * f := mul_le_mul_of_nonneg_right (by omega) (by omega)
      have e : (q + 1) * f = q * f + f := by ring
      omega
    · omega

theorem norm_mul (d : NanoDim) (h : 0 < d.fold) (q : Int) : d.norm (q * d.fold) = q := by
  unfold NanoDim.norm
  rw [idivFlr_eq _ _ h, Int.mul_ediv_cancel _ (by omega)]

theorem ceil_eq {f q r : Int} (hr : 0 ≤ r ∧ r < f) :
    (q * f + r + f - 1) / f = if r = 0 then q else q + 1 := by
  split
  · next h =>
    rw [h, show q * f + 0 + f - 1 = (f - 1) + f * q by ring, Int.add_mul_ediv_left _ _ (by omega),
      Int.ediv_eq_zero_of_lt (by omega) (by omega)]; omega
  · rw [show q * f + r + f - 1 = (r - 1) + f * (q + 1) by ring, Int.add_mul_ediv_left _ _ (by omega),
      Int.ediv_eq_zero_of_lt (by omega) (by omega)]; omega

/-- The boundaries in terms of quotients and remainders. -/
theorem dim_bounds (d : NanoDim) (hd : d.Ok) :
    ∃ qb rb qe re : Int, (0 ≤ rb ∧ rb < d.fold) ∧ (0 ≤ re ∧ re < d.fold) ∧
      d.ebgn = qb * d.fold + rb ∧ d.eend = qe * d.fold + re ∧ (qb < qe ∨ (qb = qe ∧ rb < re)) ∧
      d.ovbgn = qb * d.fold ∧ d.fvend = qe * d.fold ∧
      d.norm d.ovbgn = qb ∧ d.norm d.fvend = qe ∧ d.norm d.ovend = (if re = 0 then qe else qe + 1) ∧
      d.left = decide (rb ≠ 0) ∧ d.same = decide (rb ≠ 0 ∧ re ≠ 0 ∧ qb = qe) ∧
      d.right = decide (re ≠ 0 ∧ ¬ (rb ≠ 0 ∧ re ≠ 0 ∧ qb = qe)) ∧
      d.norm d.fvbgn = (if rb ≠ 0 ∧ re ≠ 0 ∧ qb = qe then qb + 1
        else if rb = 0 then qb else qb + 1) ∧
      d.noFull = decide (d.norm d.fvend ≤ d.norm d.fvbgn) := by
  obtain ⟨hf, _, _, hlt⟩ := hd
  have hb := Int.ediv_mul_add_emod d.ebgn d.fold
  have he := Int.ediv_mul_add_emod d.eend d.fold
  have hb2 : 0 ≤ d.ebgn % d.fold ∧ d.ebgn % d.fold < d.fold :=
    ⟨Int.emod_nonneg _ (by omega), Int.emod_lt_of_pos _ hf⟩
  have he2 : 0 ≤ d.eend % d.fold ∧ d.eend % d.fold < d.fold :=
    ⟨Int.emod_nonneg _ (by omega), Int.emod_lt_of_pos _ hf⟩
  generalize hqb : d.ebgn / d.fold = qb at *
  generalize hrb : d.ebgn % d.fold = rb at *
  generalize hqe : d.eend / d.fold = qe at *
  generalize hre : d.eend % d.fold = re at *
  have hord : qb < qe ∨ (qb = qe ∧ rb < re) := by
    have h1 : ¬ (qe * d.fold + re ≤ qb * d.fold + rb) := by
      rw [hb, he]; unfold NanoDim.ebgn NanoDim.eend; omega
    rw [lex_le he2 hb2] at h1
    omega
  have h1 : d.ovbgn = qb * d.fold := by
    unfold NanoDim.ovbgn; rw [roundDownFlr_eq _ _ hf, hqb]
  have h2 : d.fvend = qe * d.fold := by
    unfold NanoDim.fvend; rw [roundDownFlr_eq _ _ hf, hqe]
  have h3 : d.fvbgn0 = (if rb = 0 then qb else qb + 1) * d.fold := by
    unfold NanoDim.fvbgn0; rw [roundUpFlr_eq _ _ hf, ← hb, ceil_eq hb2]
  have h4 : d.ovend = (if re = 0 then qe else qe + 1) * d.fold := by
    unfold NanoDim.ovend; rw [roundUpFlr_eq _ _ hf, ← he, ceil_eq he2]
  have cmp : ∀ a b : Int, a * d.fold ≤ b * d.fold ↔ a ≤ b := fun a b => Int.mul_le_mul_iff_of_pos_right hf
  have cmpe : ∀ a b : Int, a * d.fold = b * d.fold ↔ a = b := fun a b =>
    ⟨fun h => le_antisymm ((cmp a b).1 h.le) ((cmp b a).1 h.ge), fun h => by rw [h]⟩
  have hl : d.left0 = decide (rb ≠ 0) := by
    unfold NanoDim.left0
    rw [h3, ← hb, decide_eq_decide]
    split
    · next h => simp [h]
    · next h => rw [show (qb + 1) * d.fold = qb * d.fold + d.fold by ring]; constructor <;> intro _ <;> omega
  have hr : d.right0 = decide (re ≠ 0) := by
    unfold NanoDim.right0
    rw [h2, ← he, decide_eq_decide]
    constructor <;> intro _ <;> omega
  have hs : d.same = decide (rb ≠ 0 ∧ re ≠ 0 ∧ qb = qe) := by
    unfold NanoDim.same
    rw [hl, hr, h1, h2]
    simp only [cmpe, Bool.decide_and, Bool.and_assoc]
  have hfv : d.norm d.fvbgn = (if rb ≠ 0 ∧ re ≠ 0 ∧ qb = qe then qb + 1
        else if rb = 0 then qb else qb + 1) := by
    unfold NanoDim.fvbgn
    rw [hs, h2, h3]
    by_cases hsame : rb ≠ 0 ∧ re ≠ 0 ∧ qb = qe
    · rw [if_pos (decide_eq_true hsame), if_pos hsame, if_neg hsame.1, norm_mul d hf]
    · simp only [hsame, decide_false, Bool.false_eq_true, if_false, cmp]
      by_cases hle : qe ≤ (if rb = 0 then qb else qb + 1)
      · rw [if_pos hle, norm_mul d hf]
        split at hle <;> rename_i h0 <;> simp only [h0, if_true, if_false] <;> omega
      · rw [if_neg hle, norm_mul d hf]
  refine ⟨qb, rb, qe, re, hb2, he2, hb.symm, he.symm, hord, h1, h2, by rw [h1, norm_mul d hf],
    by rw [h2, norm_mul d hf], by rw [h4, norm_mul d hf], hl, hs, ?_, hfv, ?_⟩
  · unfold NanoDim.right
    rw [hs, hr]
    by_cases hsame : rb ≠ 0 ∧ re ≠ 0 ∧ qb = qe <;> simp [hsame]
  · unfold NanoDim.noFull
    rw [hs, hfv, h2, norm_mul d hf, h3]
    by_cases hsame : rb ≠ 0 ∧ re ≠ 0 ∧ qb = qe
    · rw [if_pos hsame, decide_eq_true hsame, Bool.true_or, eq_comm, decide_eq_true_eq]; omega
    · rw [if_neg hsame, decide_eq_false hsame, Bool.false_or, decide_eq_decide, cmp]

/-- Every point is in exactly one of the full, peel and remainder ranges if it is inside, and in none
otherwise. -/
theorem dim_class (d : NanoDim) (hd : d.Ok) (x : Int) :
    let v := (x - d.rofs) / d.fold
    let o := (x - d.rofs) % d.fold
    (InIvl x (d.b, d.e) ↔ isF d v ∨ isL d v o ∨ isR d v o) ∧
      (isF d v → ¬ isL d v o ∧ ¬ isR d v o) ∧ (isL d v o → ¬ isR d v o) := by
  intro v o
  have hf := hd.1
  obtain ⟨qb, rb, qe, re, hb2, he2, hb, he, hord, h1, h2, n1, n2, n3, hl, hs, hr, n4, _⟩ := dim_bounds d hd
  have hx := Int.ediv_mul_add_emod (x - d.rofs) d.fold
  have ho : 0 ≤ o ∧ o < d.fold := ⟨Int.emod_nonneg _ (by omega), Int.emod_lt_of_pos _ hf⟩
  change v * d.fold + o = x - d.rofs at hx
  have i1 : d.b ≤ x ↔ qb < v ∨ (qb = v ∧ rb ≤ o) := by
    rw [← lex_le hb2 ho, hx, ← hb]; unfold NanoDim.ebgn; omega
  have i2 : ¬ (x < d.e) ↔ qe < v ∨ (qe = v ∧ re ≤ o) := by
    rw [← lex_le he2 ho, hx, ← he]; unfold NanoDim.eend; omega
  have c1 : d.ebgn ≤ d.ovbgn + o ↔ rb ≤ o := by rw [hb, h1]; omega
  have c2 : d.fvend + o < d.eend ↔ o < re := by rw [he, h2]; omega
  simp only [isF, isL, isR, pCond, rCond, n1, n2, n3, n4, hl, hr, hs, c1, c2, InIvl, decide_eq_true_eq, i1]
  have i2' : x < d.e ↔ ¬ (qe < v ∨ (qe = v ∧ re ≤ o)) := by rw [← i2, not_not]
  rw [i2']
  clear_value v o
  clear * - hb2 he2 ho hord
  refine ⟨⟨fun h => ?_, fun h => ?_⟩, fun h => ⟨fun h' => ?_, fun h' => ?_⟩, fun h h' => ?_⟩ <;>
    (by_cases e1 : rb = 0 <;> by_cases e2 : re = 0 <;> by_cases e3 : qb = qe <;>
      simp only [e1, e2, e3, ne_eq, not_true_eq_false, not_false_eq_true, true_and, and_true, false_and,
        and_false, if_true, if_false, false_or, or_false, forall_const, true_implies,
        false_implies] at h hb2 he2 hord ⊢ <;>
      try simp only [e1, e2, e3, ne_eq, not_true_eq_false, not_false_eq_true, true_and, and_true, false_and,
        and_false, if_true, if_false, false_or, or_false, forall_const, true_implies,
        false_implies] at h') <;> omega

theorem dim_loopOk (d : NanoDim) (hd : d.Ok) :
    LoopOk d (d.norm d.fvbgn, d.norm d.fvend) ∧ LoopOk d (d.norm d.ovbgn, d.norm d.fvbgn) ∧
      LoopOk d (d.norm d.fvend, d.norm d.ovend) := by
  obtain ⟨qb, rb, qe, re, hb2, he2, hb, he, hord, h1, h2, n1, n2, n3, hl, hs, hr, n4, _⟩ := dim_bounds d hd
  obtain ⟨hf, hp, ht, hlt⟩ := hd
  have hru := roundUp_spec (a := d.pico) (by omega) hf
  have hru2 : ∃ c, roundUp d.pico d.fold = c * d.fold ∧ 1 ≤ c := by
    rw [roundUp_eq (by omega) hf] at hru ⊢
    refine ⟨_, rfl, ?_⟩
    by_contra hc
    have : (d.pico + d.fold - 1) / d.fold * d.fold ≤ 0 :=
      mul_nonpos_of_nonpos_of_nonneg (by omega) (by omega)
    omega
  obtain ⟨c, hc, hc1⟩ := hru2
  have hst : d.norm d.strideElems = if c * d.fold > d.e - d.b then c * 2 else c := by
    unfold NanoDim.strideElems
    simp only [hc]
    split
    · rw [show c * d.fold * 2 = c * 2 * d.fold by ring, norm_mul d hf]
    · rw [norm_mul d hf]
  have htile : 0 < d.norm d.tile := by
    unfold NanoDim.norm
    rw [idivFlr_eq _ _ hf]
    have := Int.ediv_le_ediv hf ht
    rw [Int.ediv_self (by omega)] at this
    omega
  have hs1 : 0 < d.norm d.strideElems := by rw [hst]; split <;> omega
  refine ⟨⟨hs1, htile, ?_⟩, ⟨hs1, htile, Or.inl ?_⟩, ⟨hs1, htile, Or.inl ?_⟩⟩
  · simp only [n2, n4]
    by_cases hsame : rb ≠ 0 ∧ re ≠ 0 ∧ qb = qe
    · right
      simp only [hsame]
      refine ⟨by simp, ?_⟩
      rw [hst, if_pos]
      · omega
      · have e : d.e - d.b = re - rb := by
          have : d.e - d.b = d.eend - d.ebgn := by unfold NanoDim.eend NanoDim.ebgn; omega
          rw [this, hb, he, hsame.2.2]; omega
        have : 1 * d.fold ≤ c * d.fold := mul_le_mul_of_nonneg_right hc1 (by omega)
        omega
    · left
      rw [if_neg hsame]
      split <;> omega
  · simp only [n1, n4]
    split
    · omega
    · split <;> omega
  · simp only [n2, n3]
    split <;> omega

end Yask.Nano
