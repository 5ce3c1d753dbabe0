import Verif.Common.FdLemmas
import Mathlib.Algebra.CharZero.Defs
import Mathlib.Data.Int.Cast.Lemmas
import Mathlib.Tactic.NormNum

/-!
# Finite-difference coefficients: property C40

`coeffs` are exact for degree below `k` when, for every polynomial `p` of degree `< k`,
`Σ coeffs[i] * p(points[i])` is the derivative of `p` of the given order at the evaluation point.
`Polynomial.derivative` and `Polynomial.eval` are Mathlib's.
-/

namespace Yask
open Polynomial Fd

/-- The specification: applying the coefficients to the samples gives the derivative of every polynomial of
degree below the number of points. -/
def FdExact {F : Type*} [Field F] (x0 : F) (order : Nat) (pts coeffs : List F) : Prop :=
  coeffs.length = pts.length ∧
  ∀ p : F[X], p.degree < pts.length →
    ((coeffs.zip pts).map fun (c : F × F) => c.1 * p.eval c.2).sum = (derivative^[order] p).eval x0

theorem sum_range_list {F : Type*} [Field F] (f : Nat → F) (n : Nat) :
    ∑ v ∈ Finset.range n, f v = ((List.range n).map f).sum := by
  induction n with
  | zero => rfl
  | succ n ih => rw [Finset.sum_range_succ, List.range_succ, List.map_append, List.sum_append, ih]; simp

theorem fd_exact_of {F : Type*} [Field F] (x0 : F) (order : Nat) (pts : List F) (ho : 1 ≤ order)
    (hlen : order + 1 ≤ pts.length) (hd : pts.Nodup) :
    ∃ coeffs, fdCoeff x0 order pts = some coeffs ∧ FdExact x0 order pts coeffs := by
  refine ⟨_, fdCoeff_eq x0 order pts ho hlen, by simp, fun p hp => ?_⟩
  have hdist : Distinct (fun (i : Nat) => pts.getD i 0) (pts.length - 1) := by
    intro i hi j hj h
    simp only [List.getD_eq_getElem?_getD] at h
    rw [List.getElem?_eq_getElem (by omega), List.getElem?_eq_getElem (by omega)] at h
    exact (List.Nodup.getElem_inj_iff hd).1 (by simpa using h)
  have hdeg : p.natDegree ≤ pts.length - 1 := by
    by_cases h0 : p = 0
    · subst h0; simp
    · have := (natDegree_lt_iff_degree_lt h0).2 hp
      omega
  rw [deriv_interp hdist p hdeg x0 order]
  have e : pts.length - 1 + 1 = pts.length := by omega
  rw [e]
  have hz : ((List.range pts.length).map fun (i : Nat) => D x0 (fun (i : Nat) => pts.getD i 0) order
      (pts.length - 1) i).zip pts = (List.range pts.length).map fun (i : Nat) =>
        (D x0 (fun (i : Nat) => pts.getD i 0) order (pts.length - 1) i, pts.getD i 0) := by
    apply List.ext_getElem
    · simp
    · intro i h1 h2
      simp only [List.length_map, List.length_range] at h2
      simp [List.getD_eq_getElem?_getD, List.getElem?_eq_getElem h2]
  rw [hz, List.map_map, ← sum_range_list]
  refine Finset.sum_congr rfl fun v _ => ?_
  simp [mul_comm]

/-- C40: for distinct points, more points than the derivative order: `get_arbitrary_fd_coefficients`
returns one coefficient per point and they are exact.  Any field (exact arithmetic).
Missing for the full property: point counts not exceeding the order, where the code reads outside its
array (`C40_too_few_points_undefined`). -/
theorem C40_arbitrary_exact_partial {F : Type*} [Field F] (order : Int) (x0 : F) (pts : List F) (ho : 1 ≤ order)
    (hlen : order < pts.length) (hd : pts.Nodup) :
    ∃ coeffs, arbitrary order x0 pts = .ok coeffs ∧ FdExact x0 order.toNat pts coeffs := by
  obtain ⟨c, h1, h2⟩ := fd_exact_of x0 order.toNat pts (by omega) (by omega) hd
  refine ⟨c, ?_, h2⟩
  unfold arbitrary
  rw [if_neg (by omega), if_neg (by omega), h1]

theorem intPts_nodup {F : Type*} [Field F] [CharZero F] (a b : Int) : (intPts a b : List F).Nodup := by
  refine List.Nodup.map_on (fun i _ j _ h => ?_) List.nodup_range
  have := Int.cast_injective (α := F) h
  omega

theorem intPts_length {F : Type*} [Field F] (a b : Int) : (intPts a b : List F).length = (b + 1 - a).toNat := by
  simp [intPts]

/-- C40: `get_center_fd_coefficients` returns `radius * 2 + 1` coefficients, exact for the points
`-radius, ..., radius` at 0. -/
theorem C40_center_exact_partial {F : Type*} [Field F] [CharZero F] (order radius : Int) (ho : 1 ≤ order)
    (hr : 1 ≤ radius) (h : order ≤ radius * 2) :
    ∃ coeffs : List F, center order radius = .ok coeffs ∧ (coeffs.length : Int) = radius * 2 + 1 ∧
      FdExact 0 order.toNat (intPts (-radius) radius) coeffs := by
  have hl := intPts_length (F := F) (-radius) radius
  obtain ⟨c, h1, h2⟩ := C40_arbitrary_exact_partial (F := F) order 0 (intPts (-radius) radius) ho (by omega)
    (intPts_nodup _ _)
  refine ⟨c, ?_, ?_, h2⟩
  · unfold center; rw [if_neg (by omega), h1]
  · rw [h2.1, hl]; omega

/-- C40: `get_forward_fd_coefficients`, points `0, ..., accuracy`. -/
theorem C40_forward_exact_partial {F : Type*} [Field F] [CharZero F] (order acc : Int) (ho : 1 ≤ order)
    (h : order ≤ acc) :
    ∃ coeffs : List F, forward order acc = .ok coeffs ∧ (coeffs.length : Int) = acc + 1 ∧
      FdExact 0 order.toNat (intPts 0 acc) coeffs := by
  have hl := intPts_length (F := F) 0 acc
  obtain ⟨c, h1, h2⟩ := C40_arbitrary_exact_partial (F := F) order 0 (intPts 0 acc) ho (by omega)
    (intPts_nodup _ _)
  refine ⟨c, ?_, ?_, h2⟩
  · unfold forward; rw [if_neg (by omega), h1]
  · rw [h2.1, hl]; omega

/-- C40: `get_backward_fd_coefficients`, points `-accuracy, ..., 0`. -/
theorem C40_backward_exact_partial {F : Type*} [Field F] [CharZero F] (order acc : Int) (ho : 1 ≤ order)
    (h : order ≤ acc) :
    ∃ coeffs : List F, backward order acc = .ok coeffs ∧ (coeffs.length : Int) = acc + 1 ∧
      FdExact 0 order.toNat (intPts (-acc) 0) coeffs := by
  have hl := intPts_length (F := F) (-acc) 0
  obtain ⟨c, h1, h2⟩ := C40_arbitrary_exact_partial (F := F) order 0 (intPts (-acc) 0) ho (by omega)
    (intPts_nodup _ _)
  refine ⟨c, ?_, ?_, h2⟩
  · unfold backward; rw [if_neg (by omega), h1]
  · rw [h2.1, hl]; omega

/-- C40, finding: with at most `order` points (for instance the 2nd derivative from 2 points) the property
asks for all-zero coefficients; the code passes its argument checks and then reads outside its work array.
The header of `fd_coeff` promises zeros here. -/
theorem C40_too_few_points_undefined {F : Type*} [Field F] (order : Int) (x0 : F) (pts : List F)
    (hp : 2 ≤ pts.length) (h : (pts.length : Int) ≤ order) :
    arbitrary order x0 pts = Res.undefined := by
  unfold arbitrary
  rw [if_neg (by omega), if_neg (by omega), fdCoeff_none _ _ _ (by omega) (by omega)]

/-- The argument errors are reported. -/
theorem C40_bad_arguments_throw {F : Type*} [Field F] (order : Int) (x0 : F) (pts : List F)
    (h : order < 1 ∨ pts.length < 2) : arbitrary order x0 pts = Res.throws := by
  unfold arbitrary
  by_cases ho : order < 1
  · rw [if_pos ho]
  · rw [if_neg ho, if_pos (by omega)]

/-- Not vacuous: the standard second-derivative stencil, computed by the model. -/
example : center (F := ℚ) 2 1 = .ok [1, -2, 1] := by
  simp [center, arbitrary, intPts, fdCoeff, stepLevel, stepV, stepN, rd, wr, cell, List.range, List.range.loop,
    Function.update]
  norm_num
example : (1 : Int) ≤ 2 ∧ (2 : Int) < ([-1, 0, 1] : List ℚ).length ∧ ([-1, 0, 1] : List ℚ).Nodup := by
  refine ⟨by decide, by decide, by norm_num⟩

end Yask
