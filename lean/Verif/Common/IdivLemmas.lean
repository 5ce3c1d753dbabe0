import Verif.Common.IdivModel

/-! Helper lemmas: the C++ helpers coincide with Lean's `Int` floor division
for positive divisors. -/

namespace Yask

theorem tdiv_nonneg_eq {a b : Int} (ha : 0 ≤ a) : a.tdiv b = a / b := by
  rw [Int.tdiv_eq_ediv]; simp [ha]

theorem tmod_nonneg_eq {a b : Int} (ha : 0 ≤ a) : a.tmod b = a % b :=
  Int.tmod_eq_emod_of_nonneg ha

theorem idivFlr_eq (a b : Int) (hb : 0 < b) : idivFlr a b = a / b := by
  unfold idivFlr signShift
  split
  · next h =>
    have h1 : a + -1 * (b - 1) < 0 := by omega
    rw [show a + -1 * (b - 1) = -(-a + (b - 1)) by ring, Int.neg_tdiv,
      tdiv_nonneg_eq (by omega)]
    have e1 := Int.mul_ediv_add_emod a b
    have e2 := Int.emod_nonneg a (by omega : b ≠ 0)
    have e3 := Int.emod_lt_of_pos a hb
    generalize a / b = q at *
    generalize a % b = r at *
    have : (-a + (b - 1)) / b = -q := by
      rw [Int.ediv_eq_iff_of_pos hb] <;> constructor <;> nlinarith
    omega
  · next h =>
    rw [Int.zero_mul, Int.add_zero, tdiv_nonneg_eq (by omega)]

theorem imodFlr_eq (a b : Int) (hb : 0 < b) : imodFlr a b = a % b := by
  unfold imodFlr signShift
  simp only
  rw [Int.tmod_eq_emod]
  have e2 := Int.emod_nonneg a (by omega : b ≠ 0)
  have e3 := Int.emod_lt_of_pos a hb
  by_cases h : 0 ≤ a ∨ b ∣ a
  · simp [h]; omega
  · simp only [h, if_false]
    have : (b.natAbs : Int) = b := Int.natAbs_of_nonneg (by omega)
    rw [this]
    split <;> omega

theorem ceilIdivFlr_eq (a b : Int) (hb : 0 < b) : ceilIdivFlr a b = (a + b - 1) / b :=
  idivFlr_eq _ _ hb

theorem roundDownFlr_eq (a b : Int) (hb : 0 < b) : roundDownFlr a b = a / b * b := by
  unfold roundDownFlr; rw [idivFlr_eq _ _ hb]

theorem roundUpFlr_eq (a b : Int) (hb : 0 < b) : roundUpFlr a b = (a + b - 1) / b * b := by
  unfold roundUpFlr; rw [ceilIdivFlr_eq _ _ hb]

theorem ceilDiv_eq {a b : Int} (ha : 0 ≤ a) (hb : 0 < b) : ceilDiv a b = (a + b - 1) / b := by
  unfold ceilDiv; rw [tdiv_nonneg_eq (by omega)]

theorem roundUp_eq {a b : Int} (ha : 0 ≤ a) (hb : 0 < b) :
    roundUp a b = (a + b - 1) / b * b := by
  unfold roundUp; rw [ceilDiv_eq ha hb]

theorem roundDown_eq {a b : Int} (ha : 0 ≤ a) : roundDown a b = a / b * b := by
  unfold roundDown; rw [tdiv_nonneg_eq ha]

/-- `x ≤ ROUND_UP(x, m) < x + m`, a multiple of `m`. -/
theorem roundUp_spec {a b : Int} (ha : 0 ≤ a) (hb : 0 < b) :
    a ≤ roundUp a b ∧ roundUp a b < a + b ∧ b ∣ roundUp a b := by
  rw [roundUp_eq ha hb]
  have e1 := Int.mul_ediv_add_emod (a + b - 1) b
  have e2 := Int.emod_nonneg (a + b - 1) (by omega : b ≠ 0)
  have e3 := Int.emod_lt_of_pos (a + b - 1) hb
  refine ⟨?_, ?_, Dvd.intro_left _ rfl⟩ <;> nlinarith

theorem roundDown_spec {a b : Int} (ha : 0 ≤ a) (hb : 0 < b) :
    roundDown a b ≤ a ∧ a < roundDown a b + b ∧ b ∣ roundDown a b := by
  rw [roundDown_eq ha]
  have e1 := Int.mul_ediv_add_emod a b
  have e2 := Int.emod_nonneg a (by omega : b ≠ 0)
  have e3 := Int.emod_lt_of_pos a hb
  refine ⟨?_, ?_, Dvd.intro_left _ rfl⟩ <;> nlinarith

theorem roundDownFlr_spec (a : Int) {b : Int} (hb : 0 < b) :
    roundDownFlr a b ≤ a ∧ a < roundDownFlr a b + b ∧ b ∣ roundDownFlr a b := by
  rw [roundDownFlr_eq a b hb]
  have e1 := Int.mul_ediv_add_emod a b
  have e2 := Int.emod_nonneg a (by omega : b ≠ 0)
  have e3 := Int.emod_lt_of_pos a hb
  refine ⟨?_, ?_, Dvd.intro_left _ rfl⟩ <;> nlinarith

theorem roundUpFlr_spec (a : Int) {b : Int} (hb : 0 < b) :
    a ≤ roundUpFlr a b ∧ roundUpFlr a b < a + b ∧ b ∣ roundUpFlr a b := by
  rw [roundUpFlr_eq a b hb]
  have e1 := Int.mul_ediv_add_emod (a + b - 1) b
  have e2 := Int.emod_nonneg (a + b - 1) (by omega : b ≠ 0)
  have e3 := Int.emod_lt_of_pos (a + b - 1) hb
  refine ⟨?_, ?_, Dvd.intro_left _ rfl⟩ <;> nlinarith

theorem imodFlr_nonneg (a : Int) {b : Int} (hb : 0 < b) : 0 ≤ imodFlr a b := by
  rw [imodFlr_eq a b hb]; exact Int.emod_nonneg a (by omega)

theorem imodFlr_lt (a : Int) {b : Int} (hb : 0 < b) : imodFlr a b < b := by
  rw [imodFlr_eq a b hb]; exact Int.emod_lt_of_pos a hb

/-- `CEIL_DIV` is the number of chunks: `(c-1)*b < a ≤ c*b`. -/
theorem ceilDiv_spec {a b : Int} (ha : 0 ≤ a) (hb : 0 < b) :
    a ≤ ceilDiv a b * b ∧ ceilDiv a b * b < a + b := by
  have := roundUp_spec ha hb
  exact ⟨this.1, this.2.1⟩

theorem ceilIdivFlr_spec (a : Int) {b : Int} (hb : 0 < b) :
    a ≤ ceilIdivFlr a b * b ∧ ceilIdivFlr a b * b < a + b := by
  have := roundUpFlr_spec a hb
  exact ⟨this.1, this.2.1⟩

end Yask
