import Verif.Common.FdModel
import Mathlib.LinearAlgebra.Lagrange
import Mathlib.Algebra.Polynomial.Derivative
import Mathlib.Tactic.FieldSimp

/-! Helper lemmas about finite-difference coefficients: Lagrange polynomials and the flat buffer. -/

namespace Yask.Fd
open Polynomial

variable {F : Type*} [Field F]

/-! ### Lagrange polynomials by recursion on the number of points -/

/-- Product of the differences between point `n` and the points before it. -/
noncomputable def cprod (pts : Nat → F) (n : Nat) : F := ∏ v ∈ Finset.range n, (pts n - pts v)

/-- The Lagrange polynomial of point `v` on the points `0..n`, by the recursion of the code. -/
noncomputable def L (pts : Nat → F) : Nat → Nat → F[X]
  | 0, _ => 1
  | n + 1, v =>
    if v = n + 1 then C (cprod pts n / cprod pts (n + 1)) * ((X - C (pts n)) * L pts n n)
    else C (-(1 / (pts (n + 1) - pts v))) * ((X - C (pts (n + 1))) * L pts n v)

theorem iter_lin (a : F) (p : F[X]) (m : Nat) :
    derivative^[m] ((X - C a) * p) =
      (X - C a) * derivative^[m] p + (m : F[X]) * derivative^[m - 1] p := by
  induction m with
  | zero => simp
  | succ m ih =>
    rw [Function.iterate_succ_apply', ih]
    simp only [derivative_add, derivative_mul, derivative_sub, derivative_X, derivative_C, sub_zero, one_mul,
      derivative_natCast, zero_mul, zero_add]
    rw [← Function.iterate_succ_apply' derivative m p, Nat.add_sub_cancel]
    cases m with
    | zero => simp; ring
    | succ k =>
      rw [Nat.add_sub_cancel, ← Function.iterate_succ_apply' derivative k p]
      push_cast; ring

theorem natDegree_L (pts : Nat → F) (n v : Nat) : (L pts n v).natDegree ≤ n := by
  induction n generalizing v with
  | zero => simp [L]
  | succ n ih =>
    unfold L
    split
    · refine (natDegree_C_mul_le _ _).trans (natDegree_mul_le.trans ?_)
      have := ih n
      have h2 : (X - C (pts n)).natDegree ≤ 1 := by rw [natDegree_X_sub_C]
      omega
    · refine (natDegree_C_mul_le _ _).trans (natDegree_mul_le.trans ?_)
      have := ih v
      have h2 : (X - C (pts (n + 1))).natDegree ≤ 1 := by rw [natDegree_X_sub_C]
      omega

/-- The points `0..n` are distinct. -/
def Distinct (pts : Nat → F) (n : Nat) : Prop := ∀ i ≤ n, ∀ j ≤ n, pts i = pts j → i = j

theorem cprod_ne {pts : Nat → F} {n : Nat} (h : Distinct pts n) : cprod pts n ≠ 0 := by
  unfold cprod
  rw [Finset.prod_ne_zero_iff]
  intro v hv
  rw [Finset.mem_range] at hv
  intro h0
  have := h n (le_refl n) v hv.le (sub_eq_zero.1 h0)
  omega

theorem Distinct.mono {pts : Nat → F} {n m : Nat} (h : Distinct pts n) (hm : m ≤ n) : Distinct pts m :=
  fun i hi j hj => h i (hi.trans hm) j (hj.trans hm)

theorem L_diag {pts : Nat → F} {n : Nat} (h : Distinct pts n) :
    L pts n n = C (1 / cprod pts n) * ∏ u ∈ Finset.range n, (X - C (pts u)) := by
  induction n with
  | zero => simp [L, cprod]
  | succ n ih =>
    have h1 := cprod_ne (h.mono (Nat.le_succ n))
    have h2 := cprod_ne h
    unfold L
    rw [if_pos rfl, ih (h.mono (Nat.le_succ n)), Finset.prod_range_succ]
    have e : C (cprod pts n / cprod pts (n + 1)) * C (1 / cprod pts n) = C (1 / cprod pts (n + 1)) := by
      rw [← C_mul]; congr 1; field_simp
    rw [← e]; ring

theorem eval_L {pts : Nat → F} {n : Nat} (h : Distinct pts n) (v : Nat) (hv : v ≤ n) (k : Nat) (hk : k ≤ n) :
    eval (pts k) (L pts n v) = if k = v then 1 else 0 := by
  induction n generalizing v k with
  | zero =>
    obtain rfl : v = 0 := by omega
    obtain rfl : k = 0 := by omega
    simp [L]
  | succ n ih =>
    have hn := h.mono (Nat.le_succ n)
    by_cases hvn : v = n + 1
    · subst hvn
      rw [L_diag h, eval_mul, eval_C, eval_prod]
      simp only [eval_sub, eval_X, eval_C]
      by_cases hkn : k = n + 1
      · subst hkn
        rw [if_pos rfl]
        show 1 / cprod pts (n + 1) * cprod pts (n + 1) = 1
        have := cprod_ne h
        field_simp
      · rw [if_neg hkn, Finset.prod_eq_zero (i := k) (by rw [Finset.mem_range]; omega) (sub_self _), mul_zero]
    · have e : L pts (n + 1) v =
          C (-(1 / (pts (n + 1) - pts v))) * ((X - C (pts (n + 1))) * L pts n v) := by
        rw [L, if_neg hvn]
      rw [e, eval_mul, eval_mul, eval_sub, eval_C, eval_C, eval_X]
      have hne : pts (n + 1) - pts v ≠ 0 := by
        intro h0
        have := h (n + 1) (le_refl _) v hv (sub_eq_zero.1 h0)
        omega
      by_cases hkn : k = n + 1
      · subst hkn
        rw [sub_self, zero_mul, mul_zero, if_neg (fun h => hvn h.symm)]
      · rw [ih hn v (by omega) k (by omega)]
        by_cases hkv : k = v
        · subst hkv
          rw [if_pos rfl]
          field_simp; ring
        · rw [if_neg hkv, mul_zero, mul_zero]

/-- A polynomial of degree at most `n` is the combination of the Lagrange polynomials. -/
theorem interp {pts : Nat → F} {n : Nat} (h : Distinct pts n) (p : F[X]) (hp : p.natDegree ≤ n) :
    p = ∑ v ∈ Finset.range (n + 1), C (eval (pts v) p) * L pts n v := by
  refine eq_of_degrees_lt_of_eval_index_eq (s := Finset.range (n + 1)) (v := pts) ?_ ?_ ?_ ?_
  · intro i hi j hj hij
    simp only [Finset.coe_range, Set.mem_Iio] at hi hj
    exact h i (by omega) j (by omega) hij
  · rw [Finset.card_range]
    exact lt_of_le_of_lt degree_le_natDegree (by exact_mod_cast Nat.lt_succ_of_le hp)
  · rw [Finset.card_range]
    refine lt_of_le_of_lt degree_le_natDegree ?_
    have : (∑ v ∈ Finset.range (n + 1), C (eval (pts v) p) * L pts n v).natDegree ≤ n :=
      natDegree_sum_le_of_forall_le _ _ fun v _ => (natDegree_C_mul_le _ _).trans (natDegree_L pts n v)
    exact_mod_cast Nat.lt_succ_of_le this
  · intro i hi
    rw [Finset.mem_range] at hi
    rw [eval_finsetSum, Finset.sum_eq_single i]
    · rw [eval_mul, eval_C, eval_L h i (by omega) i (by omega), if_pos rfl, mul_one]
    · intro v hv hne
      rw [Finset.mem_range] at hv
      rw [eval_mul, eval_L h v (by omega) i (by omega), if_neg (Ne.symm hne), mul_zero]
    · intro hni
      exact absurd (Finset.mem_range.2 hi) hni

/-- The derivative of order `m` at `x0` of a Lagrange polynomial. -/
noncomputable def D (x0 : F) (pts : Nat → F) (m n v : Nat) : F := eval x0 (derivative^[m] (L pts n v))

theorem deriv_interp {pts : Nat → F} {n : Nat} (h : Distinct pts n) (p : F[X]) (hp : p.natDegree ≤ n)
    (x0 : F) (m : Nat) :
    eval x0 (derivative^[m] p) = ∑ v ∈ Finset.range (n + 1), eval (pts v) p * D x0 pts m n v := by
  conv_lhs => rw [interp h p hp]
  rw [iterate_derivative_sum, eval_finsetSum]
  refine Finset.sum_congr rfl fun v _ => ?_
  rw [iterate_derivative_C_mul, eval_mul, eval_C]
  rfl

theorem D_high (x0 : F) (pts : Nat → F) (m n v : Nat) (h : n < m) : D x0 pts m n v = 0 := by
  unfold D
  rw [iterate_derivative_eq_zero (lt_of_le_of_lt (natDegree_L pts n v) h), eval_zero]

theorem D_step (x0 : F) (pts : Nat → F) (m n v : Nat) (h : v ≠ n + 1) :
    D x0 pts m (n + 1) v = ((pts (n + 1) - x0) * D x0 pts m n v - m * D x0 pts (m - 1) n v) *
      (1 / (pts (n + 1) - pts v)) := by
  unfold D
  rw [L, if_neg h, iterate_derivative_C_mul, iter_lin]
  simp only [eval_mul, eval_C, eval_add, eval_sub, eval_X, eval_natCast]
  ring

theorem D_diag (x0 : F) (pts : Nat → F) (m n : Nat) :
    D x0 pts m (n + 1) (n + 1) = (m * D x0 pts (m - 1) n n - (pts n - x0) * D x0 pts m n n) *
      (cprod pts n / cprod pts (n + 1)) := by
  unfold D
  rw [L, if_pos rfl, iterate_derivative_C_mul, iter_lin]
  simp only [eval_mul, eval_C, eval_add, eval_sub, eval_X, eval_natCast]
  ring

/-! ### The flat buffer -/

theorem foldlM_inv {S : Type*} (P : Nat → S → Prop) (f : S → Nat → Option S) (k : Nat) (s : S) (h0 : P 0 s)
    (hs : ∀ i < k, ∀ s, P i s → ∃ s', f s i = some s' ∧ P (i + 1) s') :
    ∃ s', (List.range k).foldlM f s = some s' ∧ P k s' := by
  induction k with
  | zero => exact ⟨s, rfl, h0⟩
  | succ k ih =>
    obtain ⟨s1, e1, p1⟩ := ih fun i hi => hs i (by omega)
    obtain ⟨s2, e2, p2⟩ := hs k (by omega) s1 p1
    refine ⟨s2, ?_, p2⟩
    rw [List.range_succ, List.foldlM_append, e1]
    simp [e2]

/-- The column of (m, n) in the buffer. -/
def col (order m n : Nat) : Nat := m * (order + 1) + n

theorem cell_eq (order np m n v : Nat) : cell order np m n v = col order m n * np + v := by
  unfold cell col; ring

theorem col_inj {np q q' v v' : Nat} (hv : v < np) (hv' : v' < np) (h : q * np + v = q' * np + v') :
    q = q' ∧ v = v' := by
  have h1 : (q * np + v) / np = q := by
    rw [Nat.mul_comm, Nat.mul_add_div (by omega), Nat.div_eq_of_lt hv, Nat.add_zero]
  have h2 : (q' * np + v') / np = q' := by
    rw [Nat.mul_comm, Nat.mul_add_div (by omega), Nat.div_eq_of_lt hv', Nat.add_zero]
  have : q = q' := by rw [← h1, h, h2]
  subst this
  exact ⟨rfl, by omega⟩

theorem col_lt {order np m n v : Nat} (ho : order + 1 ≤ np) (hm : m ≤ order) (hn : n < np) (hv : v < np) :
    cell order np m n v < (order + 1) * np * np := by
  rw [cell_eq]
  have h1 : col order m n + 1 ≤ (order + 1) * np := by
    unfold col
    have a : m * (order + 1) ≤ order * (order + 1) := Nat.mul_le_mul_right _ hm
    have b : order * (order + 1) ≤ order * np := Nat.mul_le_mul_left _ ho
    have e : (order + 1) * np = order * np + np := by ring
    omega
  have h2 := Nat.mul_le_mul_right np h1
  have e : (col order m n + 1) * np = col order m n * np + np := by ring
  omega

theorem rd_some {dsz i : Nat} (d : Nat → F) (h : i < dsz) : rd dsz d i = some (d i) := if_pos h
theorem wr_some {dsz i : Nat} (d : Nat → F) (x : F) (h : i < dsz) :
    wr dsz d i x = some (Function.update d i x) := if_pos h

variable (x0 : F) (order : Nat) (pts : Nat → F) (np : Nat)

/-- What the buffer holds after level `n` (levels counted from 0): the derivatives at that level, and zeros in
the columns of higher levels or orders. -/
structure Inv (n : Nat) (d : Nat → F) : Prop where
  val : ∀ m ≤ order, ∀ v ≤ n, d (cell order np m n v) = D x0 pts m n v
  zero : ∀ m k v, n ≤ k → k < m → v < np → d (cell order np m k v) = 0

theorem inv_zero (hnp : 0 < np) : Inv x0 order pts np 0 (Function.update (fun _ => (0 : F)) 0 1) where
  val := by
    intro m _ v hv
    obtain rfl : v = 0 := by omega
    cases m with
    | zero => simp [cell, D, L]
    | succ m =>
      rw [D_high _ _ _ _ _ (by omega), Function.update_of_ne]
      rw [cell_eq]; unfold col
      have : 0 < (m + 1) * (order + 1) := by positivity
      have := Nat.mul_pos (by omega : 0 < (m + 1) * (order + 1) + 0) hnp
      omega
  zero := by
    intro m k v _ hkm hv
    rw [Function.update_of_ne]
    rw [cell_eq]; unfold col
    have h1 : 0 < m * (order + 1) := Nat.mul_pos (by omega) (by omega)
    have := Nat.mul_pos (by omega : 0 < m * (order + 1) + k) hnp
    omega

/-- Columns of consecutive levels differ. -/
theorem col_ne (ho : 1 ≤ order) (m m' n : Nat) : col order m n ≠ col order m' (n + 1) := by
  unfold col
  intro h
  have h1 : m * (order + 1) % (order + 1) = 0 := Nat.mul_mod_left _ _
  rcases Nat.lt_or_ge m' m with hlt | hge
  · obtain ⟨k, rfl⟩ : ∃ k, m = m' + 1 + k := ⟨m - m' - 1, by omega⟩
    have e : (m' + 1 + k) * (order + 1) = m' * (order + 1) + (order + 1) + k * (order + 1) := by ring
    omega
  · have := Nat.mul_le_mul_right (order + 1) hge
    omega

/-- Columns with more derivatives than points are never written before their level ends. -/
theorem col_ne_high {m k n m' : Nat} (hk : n ≤ k) (hkm : k < m) (hm' : m' ≤ n) :
    col order m k ≠ col order m' n := by
  unfold col
  have := Nat.mul_le_mul_right (order + 1) (by omega : m' + 1 ≤ m)
  have e : (m' + 1) * (order + 1) = m' * (order + 1) + (order + 1) := by ring
  omega

/-- State inside level `n + 1`: `V` columns of points complete, `M` orders of point `V` done. -/
structure Mid (n V M : Nat) (d : Nat → F) : Prop where
  prev : ∀ m ≤ order, ∀ v ≤ n, d (cell order np m n v) = D x0 pts m n v
  done : ∀ m ≤ min (n + 1) order, ∀ v < V, d (cell order np m (n + 1) v) = D x0 pts m (n + 1) v
  part : ∀ m < M, m ≤ min (n + 1) order → d (cell order np m (n + 1) V) = D x0 pts m (n + 1) V
  zero : ∀ m k v, n + 1 ≤ k → k < m → v < np → d (cell order np m k v) = 0

theorem mid_write (ho : 1 ≤ order) {n V M : Nat} {d : Nat → F} (hn : n + 1 < np) (hV : V ≤ n + 1)
    (hM : M ≤ min (n + 1) order)
    (h : Mid x0 order pts np n V M d) :
    Mid x0 order pts np n V (M + 1)
      (Function.update d (cell order np M (n + 1) V) (D x0 pts M (n + 1) V)) where
  prev m hm v hv := by
    rw [Function.update_of_ne, h.prev m hm v hv]
    rw [cell_eq, cell_eq]
    intro he
    exact col_ne order ho m M n (col_inj (by omega) (by omega) he).1
  done m hm v hv := by
    rw [Function.update_of_ne, h.done m hm v hv]
    rw [cell_eq, cell_eq]
    intro he
    have := (col_inj (by omega) (by omega) he).2
    omega
  part m hm hmo := by
    by_cases he : m = M
    · subst he; rw [Function.update_self]
    · rw [Function.update_of_ne, h.part m (by omega) hmo]
      rw [cell_eq, cell_eq]
      intro h2
      have := (col_inj (by omega) (by omega) h2).1
      unfold col at this
      have h3 : m * (order + 1) = M * (order + 1) := by omega
      exact he (Nat.eq_of_mul_eq_mul_right (by omega) h3)
  zero m k v hk hkm hv := by
    rw [Function.update_of_ne, h.zero m k v hk hkm hv]
    rw [cell_eq, cell_eq]
    intro he
    exact col_ne_high order hk hkm (by omega) (col_inj hv (by omega) he).1

theorem mid_next {n V : Nat} {d : Nat → F} (h : Mid x0 order pts np n V (min (n + 1) order + 1) d) :
    Mid x0 order pts np n (V + 1) 0 d where
  prev := h.prev
  done m hm v hv := by
    by_cases he : v = V
    · subst he; exact h.part m (by omega) hm
    · exact h.done m hm v (by omega)
  part m hm _ := by omega
  zero := h.zero

theorem level_ok (ho : 1 ≤ order) (hnp : order + 1 ≤ np) {n : Nat} (hn : n + 1 < np) {d : Nat → F}
    (h : Inv x0 order pts np n d) :
    ∃ d', stepLevel x0 order pts np ((order + 1) * np * np) (d, cprod pts n) (n + 1) =
      some (d', cprod pts (n + 1)) ∧ Inv x0 order pts np (n + 1) d' := by
  have h0 : Mid x0 order pts np n 0 0 d :=
    ⟨h.val, fun _ _ _ h => by omega, fun _ h => by omega, fun m k v hk => h.zero m k v (by omega)⟩
  -- points v < n + 1
  obtain ⟨⟨d1, c2⟩, e1, p1, pc⟩ := foldlM_inv
    (fun V (s : (Nat → F) × F) => Mid x0 order pts np n V 0 s.1 ∧
      s.2 = ∏ v ∈ Finset.range V, (pts (n + 1) - pts v))
    (fun (s : (Nat → F) × F) v => do
      let d ← (List.range (min (n + 1) order + 1)).foldlM
        (stepV x0 order pts np ((order + 1) * np * np) (n + 1) v) s.1
      pure (d, s.2 * (pts (n + 1) - pts v))) (n + 1) (d, 1) ⟨h0, by simp⟩ (by
    rintro V hV ⟨d1, c⟩ ⟨hmid, hc⟩
    obtain ⟨d2, e2, p2⟩ := foldlM_inv (fun M d => Mid x0 order pts np n V M d)
      (stepV x0 order pts np ((order + 1) * np * np) (n + 1) V) (min (n + 1) order + 1) d1 hmid (by
      intro M hM d hd
      refine ⟨_, ?_, mid_write x0 order pts np ho hn (by omega) (by omega) hd⟩
      unfold stepV
      simp only [Nat.add_sub_cancel]
      rw [rd_some _ (col_lt hnp (by omega) (by omega) (by omega))]
      simp only [Option.bind_eq_bind, Option.bind_some]
      rw [D_step _ _ _ _ _ (by omega), hd.prev M (by omega) V (by omega)]
      by_cases hM0 : M > 0
      · rw [if_pos hM0, rd_some _ (col_lt hnp (by omega) (by omega) (by omega))]
        simp only [Option.bind_some, Option.pure_def]
        rw [hd.prev (M - 1) (by omega) V (by omega)]
        exact wr_some _ _ (col_lt hnp (by omega) (by omega) (by omega))
      · obtain rfl : M = 0 := by omega
        simp only [gt_iff_lt, lt_self_iff_false, if_false, Option.pure_def, Option.bind_some, Nat.cast_zero,
          zero_mul, sub_zero]
        exact wr_some _ _ (col_lt hnp (by omega) (by omega) (by omega)))
    refine ⟨(d2, c * (pts (n + 1) - pts V)), ?_, mid_next x0 order pts np p2, ?_⟩
    · simp [e2]
    · have hc' : c = ∏ v ∈ Finset.range V, (pts (n + 1) - pts v) := hc
      show c * _ = _
      rw [Finset.prod_range_succ, hc'])
  -- point n + 1
  have hc2 : c2 = cprod pts (n + 1) := pc
  obtain ⟨d3, e3, p3⟩ := foldlM_inv (fun M d => Mid x0 order pts np n (n + 1) M d)
    (stepN x0 order pts np ((order + 1) * np * np) (n + 1) (cprod pts n) c2) (min (n + 1) order + 1) d1 p1 (by
      intro M hM d hd
      refine ⟨_, ?_, mid_write x0 order pts np ho hn (by omega) (by omega) hd⟩
      unfold stepN
      simp only [Nat.add_sub_cancel]
      rw [D_diag, hc2]
      have hrd := rd_some d (col_lt (m := M) (n := n) (v := n) hnp (by omega) (by omega) (by omega))
      by_cases hM0 : M > 0
      · rw [if_pos hM0, rd_some _ (col_lt hnp (by omega) (by omega) (by omega))]
        simp only [Option.bind_eq_bind, Option.bind_some, Option.pure_def]
        rw [hrd]
        simp only [Option.bind_some]
        rw [hd.prev (M - 1) (by omega) n (by omega), hd.prev M (by omega) n (by omega)]
        exact wr_some _ _ (col_lt hnp (by omega) (by omega) (by omega))
      · obtain rfl : M = 0 := by omega
        simp only [gt_iff_lt, lt_self_iff_false, if_false, Option.pure_def, Option.bind_eq_bind,
          Option.bind_some, Nat.cast_zero, zero_mul]
        rw [hrd]
        simp only [Option.bind_some]
        rw [hd.prev 0 (by omega) n (by omega)]
        exact wr_some _ _ (col_lt hnp (by omega) (by omega) (by omega)))
  refine ⟨d3, ?_, ?_⟩
  · unfold stepLevel
    rw [e1]
    simp only [Option.bind_eq_bind, Option.bind_some]
    rw [e3, hc2]
    rfl
  · have p4 := mid_next x0 order pts np p3
    refine ⟨fun m hm v hv => ?_, p4.zero⟩
    by_cases hmn : m ≤ n + 1
    · exact p4.done m (by omega) v (by omega)
    · rw [D_high _ _ _ _ _ (by omega)]
      exact p4.zero m (n + 1) v (le_refl _) (by omega) (by omega)

theorem mapM_range_some {α : Type*} (f : Nat → Option α) (g : Nat → α) (k : Nat)
    (h : ∀ i < k, f i = some (g i)) : (List.range k).mapM f = some ((List.range k).map g) := by
  induction k with
  | zero => rfl
  | succ k ih =>
    rw [List.range_succ, List.mapM_append, ih fun i hi => h i (by omega), List.map_append]
    simp [h k (by omega)]

/-- The coefficients are the derivatives of the Lagrange polynomials. -/
theorem fdCoeff_eq (x0 : F) (order : Nat) (pts : List F) (ho : 1 ≤ order) (hnp : order + 1 ≤ pts.length) :
    fdCoeff x0 order pts = some ((List.range pts.length).map fun (i : Nat) =>
      D x0 (fun (i : Nat) => pts.getD i 0) order (pts.length - 1) i) := by
  set np := pts.length with hnpd
  set pt := fun (i : Nat) => pts.getD i 0 with hpt
  obtain ⟨⟨d, c⟩, e, hi, _⟩ := foldlM_inv
    (fun n (s : (Nat → F) × F) => Inv x0 order pt np n s.1 ∧ s.2 = cprod pt n)
    (fun s (k : Nat) => stepLevel x0 order pt np ((order + 1) * np * np) s (k + 1)) (np - 1)
    (Function.update (fun _ => (0 : F)) 0 1, (1 : F))
    ⟨inv_zero x0 order pt np (by omega), by simp [cprod]⟩ (by
      rintro n hn ⟨d, c⟩ ⟨h1, h2⟩
      obtain ⟨d', e', h'⟩ := level_ok x0 order pt np ho hnp (by omega) h1
      simp only [] at h2
      subst h2
      exact ⟨(d', cprod pt (n + 1)), e', h', rfl⟩)
  unfold fdCoeff
  simp only []
  rw [← hnpd, ← hpt, e]
  simp only [Option.bind_eq_bind, Option.bind_some]
  rw [mapM_range_some _ (fun i => d (cell order np order (np - 1) i)) np fun i hi =>
    rd_some _ (col_lt hnp (le_refl _) (by omega) hi)]
  congr 1
  apply List.map_congr_left
  intro i hi'
  rw [List.mem_range] at hi'
  exact hi.val order (le_refl _) i (by omega)

theorem mapM_none {α β : Type*} (f : α → Option β) (l : List α) (a : α) (ha : a ∈ l) (h : f a = none) :
    l.mapM f = none := by
  induction l with
  | nil => simp at ha
  | cons b l ih =>
    rw [List.mapM_cons]
    rcases List.mem_cons.1 ha with rfl | ha
    · simp [h]
    · rw [ih ha]
      cases f b <;> rfl

/-- Too few points: the result is read outside the buffer. -/
theorem fdCoeff_none (x0 : F) (order : Nat) (pts : List F) (h0 : 0 < pts.length)
    (hnp : pts.length < order + 1) : fdCoeff x0 order pts = none := by
  unfold fdCoeff
  simp only [Option.bind_eq_bind]
  generalize List.foldlM (m := Option) _ _ _ = r
  cases r with
  | none => rfl
  | some s =>
    simp only [Option.bind_some]
    apply mapM_none _ _ 0 (List.mem_range.2 h0)
    unfold rd
    rw [if_neg]
    unfold cell
    have h1 : (order + 1) * pts.length * pts.length ≤ (order + 1) * pts.length * order :=
      Nat.mul_le_mul_left _ (by omega)
    have e : order * ((order + 1) * pts.length) = (order + 1) * pts.length * order := by ring
    omega

end Yask.Fd
