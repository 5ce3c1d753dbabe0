import Verif.Var.StepLemmas
import Verif.Props.Tuple

/-! Helper lemmas: the visits of a slice. -/

namespace Yask.Var
open Spec

variable {V : Type}

theorem unlayout_of_lin {sizes pt : List Int} (h : InSpace sizes pt) {k : Nat}
    (hk : linLast sizes pt = k) : unlayoutVals false sizes k = pt := by
  have h1 := unlayout_layout false sizes pt h
  have h2 := layoutVals_lin false sizes pt h
  unfold lin at h2
  simp only [Bool.false_eq_true, if_false] at h2
  rw [hk] at h2
  have : layoutVals false sizes pt = k := by exact_mod_cast h2
  rw [← this]; exact h1

theorem lin_of_unlayout {sizes : List Int} (h : ∀ d ∈ sizes, 0 < d) {k : Nat}
    (hk : (k : Int) < prodVals sizes) : linLast sizes (unlayoutVals false sizes k) = k := by
  have h1 := layout_unlayout false sizes h k hk
  have h2 := layoutVals_lin false sizes _ (unlayout_inSpace false sizes h k)
  rw [h1] at h2
  unfold lin at h2
  simpa using h2.symm

theorem linLast_snoc (r p : List Int) (n i : Int) :
    linLast (r ++ [n]) (p ++ [i]) = linLast r p * n + i := by
  unfold linLast
  simp only [List.reverse_append, List.reverse_cons, List.reverse_nil, List.nil_append,
    List.cons_append, linFirst]
  ring

theorem linLast_cons (r p : List Int) (n i : Int) (h : p.length = r.length) :
    linLast (n :: r) (i :: p) = i * prodVals r + linLast r p := by
  rw [← layoutSum_eq_linLast (n :: r) (i :: p) (by simp [h]), ← layoutSum_eq_linLast r p h]
  rfl

theorem inSpace_snoc {r p : List Int} {n i : Int} (h : InSpace r p) (hi : 0 ≤ i ∧ i < n) :
    InSpace (r ++ [n]) (p ++ [i]) := by
  unfold InSpace at *
  exact List.rel_append h (List.Forall₂.cons hi List.Forall₂.nil)

theorem prodVals_snoc (r : List Int) (n : Int) : prodVals (r ++ [n]) = prodVals r * n := by
  rw [prodVals_eq, prodVals_eq]; simp

theorem prodVals_cons (r : List Int) (n : Int) : prodVals (n :: r) = n * prodVals r := by
  rw [prodVals_eq, prodVals_eq]; simp

theorem unlayout_snoc {r : List Int} (h : ∀ d ∈ r, 0 < d) {n : Int} (q i : Nat)
    (hq : (q : Int) < prodVals r) (hi : (i : Int) < n) :
    unlayoutVals false (r ++ [n]) (q * n.toNat + i) = unlayoutVals false r q ++ [(i : Int)] := by
  apply unlayout_of_lin (inSpace_snoc (unlayout_inSpace false r h q) ⟨by omega, hi⟩)
  rw [linLast_snoc, lin_of_unlayout h hq]
  push_cast
  rw [Int.toNat_of_nonneg (by omega)]

theorem unlayout_cons {r : List Int} (h : ∀ d ∈ r, 0 < d) {n : Int} (k j : Nat) (hk : (k : Int) < n)
    (hj : (j : Int) < prodVals r) :
    unlayoutVals false (n :: r) (k * (prodVals r).toNat + j) = (k : Int) :: unlayoutVals false r j := by
  have hin := unlayout_inSpace false r h j
  apply unlayout_of_lin
  · exact List.Forall₂.cons ⟨by omega, hk⟩ hin
  · rw [linLast_cons _ _ _ _ (inSpace_nonneg hin).2.2, lin_of_unlayout h hj]
    push_cast
    rw [Int.toNat_of_nonneg (by have := prodVals_pos r h; omega)]

/-- Nested ranges are one range. -/
theorem flatMap_range_mul {α : Type} (f : Nat → α) (a b : Nat) :
    (List.range a).flatMap (fun q => (List.range b).map fun i => f (q * b + i)) =
      (List.range (a * b)).map f := by
  induction a with
  | zero => simp
  | succ a ih =>
    rw [List.range_succ, List.flatMap_append, ih, Nat.succ_mul, List.range_add, List.map_append,
      List.map_map]
    simp [Function.comp_def]

theorem zipWith_snoc (a b : List Int) (x y : Int) (h : a.length = b.length) :
    List.zipWith (· + ·) (a ++ [x]) (b ++ [y]) = List.zipWith (· + ·) a b ++ [x + y] := by
  rw [List.zipWith_append h]; rfl

theorem bumpLast_zero (pt : List Int) : bumpLast pt 0 = pt := by
  unfold bumpLast
  cases h : pt.getLast? with
  | none => rfl
  | some x =>
    simp only [Int.add_zero]
    obtain ⟨ys, rfl⟩ := List.getLast?_eq_some_iff.1 h
    simp

theorem bumpLast_snoc (pt : List Int) (x i : Int) : bumpLast (pt ++ [x]) i = pt ++ [x + i] := by
  unfold bumpLast
  simp

/-- The visits of one step are the points of the range, each once, with their row-major position. -/
theorem stepVisits_perm (env : SliceEnv) (hn : 0 < env.nthr) (n : Nat) (start range : List Int)
    (hl : start.length = range.length) (hpos : ∀ d ∈ range, 0 < d) (hnl : n ≤ range.length)
    (ti tofs : Int) :
    (stepVisits env start (innerSplit env.nthr n range (prodVals range)).2
      (innerSplit env.nthr n range (prodVals range)).1 ti tofs).Perm
    ((List.range (prodVals range).toNat).map fun (j : Nat) =>
      (List.zipWith (· + ·) start (unlayoutVals false range j), ti, tofs + j)) := by
  have simple : (stepVisits env start range 1 ti tofs).Perm
      ((List.range (prodVals range).toNat).map fun (j : Nat) =>
        (List.zipWith (· + ·) start (unlayoutVals false range j), ti, tofs + j)) := by
    unfold stepVisits
    have h1 := (C38_visit_parallel env.par env.nthr hn false range hpos).1
    have h2 := h1.flatMap_right fun v =>
      (List.range (1 : Int).toNat).map fun (i : Nat) =>
        (bumpLast (List.zipWith (· + ·) start v.1) i, ti, tofs + v.2 * 1 + i)
    refine h2.trans ?_
    rw [List.flatMap_map]
    have e : numPoints range = prodVals range := (prodVals_eq range).symm
    rw [e]
    apply List.Perm.of_eq
    simp [List.range_succ, bumpLast_zero, ← List.map_eq_flatMap]
  unfold innerSplit
  split
  · exact simple
  · next h0 =>
    simp only
    split
    swap
    · exact simple
    · clear simple
      have hne : range ≠ [] := by
        intro h; rw [h] at hnl; simp at hnl; exact h0 hnl
      obtain ⟨r, ri, rfl⟩ : ∃ r ri, range = r ++ [ri] :=
        ⟨range.dropLast, range.getLast hne, (List.dropLast_append_getLast hne).symm⟩
      have hsne : start ≠ [] := by
        intro h; rw [h] at hl; simp at hl
      obtain ⟨s, x, rfl⟩ : ∃ s x, start = s ++ [x] :=
        ⟨start.dropLast, start.getLast hsne, (List.dropLast_append_getLast hsne).symm⟩
      have hls : s.length = r.length := by simpa using hl
      have hr : ∀ d ∈ r, 0 < d := fun d hd => hpos d (by simp [hd])
      have hri : 0 < ri := hpos ri (by simp)
      have e1 : (r ++ [ri]).getLastD 1 = ri := by
        rw [List.getLastD_eq_getLast?]; simp
      rw [e1]
      simp only [List.dropLast_concat]
      unfold stepVisits
      have hpos1 : ∀ d ∈ r ++ [(1 : Int)], 0 < d := by
        intro d hd
        rcases List.mem_append.1 hd with h | h
        · exact hr d h
        · simp at h; omega
      have h1 := (C38_visit_parallel env.par env.nthr hn false (r ++ [1]) hpos1).1
      have h2 := h1.flatMap_right fun v =>
        (List.range ri.toNat).map fun (i : Nat) =>
          (bumpLast (List.zipWith (· + ·) (s ++ [x]) v.1) i, ti, tofs + v.2 * ri + i)
      refine h2.trans ?_
      apply List.Perm.of_eq
      rw [List.flatMap_map]
      have e : (numPoints (r ++ [(1 : Int)])).toNat = (prodVals r).toNat := by
        unfold numPoints
        rw [← prodVals_eq, prodVals_snoc, Int.mul_one]
      rw [e]
      have e2 : (prodVals (r ++ [ri])).toNat = (prodVals r).toNat * ri.toNat := by
        rw [prodVals_snoc, Int.toNat_mul (by have := prodVals_pos r hr; omega) hri.le]
      rw [e2, ← flatMap_range_mul]
      have hbody : ∀ q ∈ List.range (prodVals r).toNat,
          ((List.range ri.toNat).map fun (i : Nat) =>
            (bumpLast (List.zipWith (· + ·) (s ++ [x]) (unlayoutVals false (r ++ [1]) q)) (i : Int), ti,
              tofs + (q : Int) * ri + i)) =
          (List.range ri.toNat).map fun (i : Nat) =>
            (List.zipWith (· + ·) (s ++ [x]) (unlayoutVals false (r ++ [ri]) (q * ri.toNat + i)), ti,
              tofs + ((q * ri.toNat + i : Nat) : Int)) := by
        intro q hq
        rw [List.mem_range] at hq
        have hq' : (q : Int) < prodVals r := by omega
        apply List.map_congr_left
        intro i hi
        rw [List.mem_range] at hi
        have u1 := unlayout_snoc hr q 0 hq' (n := 1) (by decide)
        simp only [Int.toNat_one, Nat.mul_one, Nat.add_zero] at u1
        have u2 := unlayout_snoc hr q i hq' (n := ri) (by omega)
        have hlen : s.length = (unlayoutVals false r q).length := by
          rw [(inSpace_nonneg (unlayout_inSpace false r hr q)).2.2, hls]
        rw [u1, u2, zipWith_snoc _ _ _ _ hlen, zipWith_snoc _ _ _ _ hlen, bumpLast_snoc]
        have c : ((q * ri.toNat + i : Nat) : Int) = (q : Int) * ri + i := by
          push_cast; rw [Int.toNat_of_nonneg hri.le]
        rw [c]
        simp [Int.add_assoc]
      exact List.flatMap_congr hbody

end Yask.Var
