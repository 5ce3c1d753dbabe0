import Verif.Common.VisitLemmas
import Mathlib.Algebra.BigOperators.Ring.List
import Mathlib.Data.List.Lex
import Mathlib.Data.String.Basic

/-!
# C37, C38, C39: tuple layout, visiting all points, tuple comparison
-/

namespace Yask
open Spec

/-! ## C37 -/

/-- C37: `layout` computes the linear index of a point with the first dimension varying fastest
(`_first_inner`) or the last one varying fastest (otherwise). -/
theorem C37_layout_value (t offsets : Tup) (h : InSpace t.vals offsets.vals) :
    (t.layout offsets true : Int) = lin t.firstInner t.vals offsets.vals := by
  unfold Tup.layout
  simpa using layoutVals_lin t.firstInner t.vals offsets.vals h

/-- C37: the offset of a point is between 0 and the number of points, and converting it back
gives the point. -/
theorem C37_unlayout_layout (t offsets : Tup) (h : InSpace t.vals offsets.vals) :
    (t.layout offsets true : Int) < numPoints t.vals ∧
      (t.unlayout (t.layout offsets true)).vals = offsets.vals ∧
      (t.unlayout (t.layout offsets true)).names = t.names := by
  have hl := (inSpace_nonneg h).2.2
  unfold Tup.layout Tup.unlayout
  simp only [if_true]
  rw [unlayout_layout _ _ _ h]
  refine ⟨?_, ?_, ?_⟩
  · have := layout_lt t.firstInner t.vals offsets.vals h
    rwa [prodVals_eq] at this
  · simp only [Tup.vals] at hl ⊢
    rw [List.map_snd_zip]
    simp only [List.length_map, Tup.names] at hl ⊢
    omega
  · simp only [Tup.vals, Tup.names] at hl ⊢
    rw [List.map_fst_zip]
    simp only [List.length_map] at hl ⊢
    omega

/-- C37: every offset below the number of points is the offset of exactly the point that
`unlayout` returns, and that point lies in the space. -/
theorem C37_layout_unlayout (t : Tup) (hpos : ∀ d ∈ t.vals, 0 < d) (n : Nat)
    (hn : (n : Int) < numPoints t.vals) :
    InSpace t.vals (t.unlayout n).vals ∧ t.layout (t.unlayout n) true = n := by
  have hin := unlayout_inSpace t.firstInner t.vals hpos n
  have hl := (inSpace_nonneg hin).2.2
  have hv : (t.unlayout n).vals = unlayoutVals t.firstInner t.vals n := by
    unfold Tup.unlayout
    simp only [Tup.vals, Tup.names] at hl ⊢
    rw [List.map_snd_zip]
    simp only [List.length_map] at hl ⊢
    omega
  refine ⟨by rw [hv]; exact hin, ?_⟩
  unfold Tup.layout
  simp only [if_true]
  rw [hv]
  apply layout_unlayout _ _ hpos
  rwa [prodVals_eq]

/-- C37: distinct points have distinct offsets. -/
theorem C37_layout_injective (t a b : Tup) (ha : InSpace t.vals a.vals) (hb : InSpace t.vals b.vals)
    (h : t.layout a true = t.layout b true) : a.vals = b.vals := by
  have h1 := (C37_unlayout_layout t a ha).2.1
  have h2 := (C37_unlayout_layout t b hb).2.1
  rw [← h1, h, h2]

example : InSpace [4, 3, 2] [3, 1, 1] ∧
    (⟨[("x", 4), ("y", 3), ("z", 2)], true⟩ : Tup).layout ⟨[("x", 3), ("y", 1), ("z", 1)], true⟩ true
      = 19 ∧
    (⟨[("x", 4), ("y", 3), ("z", 2)], false⟩ : Tup).layout ⟨[("x", 3), ("y", 1), ("z", 1)], true⟩ true
      = 21 := by
  refine ⟨?_, by decide, by decide⟩
  unfold InSpace; simp

/-- C37: without `strict_rhs`, offsets of dimensions not mentioned count as zero: the result is the
layout of the completed point. -/
theorem C37_layout_nonstrict (t offsets : Tup)
    (h : InSpace t.vals (t.names.map fun n => (offsets.lookup n).getD 0)) :
    (t.layout offsets false : Int) =
      lin t.firstInner t.vals (t.names.map fun n => (offsets.lookup n).getD 0) := by
  unfold Tup.layout
  simp only [Bool.false_eq_true, if_false]
  have e : t.q.map (fun s => (offsets.lookup s.1).getD 0) =
      t.names.map fun n => (offsets.lookup n).getD 0 := by
    simp [Tup.names, List.map_map, Function.comp]
  rw [e]
  exact layoutVals_lin _ _ _ h

/-! ## C38 -/

/-- C38 (`Indices` version, used by the kernel): visiting all points with an arbitrary stateful
visitor is the same as going through the points of linear index `0, 1, …, product-1` in order,
stopping as soon as the visitor returns false. -/
theorem C38_visit_indices {σ : Type} (firstInner : Bool) (sizes : List Int)
    (hpos : ∀ d ∈ sizes, 0 < d) (visitor : σ → List Int → Nat → σ × Bool) (s : σ) :
    visitAllPointsIndices firstInner sizes visitor s =
      foldUntil (fun s k => visitor s (unlayoutVals firstInner sizes k) k)
        (List.range (numPoints sizes).toNat) s := by
  have hp := prodVals_pos sizes hpos
  unfold visitAllPointsIndices
  simp only
  rw [if_neg (by omega)]
  have e : numPoints sizes = prodVals sizes := (prodVals_eq sizes).symm
  rw [e, ← unlayoutVals_zero firstInner sizes]
  split
  · next h1 =>
    rw [h1]
    show _ = foldUntil _ [0] s
    simp only [foldUntil]
    rcases visitor s (unlayoutVals firstInner sizes 0) 0 with ⟨s', b⟩
    cases b <;> rfl
  · rw [visitLoop_eq _ _ hpos, List.range_eq_range']

/-- C38: an empty space (some size zero, none negative) has no visits in the `Indices` version. -/
theorem C38_visit_indices_empty {σ : Type} (firstInner : Bool) (sizes : List Int)
    (h0 : (0 : Int) ∈ sizes) (visitor : σ → List Int → Nat → σ × Bool) (s : σ) :
    visitAllPointsIndices firstInner sizes visitor s = (s, true) := by
  unfold visitAllPointsIndices
  have : prodVals sizes = 0 := by rw [prodVals_eq]; exact List.prod_eq_zero_iff.2 h0
  simp [this]

/-- C38 (`Tuple` version), partial: the same for nonempty spaces.  The full statement would include
empty spaces; it fails there, see `C38_visit_tuple_empty_space_visited`. -/
theorem C38_visit_tuple_partial {σ : Type} (firstInner : Bool) (sizes : List Int)
    (hpos : ∀ d ∈ sizes, 0 < d) (visitor : σ → List Int → Nat → σ × Bool) (s : σ) :
    visitAllPointsTuple firstInner sizes visitor s =
      foldUntil (fun s k => visitor s (unlayoutVals firstInner sizes k) k)
        (List.range (numPoints sizes).toNat) s := by
  rw [← C38_visit_indices firstInner sizes hpos]
  have hp := prodVals_pos sizes hpos
  unfold visitAllPointsTuple visitAllPointsIndices
  simp only
  rw [if_neg (show ¬ prodVals sizes < 1 by omega)]
  by_cases h1 : prodVals sizes = 1
  · rw [if_pos (by omega), if_pos h1]
  · rw [if_neg (by omega), if_neg h1]

/-- C38, finding: `Tuple::visit_all_points` calls the visitor once on an empty space
(`src/common/tuple.hpp:674`: `ne <= 1`). -/
theorem C38_visit_tuple_empty_space_visited :
    ∃ sizes : List Int, numPoints sizes = 0 ∧
      (visitAllPointsTuple true sizes (fun (s : List (List Int)) pt _ => (s ++ [pt], true)) []).1
        = [[0, 0]] :=
  ⟨[3, 0], by decide, by decide⟩

/-- C38: the points visited are exactly the points of the space, each once: the list of visited
points has no duplicates and contains exactly the points of the space. -/
theorem C38_points_complete (firstInner : Bool) (sizes : List Int) (hpos : ∀ d ∈ sizes, 0 < d) :
    ((List.range (numPoints sizes).toNat).map (unlayoutVals firstInner sizes)).Nodup ∧
      ∀ pt, pt ∈ (List.range (numPoints sizes).toNat).map (unlayoutVals firstInner sizes) ↔
        InSpace sizes pt := by
  have e : numPoints sizes = prodVals sizes := (prodVals_eq sizes).symm
  have hp := prodVals_pos sizes hpos
  constructor
  · rw [List.nodup_map_iff_inj_on List.nodup_range]
    intro a ha b hb hab
    rw [List.mem_range] at ha hb
    rw [← layout_unlayout firstInner sizes hpos a (by omega), hab,
      layout_unlayout firstInner sizes hpos b (by omega)]
  · intro pt
    simp only [List.mem_map, List.mem_range]
    constructor
    · rintro ⟨k, _, rfl⟩
      exact unlayout_inSpace firstInner sizes hpos k
    · intro hin
      refine ⟨layoutVals firstInner sizes pt, ?_, unlayout_layout firstInner sizes pt hin⟩
      have := layout_lt firstInner sizes pt hin
      omega

/-- C38: points are visited in increasing order of their linear index, and the index passed is the
linear index. -/
theorem C38_points_in_layout_order (firstInner : Bool) (sizes : List Int)
    (hpos : ∀ d ∈ sizes, 0 < d) (k : Nat) (hk : (k : Int) < numPoints sizes) :
    lin firstInner sizes (unlayoutVals firstInner sizes k) = k := by
  rw [← layoutVals_lin _ _ _ (unlayout_inSpace firstInner sizes hpos k),
    layout_unlayout firstInner sizes hpos k (by rwa [prodVals_eq])]

/-- C38: the parallel version makes the same visits, each exactly once, for every number of threads
and every OpenMP environment (in an unspecified order). -/
theorem C38_visit_parallel (env : ParForEnv) (nthr : Nat) (hn : 0 < nthr) (firstInner : Bool)
    (sizes : List Int) (hpos : ∀ d ∈ sizes, 0 < d) :
    (parallelVisitsIndices env nthr firstInner sizes).Perm
      ((List.range (numPoints sizes).toNat).map fun k => (unlayoutVals firstInner sizes k, k)) ∧
    (parallelVisitsTuple env nthr firstInner sizes).Perm
      ((List.range (numPoints sizes).toNat).map fun k => (unlayoutVals firstInner sizes k, k)) := by
  have hp := prodVals_pos sizes hpos
  have e : numPoints sizes = prodVals sizes := (prodVals_eq sizes).symm
  have h1 : prodVals sizes = 1 →
      ((List.range (numPoints sizes).toNat).map fun k => (unlayoutVals firstInner sizes k, k)) =
        [(sizes.map fun _ => (0 : Int), 0)] := by
    intro h1
    rw [e, h1]
    simp [List.range_succ, unlayoutVals_zero]
  constructor
  · unfold parallelVisitsIndices
    simp only
    rw [if_neg (by omega)]
    split
    · next h => rw [h1 h]
    · rw [e]; exact parallel_visits_perm env nthr hn firstInner sizes hpos
  · unfold parallelVisitsTuple
    simp only
    split
    · next h => rw [h1 (by omega)]
    · rw [e]; exact parallel_visits_perm env nthr hn firstInner sizes hpos

example : parallelVisitsIndices ⟨true, false, 2, 2, 2⟩ 4 false [3, 2] =
    [([0, 0], 0), ([0, 1], 1), ([1, 0], 2), ([1, 1], 3), ([2, 0], 4), ([2, 1], 5)] := by
  decide +kernel

/-! ## C39 -/

/-- Equality of tuples as defined by `operator==` is equality of the (name, value) lists. -/
theorem C39_eq_iff (a b : Tup) : a.eqb b = true ↔ a.q = b.q := by
  have key : ∀ (l m : List (String × Int)), l.length = m.length →
      ((l.zip m).all (fun p => p.1.1 == p.2.1) = true ∧
        (l.zip m).all (fun p => p.1.2 == p.2.2) = true ↔ l = m) := by
    intro l
    induction l with
    | nil => intro m hm; cases m <;> simp_all
    | cons x l ih =>
      intro m hm
      cases m with
      | nil => simp at hm
      | cons y m =>
        have := ih m (by simpa using hm)
        simp only [List.zip_cons_cons, List.all_cons, Bool.and_eq_true, beq_iff_eq,
          List.cons.injEq, ← this]
        constructor
        · rintro ⟨⟨h1, h2⟩, h3, h4⟩
          exact ⟨Prod.ext h1 h3, h2, h4⟩
        · rintro ⟨rfl, h2, h4⟩
          exact ⟨⟨rfl, h2⟩, rfl, h4⟩
  unfold Tup.eqb Tup.areDimsSame
  by_cases hl : a.q.length = b.q.length
  · have := key a.q b.q hl
    rw [← this]
    simp only [hl, ne_eq, not_true_eq_false, if_false, if_true]
    clear this key
    generalize (a.q.zip b.q).all (fun p => p.1.1 == p.2.1) = x
    generalize (a.q.zip b.q).all (fun p => p.1.2 == p.2.2) = y
    cases x <;> cases y <;> decide
  · simp only [ne_eq, hl, not_false_eq_true, if_true, Bool.not_false]
    constructor
    · intro h; simp at h
    · intro h; exact absurd (by rw [h]) hl

/-- Specification of the order: shorter tuples first, then values lexicographically, then names
lexicographically. -/
def tupleSpecLt (a b : Tup) : Prop :=
  a.q.length < b.q.length ∨
    (a.q.length = b.q.length ∧
      (a.vals < b.vals ∨ (a.vals = b.vals ∧ a.names < b.names)))

theorem ltVals_spec (l m : List (String × Int)) (h : l.length = m.length) :
    (Tup.ltVals l m = some true ↔ l.map Prod.snd < m.map Prod.snd) ∧
    (Tup.ltVals l m = some false ↔ m.map Prod.snd < l.map Prod.snd) ∧
    (Tup.ltVals l m = none ↔ l.map Prod.snd = m.map Prod.snd) := by
  induction l generalizing m with
  | nil => cases m <;> simp_all [Tup.ltVals]
  | cons x l ih =>
    cases m with
    | nil => simp at h
    | cons y m =>
      obtain ⟨h1, h2, h3⟩ := ih m (by simpa using h)
      simp only [Tup.ltVals, List.map_cons, List.cons_lt_cons_iff, List.cons.injEq, gt_iff_lt]
      split
      · next hlt =>
        refine ⟨?_, ?_, ?_⟩
        · simp [hlt]
        · simp only [Option.some.injEq, Bool.true_eq_false, false_iff]; omega
        · simp only [reduceCtorEq, false_iff]; omega
      · split
        · next _ hlt =>
          refine ⟨?_, ?_, ?_⟩
          · simp only [Option.some.injEq, Bool.false_eq_true, false_iff]; omega
          · simp [hlt]
          · simp only [reduceCtorEq, false_iff]; omega
        · have : x.2 = y.2 := by omega
          simp [this, h1, h2, h3]

theorem ltNames_spec (l m : List (String × Int)) (h : l.length = m.length) :
    (Tup.ltNames l m = some true ↔ l.map Prod.fst < m.map Prod.fst) ∧
    (Tup.ltNames l m = some false ↔ m.map Prod.fst < l.map Prod.fst) ∧
    (Tup.ltNames l m = none ↔ l.map Prod.fst = m.map Prod.fst) := by
  induction l generalizing m with
  | nil => cases m <;> simp_all [Tup.ltNames]
  | cons x l ih =>
    cases m with
    | nil => simp at h
    | cons y m =>
      obtain ⟨h1, h2, h3⟩ := ih m (by simpa using h)
      simp only [Tup.ltNames, List.map_cons, List.cons_lt_cons_iff, List.cons.injEq, gt_iff_lt]
      rcases lt_trichotomy x.1 y.1 with hlt | heq | hgt
      · simp [hlt, not_lt_of_gt hlt, ne_of_lt hlt, ne_of_gt hlt]
      · simp [heq, h1, h2, h3]
      · simp [hgt, not_lt_of_gt hgt, ne_of_lt hgt, ne_of_gt hgt]

/-- C39: `operator<` is the order: fewer dimensions first, then lexicographic by values, then
lexicographic by names. -/
theorem C39_lt_iff (a b : Tup) : a.ltb b = true ↔ tupleSpecLt a b := by
  unfold Tup.ltb tupleSpecLt
  by_cases h1 : a.q.length < b.q.length
  · simp [h1]
  · by_cases h2 : a.q.length > b.q.length
    · simp [h1, h2]; omega
    · have hl : a.q.length = b.q.length := by omega
      obtain ⟨v1, v2, v3⟩ := ltVals_spec a.q b.q hl
      obtain ⟨n1, n2, n3⟩ := ltNames_spec a.q b.q hl
      simp only [Tup.vals, Tup.names]
      simp only [hl, lt_irrefl, if_false, gt_iff_lt, false_or, true_and]
      cases hv : Tup.ltVals a.q b.q with
      | some r =>
        cases r with
        | true => simp [v1.1 hv]
        | false =>
          have := v2.1 hv
          simp [not_lt_of_gt this, ne_of_gt this]
      | none =>
        have hveq := v3.1 hv
        cases hn : Tup.ltNames a.q b.q with
        | some r =>
          cases r with
          | true => simp [hveq, n1.1 hn]
          | false => have := n2.1 hn; simp [hveq, not_lt_of_gt this]
        | none => have := n3.1 hn; simp [hveq, this]

theorem q_eq_of (a b : Tup) (hv : a.vals = b.vals) (hn : a.names = b.names) : a.q = b.q := by
  have : ∀ l m : List (String × Int), l.map Prod.snd = m.map Prod.snd →
      l.map Prod.fst = m.map Prod.fst → l = m := by
    intro l
    induction l with
    | nil => intro m h _; cases m <;> simp_all
    | cons x l ih =>
      intro m h1 h2
      cases m with
      | nil => simp at h1
      | cons y m =>
        simp only [List.map_cons, List.cons.injEq] at h1 h2
        rw [ih m h1.2 h2.2, Prod.ext h2.1 h1.1]
  exact this _ _ hv hn

/-- C39: `<` is irreflexive and transitive, and of two tuples exactly one of `a < b`, `a == b`,
`b < a` holds. -/
theorem C39_strict_total_order :
    (∀ a : Tup, a.ltb a = false) ∧
    (∀ a b c : Tup, a.ltb b = true → b.ltb c = true → a.ltb c = true) ∧
    (∀ a b : Tup, (a.ltb b = true ∧ a.eqb b = false ∧ b.ltb a = false) ∨
      (a.ltb b = false ∧ a.eqb b = true ∧ b.ltb a = false) ∨
      (a.ltb b = false ∧ a.eqb b = false ∧ b.ltb a = true)) := by
  have irr : ∀ a : Tup, ¬ tupleSpecLt a a := by
    intro a h
    unfold tupleSpecLt at h
    rcases h with h | ⟨_, h | ⟨_, h⟩⟩
    · exact lt_irrefl _ h
    · exact lt_irrefl _ h
    · exact lt_irrefl _ h
  have trans : ∀ a b c : Tup, tupleSpecLt a b → tupleSpecLt b c → tupleSpecLt a c := by
    intro a b c h1 h2
    unfold tupleSpecLt at *
    rcases h1 with h1 | ⟨l1, h1⟩ <;> rcases h2 with h2 | ⟨l2, h2⟩
    · left; omega
    · left; omega
    · left; omega
    · right
      refine ⟨by omega, ?_⟩
      rcases h1 with h1 | ⟨e1, h1⟩ <;> rcases h2 with h2 | ⟨e2, h2⟩
      · exact Or.inl (lt_trans h1 h2)
      · exact Or.inl (e2 ▸ h1)
      · exact Or.inl (e1 ▸ h2)
      · exact Or.inr ⟨e1.trans e2, lt_trans h1 h2⟩
  have bf : ∀ {x : Bool} {p : Prop}, (x = true ↔ p) → (x = false ↔ ¬ p) := by
    intro x p h; cases x <;> simp_all
  refine ⟨?_, ?_, ?_⟩
  · intro a; rw [bf (C39_lt_iff a a)]; exact irr a
  · intro a b c h1 h2
    rw [C39_lt_iff] at *
    exact trans a b c h1 h2
  · intro a b
    simp only [bf (C39_lt_iff _ _), bf (C39_eq_iff _ _), C39_lt_iff, C39_eq_iff]
    have hne : tupleSpecLt a b → a.q ≠ b.q := by
      intro h he
      have : tupleSpecLt a a := by
        unfold tupleSpecLt Tup.vals Tup.names at *; rw [← he] at h; exact h
      exact irr a this
    have hne' : tupleSpecLt b a → a.q ≠ b.q := by
      intro h he
      have : tupleSpecLt a a := by
        unfold tupleSpecLt Tup.vals Tup.names at *; rw [← he] at h; exact h
      exact irr a this
    have htot : tupleSpecLt a b ∨ a.q = b.q ∨ tupleSpecLt b a := by
      unfold tupleSpecLt
      rcases lt_trichotomy a.q.length b.q.length with h | h | h
      · exact Or.inl (Or.inl h)
      · rcases lt_trichotomy a.vals b.vals with hv | hv | hv
        · exact Or.inl (Or.inr ⟨h, Or.inl hv⟩)
        · rcases lt_trichotomy a.names b.names with hn | hn | hn
          · exact Or.inl (Or.inr ⟨h, Or.inr ⟨hv, hn⟩⟩)
          · exact Or.inr (Or.inl (q_eq_of a b hv hn))
          · exact Or.inr (Or.inr (Or.inr ⟨h.symm, Or.inr ⟨hv.symm, hn⟩⟩))
        · exact Or.inr (Or.inr (Or.inr ⟨h.symm, Or.inl hv⟩))
      · exact Or.inr (Or.inr (Or.inl h))
    rcases htot with h | h | h
    · exact Or.inl ⟨h, hne h, fun h' => irr a (trans a b a h h')⟩
    · exact Or.inr (Or.inl ⟨fun h' => hne h' h, h, fun h' => hne' h' h⟩)
    · exact Or.inr (Or.inr ⟨fun h' => irr a (trans a b a h' h), hne' h, h⟩)

/-- C39: the derived comparisons agree with `<` and `==`. -/
theorem C39_derived (a b : Tup) :
    (a.leb b = true ↔ (a.ltb b = true ∨ a.eqb b = true)) ∧
    (a.gtb b = b.ltb a) ∧ (a.geb b = b.leb a) := by
  unfold Tup.gtb Tup.geb Tup.leb
  obtain ⟨_, _, h⟩ := C39_strict_total_order
  have e : a.eqb b = b.eqb a := by
    rw [Bool.eq_iff_iff, C39_eq_iff, C39_eq_iff]; exact eq_comm
  have := h a b
  rw [e] at this ⊢
  rcases this with ⟨h1, h2, h3⟩ | ⟨h1, h2, h3⟩ | ⟨h1, h2, h3⟩ <;> simp [h1, h2, h3]

example : (⟨[("x", 1), ("y", 5)], true⟩ : Tup).ltb ⟨[("x", 2), ("y", 0)], true⟩ = true ∧
    (⟨[("x", 1)], true⟩ : Tup).ltb ⟨[("y", 1)], true⟩ = true := by decide

end Yask
