import Verif.Kernel.BBSlice

/-! Helper lemmas about the search for bounding boxes: merging. -/

namespace Yask.BB
open Spec

theorem boxVisits_cons (bb : Box) (l : List Box) (p : List Int) :
    boxVisits (bb :: l) p = boxVisits l p + if InBox p bb then 1 else 0 := by
  unfold boxVisits
  simp [List.countP_cons]

theorem extend_visits {n : Nat} {bb bbn : Box} (h1 : Proper (n + 1) bb) (h2 : Proper (n + 1) bbn)
    (hm : canMerge bb bbn = true) (p : List Int) :
    (if InBox p (extendTo bb bbn) then 1 else 0) =
      (if InBox p bb then 1 else 0) + (if InBox p bbn then 1 else 0 : Nat) := by
  obtain ⟨l1, o1⟩ := h1
  obtain ⟨l2, o2⟩ := h2
  cases bb with
  | nil => simp at l1
  | cons b bs =>
    cases bbn with
    | nil => simp at l2
    | cons c cs =>
      simp only [canMerge, Bool.and_eq_true, decide_eq_true_eq] at hm
      obtain ⟨hm, rfl⟩ := hm
      have a1 := o1 b List.mem_cons_self
      have a2 := o2 c List.mem_cons_self
      unfold extendTo
      cases p with
      | nil =>
        rw [if_neg (by intro h; cases h), if_neg (by intro h; cases h), if_neg (by intro h; cases h)]
      | cons x p =>
        by_cases hp : InBox p bs
        · have key : ∀ r : Ivl, (if InBox (x :: p) (r :: bs) then 1 else 0 : Nat) = if InIvl x r then 1 else 0 := by
            intro r
            by_cases h : InIvl x r
            · rw [if_pos ((inBox_cons' _ _ _ _).2 ⟨h, hp⟩), if_pos h]
            · rw [if_neg (fun c => h ((inBox_cons' _ _ _ _).1 c).1), if_neg h]
          rw [key, key, key]
          unfold InIvl
          split <;> split <;> split <;> omega
        · have key : ∀ r : Ivl, (if InBox (x :: p) (r :: bs) then 1 else 0 : Nat) = 0 := by
            intro r
            rw [if_neg (fun c => hp ((inBox_cons' _ _ _ _).1 c).2)]
          rw [key, key, key]

theorem extend_proper {n : Nat} {bb bbn : Box} (h1 : Proper (n + 1) bb) (h2 : Proper (n + 1) bbn)
    (hm : canMerge bb bbn = true) : Proper (n + 1) (extendTo bb bbn) := by
  obtain ⟨l1, o1⟩ := h1
  obtain ⟨l2, o2⟩ := h2
  cases bb with
  | nil => simp at l1
  | cons b bs =>
    cases bbn with
    | nil => simp at l2
    | cons c cs =>
      simp only [canMerge, Bool.and_eq_true, decide_eq_true_eq] at hm
      obtain ⟨hm, rfl⟩ := hm
      have a1 := o1 b List.mem_cons_self
      have a2 := o2 c List.mem_cons_self
      refine ⟨by simpa [extendTo] using l1, ?_⟩
      intro r hr
      rcases List.mem_cons.1 hr with rfl | hr
      · simp only; omega
      · exact o1 r (List.mem_cons_of_mem _ hr)

theorem mergeInto_spec {n : Nat} (bbn : Box) (h : Proper (n + 1) bbn) (l : List Box)
    (hl : ∀ bb ∈ l, Proper (n + 1) bb) :
    (∀ bb ∈ mergeInto bbn l, Proper (n + 1) bb) ∧
    ∀ p, boxVisits (mergeInto bbn l) p = boxVisits l p + if InBox p bbn then 1 else 0 := by
  induction l with
  | nil =>
    refine ⟨?_, fun p => ?_⟩
    · intro bb hb
      rw [mergeInto, List.mem_singleton] at hb
      subst hb; exact h
    · rw [mergeInto, boxVisits_cons]
  | cons bb l ih =>
    have hbb := hl bb List.mem_cons_self
    obtain ⟨i1, i2⟩ := ih fun b hb => hl b (List.mem_cons_of_mem _ hb)
    rw [mergeInto]
    by_cases hm : canMerge bb bbn = true
    · rw [if_pos hm]
      refine ⟨?_, fun p => ?_⟩
      · intro b hb
        rcases List.mem_cons.1 hb with rfl | hb
        · exact extend_proper hbb h hm
        · exact hl b (List.mem_cons_of_mem _ hb)
      · rw [boxVisits_cons, boxVisits_cons, extend_visits hbb h hm p]; omega
    · rw [if_neg hm]
      refine ⟨?_, fun p => ?_⟩
      · intro b hb
        rcases List.mem_cons.1 hb with rfl | hb
        · exact hbb
        · exact i1 b hb
      · rw [boxVisits_cons, boxVisits_cons, i2 p]; omega

/-- `a` lies inside `c`. -/
def Inside (a c : Box) : Prop := List.Forall₂ (fun (x y : Ivl) => y.1 ≤ x.1 ∧ x.2 ≤ y.2) a c

theorem hull_spec (a b : Box) (h : a.length = b.length) :
    Inside a (hull a b) ∧ Inside b (hull a b) ∧ ∀ c, Inside a c → Inside b c → Inside (hull a b) c := by
  unfold Inside hull
  induction a generalizing b with
  | nil =>
    have : b = [] := by simpa using h.symm
    subst this
    exact ⟨.nil, .nil, fun c hc _ => hc⟩
  | cons x a ih =>
    cases b with
    | nil => simp at h
    | cons y b =>
      obtain ⟨h1, h2, h3⟩ := ih b (by simpa using h)
      refine ⟨.cons ⟨by simp only; omega, by simp only; omega⟩ h1,
        .cons ⟨by simp only; omega, by simp only; omega⟩ h2, ?_⟩
      intro c hc hc'
      cases hc with
      | @cons _ z _ c a1 a2 =>
        cases hc' with
        | cons b1 b2 => exact .cons ⟨by simp only; omega, by simp only; omega⟩ (h3 c a2 b2)

theorem inside_refl (a : Box) : Inside a a := by
  unfold Inside
  induction a with
  | nil => exact .nil
  | cons x a ih => exact .cons ⟨Int.le_refl _, Int.le_refl _⟩ ih

theorem inside_trans {a b c : Box} (h1 : Inside a b) (h2 : Inside b c) : Inside a c := by
  unfold Inside at *
  induction h1 generalizing c with
  | nil => exact h2
  | cons h _ ih =>
    cases h2 with
    | cons h' t => exact .cons ⟨Int.le_trans h'.1 h.1, Int.le_trans h.2 h'.2⟩ (ih t)

theorem boxSize_pos {n : Nat} {bb : Box} (h : Proper n bb) : 0 < boxSize bb := by
  unfold boxSize
  apply prodVals_pos
  intro d hd
  unfold boxLen at hd
  obtain ⟨r, hr, rfl⟩ := List.mem_map.1 hd
  have := h.2 r hr
  omega

/-- What the merge loop has done after the boxes `l`. -/
structure MergeInv (n : Nat) (maxBB : Box) (l : List Box) (s : PartBB) : Prop where
  proper : ∀ bb ∈ s.list, Proper (n + 1) bb
  count : ∀ p, boxVisits s.list p = boxVisits l p
  num : s.numPoints = (l.map boxSize).sum
  empty : l = [] → s = ⟨[], maxBB, 0⟩
  pos : l ≠ [] → 0 < s.numPoints
  len : l ≠ [] → s.bb.length = n + 1
  above : l ≠ [] → ∀ b ∈ l, Inside b s.bb
  least : l ≠ [] → ∀ c, (∀ b ∈ l, Inside b c) → Inside s.bb c

theorem mergeStep_spec {n : Nat} {maxBB : Box} {l : List Box} {s : PartBB} (h : MergeInv n maxBB l s)
    (bbn : Box) (hb : Proper (n + 1) bbn) : MergeInv n maxBB (l ++ [bbn]) (mergeStep s bbn) := by
  have hsz := boxSize_pos hb
  obtain ⟨m1, m2⟩ := mergeInto_spec bbn hb s.list h.proper
  unfold mergeStep
  rw [if_neg (by omega)]
  by_cases hl : l = []
  · have hs := h.empty hl
    subst hl
    subst hs
    refine ⟨m1, ?_, ?_, ?_, ?_, ?_, ?_, ?_⟩
    · intro p; rw [m2 p, boxVisits_append, boxVisits_singleton]
    · simp
    · simp
    · intro _; simp only; omega
    · intro _; simp only [if_true]; exact hb.1
    · intro _ b hbm
      simp only [List.nil_append, List.mem_singleton] at hbm
      subst hbm
      simp only [if_true]
      exact inside_refl _
    · intro _ c hc
      simp only [if_true]
      exact hc bbn (by simp)
  · have hpos := h.pos hl
    have hne : ¬ s.numPoints = 0 := by omega
    obtain ⟨h1, h2, h3⟩ := hull_spec s.bb bbn (by rw [h.len hl, hb.1])
    refine ⟨m1, ?_, ?_, ?_, ?_, ?_, ?_, ?_⟩
    · intro p; rw [m2 p, boxVisits_append, boxVisits_singleton, h.count p]
    · simp [h.num]
    · simp
    · intro _; simp only; omega
    · intro _; simp only [if_neg hne]
      rw [← h1.length_eq]; exact h.len hl
    · intro _ b hbm
      simp only [if_neg hne]
      rcases List.mem_append.1 hbm with hbm | hbm
      · exact inside_trans (h.above hl b hbm) h1
      · rw [List.mem_singleton] at hbm; subst hbm; exact h2
    · intro _ c hc
      simp only [if_neg hne]
      exact h3 c (h.least hl c fun b hbm => hc b (by simp [hbm])) (hc bbn (by simp))

theorem merge_spec {n : Nat} {maxBB : Box} (l2 l1 : List Box) (s : PartBB) (h : MergeInv n maxBB l1 s)
    (hl : ∀ b ∈ l2, Proper (n + 1) b) : MergeInv n maxBB (l1 ++ l2) (l2.foldl mergeStep s) := by
  induction l2 generalizing l1 s with
  | nil => simpa using h
  | cons b l2 ih =>
    have := ih (l1 ++ [b]) (mergeStep s b) (mergeStep_spec h b (hl b List.mem_cons_self))
      fun x hx => hl x (List.mem_cons_of_mem _ hx)
    simpa using this

/-! ### Counting -/

theorem boxPoints_length (bx : Box) (h : ∀ r ∈ bx, r.1 ≤ r.2) :
    ((RunCfg.boxPoints bx).length : Int) = boxSize bx := by
  unfold boxSize
  rw [prodVals_eq]
  induction bx with
  | nil => simp [RunCfg.boxPoints, boxLen]
  | cons r bx ih =>
    have hr := h r List.mem_cons_self
    have := ih fun x hx => h x (List.mem_cons_of_mem _ hx)
    unfold RunCfg.boxPoints
    rw [List.length_flatMap]
    simp only [List.length_map, List.map_const', List.length_range, List.sum_replicate, boxLen,
      List.map_cons, List.prod_cons]
    unfold boxLen at this
    rw [← this, nsmul_eq_mul]
    push_cast
    rw [Int.toNat_of_nonneg (by omega)]

theorem points_of_cover (l : List Box) (P : List Int → Prop) [DecidablePred P] (h : ExactCoverOf l P) :
    (l.flatMap RunCfg.boxPoints).Nodup ∧ ∀ p, p ∈ l.flatMap RunCfg.boxPoints ↔ P p := by
  have hc : ∀ p, (l.flatMap RunCfg.boxPoints).count p = if P p then 1 else 0 := by
    intro p
    rw [← h p]
    unfold List.count boxVisits
    apply countP_flatMap_eq
    intro b _
    have h1 := List.nodup_iff_count_le_one.1 (boxPoints_nodup b) p
    have h2 := List.count_pos_iff (a := p) (l := RunCfg.boxPoints b)
    rw [mem_boxPoints] at h2
    unfold List.count at h1 h2
    by_cases hb : InBox p b
    · rw [if_pos (by simpa using hb)]; have := h2.2 hb; omega
    · rw [if_neg (by simpa using hb)]
      by_contra hc
      exact hb (h2.1 (by omega))
  constructor
  · rw [List.nodup_iff_count_le_one]
    intro p; rw [hc p]; split <;> omega
  · intro p
    rw [← List.count_pos_iff, hc p]
    split <;> simp [*]

theorem inside_of_points {n : Nat} {b c : Box} (hb : Proper n b) (hc : ∀ p, InBox p b → InBox p c) :
    Inside b c := by
  induction b generalizing n c with
  | nil =>
    have := hc [] .nil
    cases this
    exact .nil
  | cons r b ih =>
    have hr := hb.2 r List.mem_cons_self
    have hp' : Proper b.length b := ⟨rfl, fun x hx => hb.2 x (List.mem_cons_of_mem _ hx)⟩
    have hex : ∃ p, InBox p b := by
      refine ⟨b.map Prod.fst, ?_⟩
      have := hp'.2
      clear ih hb hc hp'
      unfold InBox
      induction b with
      | nil => exact .nil
      | cons x b ih =>
        have := this x List.mem_cons_self
        exact .cons ⟨Int.le_refl _, this⟩ (ih fun y hy => by apply_assumption; exact List.mem_cons_of_mem _ hy)
    obtain ⟨p, hp⟩ := hex
    have h1 := hc (r.1 :: p) ((inBox_cons' _ _ _ _).2 ⟨⟨Int.le_refl _, hr⟩, hp⟩)
    have h2 := hc ((r.2 - 1) :: p) ((inBox_cons' _ _ _ _).2 ⟨⟨by omega, by omega⟩, hp⟩)
    cases h1 with
    | @cons _ z _ c a1 a2 =>
      cases h2 with
      | cons b1 b2 =>
        have := a1.1
        have := b1.2
        refine .cons ⟨by omega, by omega⟩ (ih hp' fun q hq => ?_)
        have := hc (r.1 :: q) ((inBox_cons' _ _ _ _).2 ⟨⟨Int.le_refl _, hr⟩, hq⟩)
        exact ((inBox_cons' _ _ _ _).1 this).2

end Yask.BB
