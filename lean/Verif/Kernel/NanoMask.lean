import Verif.Kernel.NanoLemmas

/-!
# Write masks and the points written by masked vectors
-/

namespace Yask.Nano
open Spec

/-! ### Building a mask by shifting -/

/-- One step of the mask loop. -/
def maskStep (P : Nat) (m : BitVec 64) (c : Bool) : BitVec 64 :=
  if c then m.sshiftRight 1 ||| (1#64 <<< (P - 1)) else m.sshiftRight 1

theorem maskStep_bit (P : Nat) (hP : 0 < P) (hP2 : P ≤ 63) (m : BitVec 64) (hm : ∀ i, P ≤ i → m.getLsbD i = false)
    (c : Bool) (i : Nat) :
    (maskStep P m c).getLsbD i = (m.getLsbD (i + 1) || (decide (i = P - 1) && c)) := by
  have hmsb : m.msb = false := by
    rw [BitVec.msb_eq_getLsbD_last]; exact hm _ (by omega)
  have hs : (m.sshiftRight 1).getLsbD i = m.getLsbD (i + 1) := by
    rw [BitVec.getLsbD_sshiftRight, hmsb]
    by_cases h : i < 64
    · by_cases h2 : 1 + i < 64
      · rw [if_pos h2, Nat.add_comm 1 i]
        have : ¬ 64 ≤ i := by omega
        simp [this]
      · have := hm (i + 1) (by omega)
        simp [h2, this]
    · have := hm (i + 1) (by omega)
      simp [this]; omega
  have h1 : (1#64 <<< (P - 1)).getLsbD i = decide (i = P - 1) := by
    rw [BitVec.getLsbD_shiftLeft]
    by_cases h : i = P - 1
    · subst h; simp; omega
    · by_cases h2 : i < P - 1
      · simp [h2]; omega
      · simp [h, h2]; omega
  unfold maskStep
  cases c
  · simp [hs]
  · simp [hs, h1]

theorem foldl_mask (P : Nat) (hP : 0 < P) (hP2 : P ≤ 63) (c : Nat → Bool) (n : Nat) (hn : n ≤ P) (i : Nat) :
    ((List.range n).foldl (fun m k => maskStep P m (c k)) 0#64).getLsbD i =
      (decide (P - n ≤ i ∧ i < P) && c (i - (P - n))) := by
  induction n generalizing i with
  | zero => simp
  | succ n ih =>
    rw [List.range_succ, List.foldl_append]
    simp only [List.foldl_cons, List.foldl_nil]
    rw [maskStep_bit P hP hP2 _ (fun i hi => by rw [ih (by omega)]; simp; omega), ih (by omega)]
    by_cases h : i = P - 1
    · subst h
      have e1 : ¬ (P - n ≤ P - 1 + 1 ∧ P - 1 + 1 < P) := by omega
      have e2 : P - (n + 1) ≤ P - 1 ∧ P - 1 < P := by omega
      have e3 : P - 1 - (P - (n + 1)) = n := by omega
      simp [e2, e3]; omega
    · by_cases h2 : P - (n + 1) ≤ i ∧ i < P
      · have e1 : P - n ≤ i + 1 ∧ i + 1 < P := by omega
        have e3 : i + 1 - (P - n) = i - (P - (n + 1)) := by omega
        simp [e1, h2, e3, h]
      · have e1 : ¬ (P - n ≤ i + 1 ∧ i + 1 < P) := by omega
        simp only [h2, e1, h]; simp

/-- The number of points in a fold. -/
abbrev foldPts (sizes : List Int) : Nat := (prodVals sizes).toNat

/-- Bit `i` of a mask is the condition at the point with layout index `i`. -/
theorem foldMask_bit (fi : Bool) (sizes : List Int) (hpos : ∀ d ∈ sizes, 0 < d) (hP : prodVals sizes ≤ 63)
    (cond : List Int → Bool) (i : Nat) (hi : i < foldPts sizes) :
    (foldMask fi sizes cond).getLsbD i = cond (unlayoutVals fi sizes i) := by
  have hp := prodVals_pos sizes hpos
  unfold foldMask
  simp only
  rw [C38_visit_indices fi sizes hpos]
  have e : (fun (s : BitVec 64) (k : Nat) =>
      (if cond (unlayoutVals fi sizes k) = true then s.sshiftRight 1 ||| 1#64 <<< (prodVals sizes - 1).toNat
        else s.sshiftRight 1, true)) =
      fun s k => (maskStep (foldPts sizes) s (cond (unlayoutVals fi sizes k)), true) := by
    funext s k
    unfold maskStep
    rw [show (prodVals sizes - 1).toNat = foldPts sizes - 1 by unfold foldPts; omega]
  rw [e, foldUntil_true, show numPoints sizes = prodVals sizes from (prodVals_eq sizes).symm]
  simp only
  rw [foldl_mask (foldPts sizes) (by unfold foldPts; omega) (by unfold foldPts; omega) _ _ (le_refl _)]
  simp [hi]

/-! ### Points of vectors -/

/-- The normalized vector index of a global point. -/
def vecOf (ds : List NanoDim) (p : List Int) : List Int :=
  List.zipWith (fun (d : NanoDim) x => (x - d.rofs) / d.fold) ds p

/-- The offset within its vector of a global point. -/
def ofsOf (ds : List NanoDim) (p : List Int) : List Int :=
  List.zipWith (fun (d : NanoDim) x => (x - d.rofs) % d.fold) ds p

theorem ofsOf_inSpace (ds : List NanoDim) (h : ∀ d ∈ ds, 0 < d.fold) (p : List Int)
    (hp : p.length = ds.length) : InSpace (ds.map NanoDim.fold) (ofsOf ds p) := by
  unfold InSpace ofsOf
  induction ds generalizing p with
  | nil => simp
  | cons d ds ih =>
    match p, hp with
    | x :: p, hp =>
      simp only [List.zipWith_cons_cons, List.map_cons]
      have := h d List.mem_cons_self
      exact List.Forall₂.cons ⟨Int.emod_nonneg _ (by omega), Int.emod_lt_of_pos _ this⟩
        (ih (fun d hd => h d (List.mem_cons_of_mem _ hd)) p (by simpa using hp))

theorem vecPoint_eq_iff (ds : List NanoDim) (h : ∀ d ∈ ds, 0 < d.fold) (v o p : List Int)
    (hv : v.length = ds.length) (ho : InSpace (ds.map NanoDim.fold) o) :
    vecPoint ds v o = p ↔ p.length = ds.length ∧ v = vecOf ds p ∧ o = ofsOf ds p := by
  unfold InSpace at ho
  unfold vecPoint vecOf ofsOf
  induction ds generalizing v o p with
  | nil =>
    have : v = [] := by simpa using hv
    subst this
    have : o = [] := by simpa using ho
    subst this
    cases p <;> simp
  | cons d ds ih =>
    match v, hv, o, ho with
    | a :: v, hv, c :: o, ho =>
      simp only [List.map_cons, List.forall₂_cons] at ho
      have hd := h d List.mem_cons_self
      have := ih (fun d hd => h d (List.mem_cons_of_mem _ hd)) v o
      cases p with
      | nil => simp
      | cons x p =>
        have := this p (by simpa using hv) ho.2
        simp only [List.zip_cons_cons, List.zipWith_cons_cons, List.cons.injEq, List.length_cons,
          Nat.add_right_cancel_iff]
        rw [this]
        have key : a * d.fold + c + d.rofs = x ↔ a = (x - d.rofs) / d.fold ∧ c = (x - d.rofs) % d.fold := by
          constructor
          · rintro rfl
            have e : a * d.fold + c + d.rofs - d.rofs = c + d.fold * a := by ring
            rw [e, Int.add_mul_ediv_left _ _ (by omega), Int.add_mul_emod_self_left,
              Int.ediv_eq_zero_of_lt ho.1.1 ho.1.2, Int.emod_eq_of_lt ho.1.1 ho.1.2]
            omega
          · rintro ⟨rfl, rfl⟩
            have := Int.ediv_mul_add_emod (x - d.rofs) d.fold
            omega
        rw [key]
        tauto

theorem inBox_length {v : List Int} {bx : Box} (h : InBox v bx) : v.length = bx.length := h.length_eq

/-- The points written by masked vectors over a box of vectors. -/
theorem calcVectors_spec (f : LoopFeat) (fi : Bool) (ds : List NanoDim) (bx : Box) (mask : BitVec 64)
    (hlen : bx.length = ds.length) (hfold : ∀ d ∈ ds, 0 < d.fold)
    (hf : ∃ f', adjFeatures f ds.length = some f') (h : ∀ x ∈ ds.zip bx, LoopOk x.1 x.2) :
    ∃ l, calcVectors f fi ds bx mask = some l ∧
      ∀ p, l.count p = if p.length = ds.length ∧ InBox (vecOf ds p) bx ∧
        mask.getLsbD (layoutVals fi (ds.map NanoDim.fold) (ofsOf ds p)) = true then 1 else 0 := by
  unfold calcVectors
  by_cases hm : mask = 0#64
  · subst hm
    refine ⟨[], by simp, fun p => ?_⟩
    simp
  rw [if_neg hm]
  obtain ⟨vecs, hv, hc⟩ := calcVecs_spec f ds bx hlen hf h
  rw [hv]
  refine ⟨_, rfl, fun p => ?_⟩
  have hpos : ∀ d ∈ ds.map NanoDim.fold, 0 < d := by
    intro d hd
    obtain ⟨n, hn, rfl⟩ := List.mem_map.1 hd
    exact hfold n hn
  have hvl : ∀ v ∈ vecs, v.length = ds.length := by
    intro v hvm
    have := List.count_pos_iff.2 hvm
    rw [hc v] at this
    split at this
    · next hb => rw [hb.length_eq, hlen]
    · omega
  set sizes := ds.map NanoDim.fold with hsizes
  rw [List.count, countP_flatMap_eq vecs _ (· == p)
    (fun v => decide (v = vecOf ds p ∧ p.length = ds.length ∧
      mask.getLsbD (layoutVals fi sizes (ofsOf ds p)) = true))]
  · by_cases hp : p.length = ds.length ∧ mask.getLsbD (layoutVals fi sizes (ofsOf ds p)) = true
    · have e : (fun v => decide (v = vecOf ds p ∧ p.length = ds.length ∧
          mask.getLsbD (layoutVals fi sizes (ofsOf ds p)) = true)) = (· == vecOf ds p) := by
        funext v
        rw [decide_eq_decide.2 (show _ ↔ v = vecOf ds p by tauto), beq_eq_decide]
      rw [e]
      have := hc (vecOf ds p)
      rw [List.count] at this
      rw [this]
      by_cases hb : InBox (vecOf ds p) bx
      · rw [if_pos hb, if_pos ⟨hp.1, hb, hp.2⟩]
      · rw [if_neg hb, if_neg (fun h => hb h.2.1)]
    · rw [if_neg (fun h => hp ⟨h.1, h.2.2⟩), List.countP_eq_zero]
      intro v _
      simp only [decide_eq_true_eq]
      tauto
  · intro v hvm
    rw [List.countP_filterMap]
    have hq := countP_unique (List.range (prodVals sizes).toNat) List.nodup_range
      (fun i => mask.getLsbD i && decide (vecPoint ds v (unlayoutVals fi sizes i) = p))
      (v = vecOf ds p ∧ p.length = ds.length ∧
        mask.getLsbD (layoutVals fi sizes (ofsOf ds p)) = true)
      (by
        rintro ⟨h1, h2, h3⟩
        have hin := ofsOf_inSpace ds hfold p h2
        refine ⟨layoutVals fi sizes (ofsOf ds p), ?_, ?_⟩
        · rw [List.mem_range]
          have := layout_lt fi sizes _ hin
          omega
        · rw [h3, unlayout_layout _ _ _ hin,
            (vecPoint_eq_iff ds hfold v _ p (hvl v hvm) hin).2 ⟨h2, h1, rfl⟩]
          simp)
      (by
        intro a ha b hb ha' hb'
        simp only [Bool.and_eq_true, decide_eq_true_eq] at ha' hb'
        rw [List.mem_range] at ha hb
        have h1 := (vecPoint_eq_iff ds hfold v _ p (hvl v hvm) (unlayout_inSpace fi sizes hpos a)).1 ha'.2
        have h2 := (vecPoint_eq_iff ds hfold v _ p (hvl v hvm) (unlayout_inSpace fi sizes hpos b)).1 hb'.2
        rw [← layout_unlayout fi sizes hpos a (by omega), h1.2.2, ← h2.2.2,
          layout_unlayout fi sizes hpos b (by omega)])
      (by
        intro a ha ha'
        simp only [Bool.and_eq_true, decide_eq_true_eq] at ha'
        rw [List.mem_range] at ha
        have h1 := (vecPoint_eq_iff ds hfold v _ p (hvl v hvm) (unlayout_inSpace fi sizes hpos a)).1 ha'.2
        refine ⟨h1.2.1, h1.1, ?_⟩
        rw [← h1.2.2, layout_unlayout fi sizes hpos a (by omega)]
        exact ha'.1)
    have e : (fun (i : Nat) => (Option.map (fun x => x == p)
        (if mask.getLsbD i = true then some (vecPoint ds v (unlayoutVals fi sizes i)) else none)).getD false) =
        (fun i => mask.getLsbD i && decide (vecPoint ds v (unlayoutVals fi sizes i) = p)) := by
      funext i
      by_cases h : mask.getLsbD i = true
      · simp only [h, if_true, Option.map_some, Option.getD_some, Bool.true_and, beq_eq_decide]
      · simp only [h]; simp
    rw [show (List.range (prodVals sizes).toNat).countP _ = _ from by rw [e], hq]
    simp

end Yask.Nano
