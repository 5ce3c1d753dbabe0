import Verif.Var.VecSliceLemmas

/-! Helper lemmas: the vectors of a slice in a var. -/

namespace Yask.Var
open Spec

variable {V : Type}

theorem relVec_inj {st : Bool} {R : List Int} {ip : Nat} (hip : ip < R.length) (hpos : ∀ d ∈ R, 0 < d)
    {t t' : Nat × Nat × Nat} (ht : t ∈ triples (numK st R) (numC st R ip) (numI st R ip))
    (ht' : t' ∈ triples (numK st R) (numC st R ip) (numI st R ip))
    (h : relVec st R ip t = relVec st R ip t') : t = t' := by
  obtain ⟨h1, h2, h3⟩ := mem_triples.1 ht
  obtain ⟨h1', h2', h3'⟩ := mem_triples.1 ht'
  obtain ⟨k, c, i⟩ := t
  obtain ⟨k', c', i'⟩ := t'
  simp only at h1 h2 h3 h1' h2' h3'
  set R2 := (stepRange st R).set ip 1 with hR2
  have hp2 := set_pos (stepRange_pos (st := st) hpos) ip
  rw [← hR2] at hp2
  have hR2l : R2.length = R.length := by rw [hR2, List.length_set, stepRange_length]
  have hin := inSpace_iff.1 (unlayout_inSpace false _ hp2 c)
  have hin' := inSpace_iff.1 (unlayout_inSpace false _ hp2 c')
  have hl := relVec_length (st := st) (ip := ip) hpos (k, c, i)
  have hl' := relVec_length (st := st) (ip := ip) hpos (k', c', i')
  have el : ∀ j (hj : j < R.length), (relVec st R ip (k, c, i))[j]'(by omega) =
      (relVec st R ip (k', c', i'))[j]'(by omega) := by
    intro j hj
    simp only [h]
  -- sizes of the special dimensions
  have hR2ip : R2[ip]'(by omega) = 1 := by simp [hR2]
  have hR20 : st = true → R2[0]'(by omega) = 1 := by
    intro e
    simp only [hR2, stepRange, e, if_true, List.getElem_set]
    split <;> simp
  have hI0 : st = true → ip = 0 → numI st R ip = 1 := by
    intro e e'
    subst e'
    simp only [numI, stepRange, e, if_true]
    rw [List.getD_eq_getElem?_getD, List.getElem?_eq_getElem (by simpa using hip)]
    simp
  have hK : st = false → numK st R = 1 := by intro e; simp [numK, e]
  have ec : c = c' := by
    have : unlayoutVals false R2 c = unlayoutVals false R2 c' := by
      apply List.ext_getElem (by omega)
      intro j hj hj'
      have b1 := hin.2 j hj (by omega)
      have b2 := hin'.2 j hj' (by omega)
      by_cases e : ip = j
      · subst e; rw [hR2ip] at b1 b2; omega
      · by_cases e0 : st = true ∧ 0 = j
        · obtain ⟨e1, e2⟩ := e0
          subst e2
          rw [hR20 e1] at b1 b2; omega
        · have := el j (by omega)
          simp only [relVec, ← hR2] at this
          cases st with
          | false =>
            simp only [Bool.false_eq_true, if_false, List.getElem_set, e] at this
            exact this
          | true =>
            simp only [if_true, List.getElem_set, e, if_false] at this
            simp only [true_and] at e0
            simp only [e0, if_false] at this
            exact this
    have e1 := layout_unlayout false R2 hp2 c (by unfold numC at h2; rw [← hR2] at h2; omega)
    have e2 := layout_unlayout false R2 hp2 c' (by unfold numC at h2'; rw [← hR2] at h2'; omega)
    rw [this, e2] at e1
    exact e1.symm
  have ek : k = k' := by
    cases hst : st with
    | false => rw [hK hst] at h1 h1'; omega
    | true =>
      have := el 0 (by omega)
      simp only [relVec, hst, if_true, List.getElem_set] at this
      exact_mod_cast this
  have ei : i = i' := by
    by_cases e : st = true ∧ ip = 0
    · rw [hI0 e.1 e.2] at h3 h3'; omega
    · have := el ip hip
      simp only [relVec] at this
      cases hst : st with
      | false =>
        simp only [hst, Bool.false_eq_true, if_false, List.getElem_set, if_true] at this
        exact_mod_cast this
      | true =>
        have hne : ¬ 0 = ip := fun h => e ⟨hst, h.symm⟩
        simp only [hst, if_true, List.getElem_set, hne, if_false] at this
        exact_mod_cast this
  rw [ek, ec, ei]

/-- Vectors per dimension of a slice. -/
def vecSizes (vls first last : List Int) : List Int :=
  List.zipWith (fun s v => s / v) (sliceSizes first last) vls

/-- Vector of an element relative to the first one of the slice. -/
def relOf (vls first x : List Int) : List Int :=
  List.zipWith (fun s v => s / v) (List.zipWith (fun i f => i - f) x first) vls

/-- A slice of whole vectors. -/
def Aligned (g : Geom) (first last : List Int) : Prop :=
  ∀ x ∈ g.dims.zip (first.zip last), x.1.kind = .domain →
    x.1.varVL ∣ x.2.1 - x.1.rankOfs ∧ x.1.varVL ∣ x.2.2 + 1 - x.1.rankOfs

/-- Normalised indices are relative to the first misc index that was set at construction. -/
def MiscPlain (g : Geom) : Prop := ∀ d ∈ g.dims, d.kind = .misc → d.vecLocalOfs = d.localOfs

/-- The facts about one var and an aligned slice of it. -/
structure VecOk (g : Geom) (first last : List Int) : Prop where
  ok : g.Ok
  hf : InRangeButStep g.api first
  hl : InRangeButStep g.api last
  ne : SliceNonempty first last
  al : Aligned g first last
  misc : MiscPlain g
  steps : StepsAlloc g.api

theorem VecOk.flen {g : Geom} {first last : List Int} (h : VecOk g first last) :
    first.length = g.dims.length := inRangeButStep_length h.hf

theorem VecOk.llen {g : Geom} {first last : List Int} (h : VecOk g first last) :
    last.length = g.dims.length := inRangeButStep_length h.hl

theorem VecOk.dim {g : Geom} {first last : List Int} (h : VecOk g first last) {j : Nat}
    (hj : j < g.dims.length) :
    first[j]'(by rw [h.flen]; exact hj) ≤ last[j]'(by rw [h.llen]; exact hj) ∧
    (g.dims[j]).Ok g.isVec ∧
    ((g.dims[j]).kind = .domain → (g.dims[j]).varVL ∣ first[j]'(by rw [h.flen]; exact hj) - (g.dims[j]).rankOfs ∧
      (g.dims[j]).varVL ∣ last[j]'(by rw [h.llen]; exact hj) + 1 - (g.dims[j]).rankOfs) ∧
    ((g.dims[j]).kind ≠ .domain → (g.dims[j]).varVL = 1) := by
  have hfl := h.flen
  have hll := h.llen
  have hok := h.ok.dims _ (List.getElem_mem hj)
  refine ⟨(List.forall₂_iff_get.1 h.ne).2 j (by omega) (by omega), hok, fun hk => ?_, fun hk => ?_⟩
  · have hm : (g.dims[j], (first[j]'(by omega), last[j]'(by omega))) ∈ g.dims.zip (first.zip last) := by
      rw [List.mem_iff_getElem]
      exact ⟨j, by simp only [List.length_zip]; omega, by simp⟩
    exact h.al _ hm hk
  · rw [hok.vvl]
    split
    · exact hok.nd_svl hk
    · rfl

/-- Normalised index of the slice. -/
theorem norm_first {g : Geom} {first last : List Int} (h : VecOk g first last) {j : Nat}
    (hj : j < g.dims.length) :
    normDim g.dims[j] (first[j]'(by rw [h.flen]; exact hj)) * (g.dims[j]).varVL =
      first[j]'(by rw [h.flen]; exact hj) - (g.dims[j]).rankOfs ∧
    (normDim g.dims[j] (last[j]'(by rw [h.llen]; exact hj)) + 1) * (g.dims[j]).varVL =
      last[j]'(by rw [h.llen]; exact hj) + 1 - (g.dims[j]).rankOfs := by
  obtain ⟨h1, h2, h3, h4⟩ := h.dim hj
  have hv := h2.vvl_pos
  generalize first[j]'(by rw [h.flen]; exact hj) = f at *
  generalize last[j]'(by rw [h.llen]; exact hj) = l at *
  generalize g.dims[j] = d at *
  unfold normDim
  by_cases hk : d.kind = .domain
  · obtain ⟨a1, a2⟩ := h3 hk
    rw [if_pos hk, if_pos hk, idivFlr_eq _ _ hv, idivFlr_eq _ _ hv]
    refine ⟨Int.ediv_mul_cancel a1, ?_⟩
    obtain ⟨c, hc⟩ := a2
    have : l - d.rankOfs = d.varVL * c - 1 := by omega
    rw [this, hc]
    have e : (d.varVL * c - 1) / d.varVL = c - 1 := by
      rw [show d.varVL * c - 1 = (d.varVL - 1) + d.varVL * (c - 1) by ring, Int.add_mul_ediv_left _ _ (by omega),
        Int.ediv_eq_zero_of_lt (by omega) (by omega)]
      omega
    rw [e]; ring
  · rw [if_neg hk, if_neg hk, h4 hk, (h2.nd_halo hk).2.2.2.2]
    omega

theorem zipWith_getElem' {α β γ : Type} (f : α → β → γ) (a : List α) (b : List β) (j : Nat)
    (h : j < (List.zipWith f a b).length) :
    (List.zipWith f a b)[j] = f (a[j]'(by simp at h; omega)) (b[j]'(by simp at h; omega)) := by
  simp

/-- The range of vectors. -/
theorem vecRange_eq {g : Geom} {first last : List Int} (h : VecOk g first last) :
    sliceRange (List.zipWith normDim g.dims first) (List.zipWith normDim g.dims last) =
      vecSizes (g.dims.map DimG.varVL) first last ∧
    (∀ d ∈ vecSizes (g.dims.map DimG.varVL) first last, 0 < d) ∧
    (vecSizes (g.dims.map DimG.varVL) first last).length = g.dims.length := by
  have hfl := h.flen
  have hll := h.llen
  have hlen : (vecSizes (g.dims.map DimG.varVL) first last).length = g.dims.length := by
    simp only [vecSizes, sliceSizes, List.length_zipWith, List.length_map]; omega
  have key : ∀ j (hj : j < g.dims.length),
      normDim g.dims[j] (last[j]'(by omega)) + 1 - normDim g.dims[j] (first[j]'(by omega)) =
        (last[j]'(by omega) + 1 - first[j]'(by omega)) / (g.dims[j]).varVL ∧
      0 < (last[j]'(by omega) + 1 - first[j]'(by omega)) / (g.dims[j]).varVL := by
    intro j hj
    obtain ⟨h1, h2, h3, h4⟩ := h.dim hj
    obtain ⟨n1, n2⟩ := norm_first h hj
    have hv := h2.vvl_pos
    have e : last[j]'(by omega) + 1 - first[j]'(by omega) =
        (normDim g.dims[j] (last[j]'(by omega)) + 1 - normDim g.dims[j] (first[j]'(by omega))) *
          (g.dims[j]).varVL := by
      rw [Int.sub_mul, n1, n2]; omega
    rw [e, Int.mul_ediv_cancel _ (by omega)]
    refine ⟨rfl, ?_⟩
    by_contra hc
    have := Int.mul_le_mul_of_nonneg_right (Int.not_lt.mp hc) hv.le
    omega
  refine ⟨?_, ?_, hlen⟩
  · apply List.ext_getElem
    · rw [hlen]; simp only [sliceRange, List.length_zipWith]; omega
    · intro j hj hj'
      have := key j (by omega)
      simp only [sliceRange, vecSizes, sliceSizes, zipWith_getElem', List.getElem_map]
      rw [this.1]; omega
  · intro d hd
    obtain ⟨j, hj, rfl⟩ := List.getElem_of_mem hd
    have := key j (by omega)
    simp only [vecSizes, sliceSizes, zipWith_getElem', List.getElem_map]
    exact this.2

theorem inSlice_iff_get {first last x : List Int} :
    InSlice first last x ↔ x.length = min first.length last.length ∧
      ∀ j (h : j < x.length) (h1 : j < first.length) (h2 : j < last.length), first[j] ≤ x[j] ∧ x[j] ≤ last[j] := by
  unfold InSlice
  rw [List.forall₂_iff_get]
  constructor
  · rintro ⟨h1, h2⟩
    refine ⟨by rw [h1, List.length_zip], fun j h a b => ?_⟩
    have := h2 j h (by rw [List.length_zip]; omega)
    simpa using this
  · rintro ⟨h1, h2⟩
    refine ⟨by rw [h1, List.length_zip], fun j h a => ?_⟩
    have := h2 j h (by rw [List.length_zip] at a; omega) (by rw [List.length_zip] at a; omega)
    simpa using this

/-- The vector of an element of the slice is in the range. -/
theorem relOf_inSpace {g : Geom} {first last x : List Int} (h : VecOk g first last)
    (hx : InSlice first last x) :
    InSpace (vecSizes (g.dims.map DimG.varVL) first last) (relOf (g.dims.map DimG.varVL) first x) := by
  have hfl := h.flen
  have hll := h.llen
  obtain ⟨hxl, hx⟩ := inSlice_iff_get.1 hx
  rw [inSpace_iff]
  refine ⟨?_, ?_⟩
  · simp only [relOf, vecSizes, sliceSizes, List.length_zipWith, List.length_map]; omega
  · intro j hj hj'
    have hjn : j < g.dims.length := by
      simp only [relOf, List.length_zipWith, List.length_map] at hj; omega
    obtain ⟨h1, h2, h3, h4⟩ := h.dim hjn
    obtain ⟨n1, n2⟩ := norm_first h hjn
    have hv := h2.vvl_pos
    have hxj := hx j (by omega) (by omega) (by omega)
    simp only [relOf, vecSizes, sliceSizes, zipWith_getElem', List.getElem_map]
    refine ⟨Int.ediv_nonneg (by omega) hv.le, ?_⟩
    have e : last[j]'(by omega) + 1 - first[j]'(by omega) =
        (normDim g.dims[j] (last[j]'(by omega)) + 1 - normDim g.dims[j] (first[j]'(by omega))) *
          (g.dims[j]).varVL := by
      rw [Int.sub_mul, n1, n2]; omega
    rw [e, Int.mul_ediv_cancel _ (by omega)]
    apply Int.ediv_lt_of_lt_mul hv
    rw [← e]; omega

theorem hasStep_iff {g : Geom} (hok : g.Ok) {j : Nat} (hj : j < g.dims.length) :
    (g.dims[j]).kind = .step ↔ (g.hasStep = true ∧ j = 0) := by
  have hsf := hok.stepFirst
  clear hok
  obtain ⟨dims, _, _, _, _, _, _, _, _, _⟩ := g
  cases dims with
  | nil => simp at hj
  | cons d ds =>
    simp only [List.tail_cons] at hsf
    simp only [Geom.hasStep]
    cases j with
    | zero => simp
    | succ j =>
      simp only [List.getElem_cons_succ, Nat.succ_ne_zero, and_false, iff_false]
      apply hsf
      exact List.getElem_mem _

theorem stepSize_eq {g : Geom} (h : 0 < g.dims.length) : g.stepSize = (g.dims[0]).domain := by
  obtain ⟨dims, _, _, _, _, _, _, _, _, _⟩ := g
  cases dims with
  | nil => simp at h
  | cons d ds => rfl

/-- Slot of the step of a copy. -/
def Geom.slotOf (g : Geom) (ft : Int) (k : Nat) : Int := if g.hasStep then (ft + k) % g.stepSize else 0

/-- First vector of a step. -/
def Geom.firstOf (g : Geom) (nf : List Int) (k : Nat) : List Int :=
  if g.hasStep then nf.set 0 (nf.getD 0 0 + k) else nf

/-- The vector that is copied. -/
theorem adj_eq {g : Geom} {first last x : List Int} (h : VecOk g first last) (hx : InSlice first last x)
    {ip : Nat} (hip : ip < g.dims.length) {t : Nat × Nat × Nat}
    (hrel : relVec g.hasStep (vecSizes (g.dims.map DimG.varVL) first last) ip t =
      relOf (g.dims.map DimG.varVL) first x) :
    List.zipWith (adjNorm (g.slotOf (first.getD 0 0) t.1)) g.dims
      (List.zipWith (· + ·) (g.firstOf (List.zipWith normDim g.dims first) t.1)
        ((unlayoutVals false ((stepRange g.hasStep (vecSizes (g.dims.map DimG.varVL) first last)).set ip 1)
          t.2.1).set ip (t.2.2 : Int))) = vecIdxOf g.dims (slots g.dims x) := by
  have hfl := h.flen
  have hll := h.llen
  obtain ⟨-, hpos, hRl⟩ := vecRange_eq h
  obtain ⟨hxl, hx⟩ := inSlice_iff_get.1 hx
  have hul := (inSpace_nonneg (unlayout_inSpace false _
    (set_pos (stepRange_pos (st := g.hasStep) hpos) ip) t.2.1)).2.2
  rw [List.length_set, stepRange_length, hRl] at hul
  have hfol : (g.firstOf (List.zipWith normDim g.dims first) t.1).length = g.dims.length := by
    unfold Geom.firstOf
    split <;> simp <;> omega
  have hrl := relVec_length (st := g.hasStep) (ip := ip) hpos t
  apply List.ext_getElem
  · simp only [vecIdxOf, slots, List.length_zipWith, List.length_set, hul, hfol]; omega
  · intro j hj hj'
    have hjn : j < g.dims.length := by simp only [List.length_zipWith] at hj; omega
    have hrj : (relVec g.hasStep (vecSizes (g.dims.map DimG.varVL) first last) ip t)[j]'(by omega) =
        (x[j]'(by omega) - first[j]'(by omega)) / (g.dims[j]).varVL := by
      simp only [hrel, relOf, zipWith_getElem', List.getElem_map]
    obtain ⟨h1, h2, h3, h4⟩ := h.dim hjn
    obtain ⟨n1, n2⟩ := norm_first h hjn
    have hv := h2.vvl_pos
    simp only [vecIdxOf, slots, zipWith_getElem']
    have hst := hasStep_iff h.ok hjn
    by_cases hk : (g.dims[j]).kind = .step
    · obtain ⟨hs, hj0⟩ := hst.1 hk
      subst hj0
      have hv1 : (g.dims[0]).varVL = 1 := h4 (by rw [hk]; decide)
      have hssz : g.stepSize = (g.dims[0]).domain := by
        exact stepSize_eq hjn
      simp only [relVec, hs, if_true, List.getElem_set] at hrj
      rw [hv1, Int.ediv_one] at hrj
      simp only [adjNorm, hk, if_true, DimG.slot, Geom.slotOf, hs, hv1, Int.ediv_one, hssz]
      rw [hrj, List.getD_eq_getElem?_getD, List.getElem?_eq_getElem (by omega), Option.getD_some]
      congr 1; omega
    · simp only [adjNorm, hk, if_false, DimG.slot]
      have hu : ((unlayoutVals false ((stepRange g.hasStep
          (vecSizes (g.dims.map DimG.varVL) first last)).set ip 1) t.2.1).set ip (t.2.2 : Int))[j]'(by
            rw [List.length_set]; omega) = (x[j]'(by omega) - first[j]'(by omega)) / (g.dims[j]).varVL := by
        rw [← hrj]
        unfold relVec
        by_cases hs : g.hasStep = true
        · have : ¬ 0 = j := fun e => hk (hst.2 ⟨hs, e.symm⟩)
          simp only [hs, if_true]
          rw [List.getElem_set_ne (h := this)]
        · simp only [hs, if_false]; rfl
      have hfo : (g.firstOf (List.zipWith normDim g.dims first) t.1)[j]'(by omega) =
          normDim g.dims[j] (first[j]'(by omega)) := by
        unfold Geom.firstOf
        by_cases hs : g.hasStep = true
        · have : ¬ 0 = j := fun e => hk (hst.2 ⟨hs, e.symm⟩)
          simp only [hs, if_true]
          rw [List.getElem_set_ne (h := this), zipWith_getElem']
        · simp only [hs]
          simp
      rw [hu, hfo]
      have hloc : (g.dims[j]).vecLocalOfs * (g.dims[j]).varVL = (g.dims[j]).localOfs := by
        by_cases hd : (g.dims[j]).kind = .domain
        · exact h2.vlocal hd
        · rw [h4 hd, Int.mul_one]
          apply h.misc _ (List.getElem_mem hjn)
          cases hkk : (g.dims[j]).kind
          · exact absurd hkk hk
          · exact absurd hkk hd
          · rfl
      have hlp := h2.vlpad
      have e : x[j]'(by omega) + (g.dims[j]).lPad - ((g.dims[j]).rankOfs + (g.dims[j]).localOfs) =
          (x[j]'(by omega) - first[j]'(by omega)) +
            (normDim g.dims[j] (first[j]'(by omega)) + (g.dims[j]).vecLPad - (g.dims[j]).vecLocalOfs) *
              (g.dims[j]).varVL := by
        rw [Int.sub_mul, Int.add_mul, n1, hlp, hloc]; omega
      rw [e, Int.add_mul_ediv_right _ _ (by omega)]
      omega

/-- Number of the vector in the storage. -/
theorem vecPtr_eq {g : Geom} {first last x : List Int} (h : VecOk g first last) (hx : InSlice first last x)
    {ip : Nat} (hip : ip < g.dims.length) {t : Nat × Nat × Nat}
    (ht : t.2.2 < numI g.hasStep (vecSizes (g.dims.map DimG.varVL) first last) ip)
    (hrel : relVec g.hasStep (vecSizes (g.dims.map DimG.varVL) first last) ip t =
      relOf (g.dims.map DimG.varVL) first x) :
    g.vecPtrNorm (List.zipWith (· + ·) (g.firstOf (List.zipWith normDim g.dims first) t.1)
      (unlayoutVals false ((stepRange g.hasStep (vecSizes (g.dims.map DimG.varVL) first last)).set ip 1)
          t.2.1)) (g.slotOf (first.getD 0 0) t.1) + t.2.2 * g.vecStride ip =
      layoutPerm g.layout g.vecAllocs (vecIdxOf g.dims (slots g.dims x)) := by
  have hfl := h.flen
  obtain ⟨-, hpos, hRl⟩ := vecRange_eq h
  rw [← adj_eq h hx hip hrel]
  have hin := unlayout_inSpace false _ (set_pos (stepRange_pos (st := g.hasStep) hpos) ip) t.2.1
  have hul := (inSpace_nonneg hin).2.2
  rw [List.length_set, stepRange_length, hRl] at hul
  have hfol : (g.firstOf (List.zipWith normDim g.dims first) t.1).length = g.dims.length := by
    unfold Geom.firstOf
    split <;> simp <;> omega
  have hu0 : (unlayoutVals false ((stepRange g.hasStep (vecSizes (g.dims.map DimG.varVL) first last)).set ip 1)
      t.2.1).getD ip 0 = 0 := by
    rw [List.getD_eq_getElem?_getD, List.getElem?_eq_getElem (by omega), Option.getD_some]
    have := (inSpace_iff.1 hin).2 ip (by omega) (by rw [List.length_set, stepRange_length, hRl]; omega)
    rw [List.getElem_set_self] at this
    omega
  clear hin hrel
  generalize hU : unlayoutVals false ((stepRange g.hasStep (vecSizes (g.dims.map DimG.varVL) first last)).set ip 1)
      t.2.1 = U at *
  generalize g.firstOf (List.zipWith normDim g.dims first) t.1 = F at *
  generalize g.slotOf (first.getD 0 0) t.1 = ti
  have hu0 : U[ip]'(by omega) = 0 := by
    rw [List.getD_eq_getElem?_getD, List.getElem?_eq_getElem (by omega), Option.getD_some] at hu0
    exact hu0
  unfold Geom.vecPtrNorm
  by_cases hk : (g.dims[ip]).kind = .step
  · obtain ⟨hs, hip0⟩ := (hasStep_iff h.ok hip).1 hk
    have hi : t.2.2 = 0 := by
      subst hip0
      unfold numI stepRange at ht
      rw [hs] at ht
      simp only [if_true] at ht
      rw [List.getD_eq_getElem?_getD, List.getElem?_eq_getElem (by simp; omega)] at ht
      simp at ht
      omega
    rw [hi]
    simp only [Int.natCast_zero, Int.zero_mul, Int.add_zero]
    congr 1
    rw [show U.set ip 0 = U from by rw [← hu0, List.set_getElem_self]]
  · have hlen : (List.zipWith (adjNorm ti) g.dims (List.zipWith (· + ·) F U)).length = g.dims.length := by
      simp only [List.length_zipWith]; omega
    have hz : (List.zipWith (adjNorm ti) g.dims (List.zipWith (· + ·) F U)).map (fun _ => (0 : Int)) =
        g.dims.map fun _ => (0 : Int) := by
      apply List.ext_getElem (by simp [hlen]; omega)
      intro j _ _; simp
    have e := layoutPerm_step g.layout g.vecAllocs
      (List.zipWith (adjNorm ti) g.dims (List.zipWith (· + ·) F U)) ip (by omega) (t.2.2 : Int)
    rw [hz] at e
    unfold Geom.vecStride
    rw [← e]
    congr 1
    apply List.ext_getElem (by simp)
    intro j hj hj'
    simp only [List.length_set] at hj
    simp only [List.getElem_set, zipWith_getElem']
    by_cases ej : ip = j
    · subst ej
      simp only [if_true]
      rw [List.getD_eq_getElem?_getD, List.getElem?_eq_getElem (by omega), Option.getD_some]
      simp only [zipWith_getElem', adjNorm, hk, if_false, hu0]
      omega
    · simp only [ej, if_false]

/-- The lane-zero element of each copy. -/
theorem exists_elem {g : Geom} {first last : List Int} (h : VecOk g first last)
    {q : List Int} (hq : InSpace (vecSizes (g.dims.map DimG.varVL) first last) q) :
    ∃ x, InSlice first last x ∧ relOf (g.dims.map DimG.varVL) first x = q ∧
      vecOfsOf g.dims (slots g.dims x) = g.dims.map fun _ => (0 : Int) := by
  have hfl := h.flen
  have hll := h.llen
  obtain ⟨-, hpos, hRl⟩ := vecRange_eq h
  obtain ⟨hql, hq⟩ := inSpace_iff.1 hq
  rw [hRl] at hql
  let x := List.zipWith (fun f (p : Int × Int) => f + p.1 * p.2) first (q.zip (g.dims.map DimG.varVL))
  have hxl : x.length = g.dims.length := by simp [x]; omega
  have hxj : ∀ j (hj : j < g.dims.length), x[j]'(by omega) =
      first[j]'(by omega) + q[j]'(by omega) * (g.dims[j]).varVL := by
    intro j hj; simp [x]
  refine ⟨x, ?_, ?_, ?_⟩
  · rw [inSlice_iff_get]
    refine ⟨by omega, fun j hj h1 h2 => ?_⟩
    have hjn : j < g.dims.length := by omega
    have b := hq j (by omega) (by omega)
    obtain ⟨h1, h2, h3, h4⟩ := h.dim hjn
    obtain ⟨n1, n2⟩ := norm_first h hjn
    have hv := h2.vvl_pos
    simp only [vecSizes, sliceSizes, zipWith_getElem', List.getElem_map] at b
    rw [hxj j hjn]
    have e := Int.mul_ediv_add_emod (last[j]'(by omega) + 1 - first[j]'(by omega)) (g.dims[j]).varVL
    have e2 := Int.emod_nonneg (last[j]'(by omega) + 1 - first[j]'(by omega)) (b := (g.dims[j]).varVL) (by omega)
    have c1 : 0 ≤ q[j]'(by omega) * (g.dims[j]).varVL := Int.mul_nonneg b.1 hv.le
    have c2 : (q[j]'(by omega) + 1) * (g.dims[j]).varVL ≤
        (last[j]'(by omega) + 1 - first[j]'(by omega)) / (g.dims[j]).varVL * (g.dims[j]).varVL :=
      Int.mul_le_mul_of_nonneg_right (by omega) hv.le
    rw [Int.add_mul, Int.mul_comm ((last[j]'(by omega) + 1 - first[j]'(by omega)) / (g.dims[j]).varVL)] at c2
    omega
  · apply List.ext_getElem
    · simp only [relOf, List.length_zipWith, List.length_map]; omega
    · intro j hj hj'
      have hjn : j < g.dims.length := by omega
      have hv := (h.dim hjn).2.1.vvl_pos
      simp only [relOf, zipWith_getElem', List.getElem_map]
      rw [hxj j hjn, show ∀ a b : Int, a + b - a = b from fun a b => by omega,
        Int.mul_ediv_cancel _ (by omega)]
  · apply List.ext_getElem
    · simp only [vecOfsOf, slots, List.length_zipWith, List.length_map]; omega
    · intro j hj hj'
      have hjn : j < g.dims.length := by simpa using hj'
      obtain ⟨h1, h2, h3, h4⟩ := h.dim hjn
      obtain ⟨n1, n2⟩ := norm_first h hjn
      have hv := h2.vvl_pos
      simp only [vecOfsOf, slots, zipWith_getElem', List.getElem_map]
      by_cases hd : (g.dims[j]).kind = .domain
      · have hk : ¬ (g.dims[j]).kind = .step := by rw [hd]; decide
        simp only [DimG.slot, hk, if_false]
        rw [hxj j hjn]
        have hloc := h2.vlocal hd
        have hlp := h2.vlpad
        have e : first[j]'(by omega) + q[j]'(by omega) * (g.dims[j]).varVL + (g.dims[j]).lPad -
            ((g.dims[j]).rankOfs + (g.dims[j]).localOfs) =
            (q[j]'(by omega) + normDim g.dims[j] (first[j]'(by omega)) + (g.dims[j]).vecLPad -
              (g.dims[j]).vecLocalOfs) * (g.dims[j]).varVL := by
          rw [Int.sub_mul, Int.add_mul, Int.add_mul, n1, hlp, hloc]; omega
        rw [e, Int.mul_emod_left]
      · rw [h4 hd, Int.emod_one]

end Yask.Var
