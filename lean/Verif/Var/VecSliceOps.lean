import Verif.Var.VecSliceGeom

/-! Helper lemmas: effect of the vector-wise slice copies. -/

namespace Yask.Var
open Spec

variable {V : Type}

theorem checkIndices_norm (g : Geom) (idx : List Int) (h : InRangeButStep g.api idx) :
    g.checkIndices idx true false true = .ok (true, List.zipWith normDim g.dims idx) := by
  have hl := inRangeButStep_length h
  have ha := (checkIndices_all g false idx hl).2 (by simpa [Readable] using h)
  unfold Geom.checkIndices
  rw [if_neg (by omega)]
  simp only [ha, Bool.not_true, Bool.and_false, Bool.false_eq_true, if_false, if_true,
    checkIndices_clip _ _ _ _ hl ha]

/-- The vector copied by `t`. -/
def Geom.vecOf (g : Geom) (first last : List Int) (ip : Nat) (t : Nat × Nat × Nat) : Int :=
  g.vecPtrNorm (List.zipWith (· + ·) (g.firstOf (List.zipWith normDim g.dims first) t.1)
      (unlayoutVals false ((stepRange g.hasStep (vecSizes (g.dims.map DimG.varVL) first last)).set ip 1)
          t.2.1)) (g.slotOf (first.getD 0 0) t.1) + t.2.2 * g.vecStride ip

theorem flatMap_perm_left {α β : Type} {l l' : List α} (h : l.Perm l') (f : α → List β) :
    (l.flatMap f).Perm (l'.flatMap f) := h.flatMap_right f

theorem copyVecs_eq {σ : Type} {g : Geom} {first last : List Int} (h : VecOk g first last) (m : Int → V)
    (env : VecEnv) (hn : 0 < env.nthr) (hord : ∀ l, (env.order l).Perm l) (lp : Option Nat) (same : Bool)
    (hip : g.innerPosn lp same < g.dims.length) (body : σ → Int × Int → Outcome σ) (s : σ) :
    ∃ L : List (Int × Int), L.Perm
      ((triples (numK g.hasStep (vecSizes (g.dims.map DimG.varVL) first last))
        (numC g.hasStep (vecSizes (g.dims.map DimG.varVL) first last) (g.innerPosn lp same))
        (numI g.hasStep (vecSizes (g.dims.map DimG.varVL) first last) (g.innerPosn lp same))).map fun t =>
          (g.vecOf first last (g.innerPosn lp same) t,
            (triPos (numC g.hasStep (vecSizes (g.dims.map DimG.varVL) first last) (g.innerPosn lp same))
              (numI g.hasStep (vecSizes (g.dims.map DimG.varVL) first last) (g.innerPosn lp same)) t : Int))) ∧
      copyVecs (⟨g, some m⟩ : YVar V) env lp same first last body s =
        (L.foldlM body s >>= fun s =>
          pure (s, prodVals (vecSizes (g.dims.map DimG.varVL) first last) * g.elemReals)) := by
  have hfl := h.flen
  have hll := h.llen
  obtain ⟨hR, hpos, hRl⟩ := vecRange_eq h
  generalize hip' : g.innerPosn lp same = ip at *
  unfold copyVecs
  simp only [Option.isNone_some, Bool.false_eq_true, if_false]
  rw [checkIndices_norm g first h.hf, checkIndices_norm g last h.hl]
  simp only [Outcome.bind_ok]
  rw [hR, if_neg (by have := prodVals_pos _ hpos; omega), hip', if_neg (by omega)]
  have hRR : (if g.hasStep then (vecSizes (g.dims.map DimG.varVL) first last).set 0 1
      else vecSizes (g.dims.map DimG.varVL) first last) =
      stepRange g.hasStep (vecSizes (g.dims.map DimG.varVL) first last) := rfl
  rw [hRR]
  set R := vecSizes (g.dims.map DimG.varVL) first last with hRdef
  set nf := List.zipWith normDim g.dims first with hnf
  set nl := List.zipWith normDim g.dims last with hnl
  have hp1 := stepRange_pos (st := g.hasStep) hpos
  have hp2 := set_pos hp1 ip
  obtain ⟨hCI, hKCI⟩ := num_eq (st := g.hasStep) (R := R) (ip := ip) (by omega) hpos
  have hi0 : 0 < (stepRange g.hasStep R).getD ip 0 := by
    rw [List.getD_eq_getElem?_getD, List.getElem?_eq_getElem (by rw [stepRange_length]; omega)]
    exact hp1 _ (List.getElem_mem _)
  have hnI : ((numI g.hasStep R ip : Nat) : Int) = (stepRange g.hasStep R).getD ip 0 := by
    unfold numI; omega
  -- number of steps
  have hnf0 : g.hasStep = true → nf.getD 0 0 = first.getD 0 0 := by
    intro hs
    have h0 : (g.dims[0]'(by omega)).kind = .step := (hasStep_iff h.ok (by omega)).2 ⟨hs, rfl⟩
    rw [List.getD_eq_getElem?_getD, List.getElem?_eq_getElem (by rw [hnf, List.length_zipWith]; omega),
      Option.getD_some, List.getD_eq_getElem?_getD, List.getElem?_eq_getElem (by omega), Option.getD_some]
    simp only [hnf, zipWith_getElem', normDim]
    rw [if_neg (by rw [h0]; decide)]
  have hK : ((if g.hasStep then nl.getD 0 0 else 0) + 1 - (if g.hasStep then nf.getD 0 0 else 0)).toNat =
      numK g.hasStep R := by
    unfold numK
    cases hs : g.hasStep with
    | false => simp
    | true =>
      simp only [if_true]
      rw [← hR]
      simp only [List.getD_eq_getElem?_getD]
      rw [List.getElem?_eq_getElem (l := nl) (by rw [hnl, List.length_zipWith]; omega),
        List.getElem?_eq_getElem (l := nf) (by rw [hnf, List.length_zipWith]; omega),
        List.getElem?_eq_getElem (l := sliceRange nf nl) (by rw [hR]; omega)]
      simp only [Option.getD_some, sliceRange, zipWith_getElem']
      omega
  rw [hK]
  -- copies of one step
  have hstepk : ∀ k, (g.vecStepVisits env (g.firstOf nf k) ((stepRange g.hasStep R).set ip 1)
      ((stepRange g.hasStep R).getD ip 0) (g.vecStride ip) (g.slotOf (first.getD 0 0) k)
      (k * prodVals (stepRange g.hasStep R))).Perm
      ((List.range (numC g.hasStep R ip)).flatMap fun c => (List.range (numI g.hasStep R ip)).map fun i =>
        (g.vecOf first last ip (k, c, i), (triPos (numC g.hasStep R ip) (numI g.hasStep R ip) (k, c, i) : Int))) := by
    intro k
    unfold Geom.vecStepVisits
    have h1 := (C38_visit_parallel env.par env.nthr hn false _ hp2).1
    refine (h1.flatMap_right _).trans (List.Perm.of_eq ?_)
    rw [List.flatMap_map]
    have e : (numPoints ((stepRange g.hasStep R).set ip 1)).toNat = numC g.hasStep R ip := by
      unfold numC; rw [prodVals_eq]; rfl
    rw [e]
    congr 1
    funext c
    simp only
    rw [show ((stepRange g.hasStep R).getD ip 0).toNat = numI g.hasStep R ip from rfl]
    apply List.map_congr_left
    intro i _
    simp only [Geom.vecOf, triPos, Prod.mk.injEq, true_and]
    refine ⟨rfl, ?_⟩
    push_cast
    rw [← hCI, ← hnI]
    push_cast
    rfl
  rw [foldlM_flatMap body (fun k => env.order (g.vecStepVisits env (g.firstOf nf k)
    ((stepRange g.hasStep R).set ip 1)
      ((stepRange g.hasStep R).getD ip 0) (g.vecStride ip) (g.slotOf (first.getD 0 0) k)
      (k * prodVals (stepRange g.hasStep R))))]
  · refine ⟨_, ?_, rfl⟩
    unfold triples
    rw [List.map_flatMap]
    apply perm_flatMap_of
    intro k _
    refine (hord _).trans ((hstepk k).trans (List.Perm.of_eq ?_))
    rw [List.map_flatMap]
    congr 1
    funext c
    rw [List.map_map]
    rfl
  · intro s k _
    cases hs : g.hasStep with
    | false => simp only [Bool.false_eq_true, if_false, Outcome.bind_ok, Geom.firstOf, Geom.slotOf, hs]
    | true =>
      have hz := stepSize_pos h.ok h.steps hs
      simp only [if_true, Geom.wrapStep]
      rw [if_neg (by omega)]
      simp only [Outcome.bind_ok, Geom.firstOf, Geom.slotOf, hs, if_true]
      rw [imodFlr_eq _ _ hz, hnf0 hs]

/-- The copies of an aligned slice, in terms of its elements. -/
theorem vecOf_spec {g : Geom} {first last : List Int} (h : VecOk g first last) {ip : Nat}
    (hip : ip < g.dims.length) {t : Nat × Nat × Nat}
    (ht : t ∈ triples (numK g.hasStep (vecSizes (g.dims.map DimG.varVL) first last))
        (numC g.hasStep (vecSizes (g.dims.map DimG.varVL) first last) ip)
        (numI g.hasStep (vecSizes (g.dims.map DimG.varVL) first last) ip)) :
    (∃ x, InSlice first last x ∧ relOf (g.dims.map DimG.varVL) first x =
        relVec g.hasStep (vecSizes (g.dims.map DimG.varVL) first last) ip t ∧
      g.vecOf first last ip t * g.elemReals = g.addrOfSlots (slots g.dims x)) ∧
    0 ≤ g.vecOf first last ip t ∧ g.vecOf first last ip t < g.numVecs := by
  obtain ⟨-, hpos, hRl⟩ := vecRange_eq h
  obtain ⟨x, hx, hrel, hlane⟩ := exists_elem h (relVec_inSpace (by omega) hpos ht)
  have e := vecPtr_eq h hx hip (mem_triples.1 ht).2.2 hrel.symm
  have hv := inSlice_valid h.hf h.hl hx
  have hsp := slots_inSpace h.ok hv h.steps
  have hvs := vecIdx_inSpace h.ok.dims hsp
  have hr := (C13_layout_value g.layout g.vecAllocs _ (layout_perm_vec h.ok) hvs).2
  have e' : g.vecOf first last ip t = layoutPerm g.layout g.vecAllocs (vecIdxOf g.dims (slots g.dims x)) := e
  refine ⟨⟨x, hx, hrel, ?_⟩, ?_⟩
  · rw [e']
    unfold Geom.addrOfSlots
    rw [hlane]
    have : (g.foldPosns.map fun j => (g.dims.map fun _ => (0 : Int)).getD j 0) =
        (g.foldLens.map fun _ => (0 : Int)) := by
      rw [h.ok.foldLens, List.map_map]
      apply List.map_congr_left
      intro j _
      simp only [List.getD_eq_getElem?_getD, List.getElem?_map]
      cases g.dims[j]? <;> rfl
    rw [this]
    have z : layoutPerm g.foldPerm g.foldLens (g.foldLens.map fun _ => (0 : Int)) = 0 := by
      have : (g.foldLens.map fun _ => (0 : Int)) = (g.foldLens.map ((0 : Int) * ·)) := by simp
      rw [this]
      unfold layoutPerm
      rw [gather_smul, layoutSum_smul]; ring
    rw [z]; omega
  · rw [e']
    unfold Geom.numVecs
    rw [prodVals_eq]
    exact hr

/-- Copies go to different vectors. -/
theorem vecOf_inj {g : Geom} {first last : List Int} (h : VecOk g first last)
    (hfit : StepsFit g.api first last) {ip : Nat} (hip : ip < g.dims.length) {t t' : Nat × Nat × Nat}
    (ht : t ∈ triples (numK g.hasStep (vecSizes (g.dims.map DimG.varVL) first last))
        (numC g.hasStep (vecSizes (g.dims.map DimG.varVL) first last) ip)
        (numI g.hasStep (vecSizes (g.dims.map DimG.varVL) first last) ip))
    (ht' : t' ∈ triples (numK g.hasStep (vecSizes (g.dims.map DimG.varVL) first last))
        (numC g.hasStep (vecSizes (g.dims.map DimG.varVL) first last) ip)
        (numI g.hasStep (vecSizes (g.dims.map DimG.varVL) first last) ip))
    (e : g.vecOf first last ip t = g.vecOf first last ip t') : t = t' := by
  obtain ⟨-, hpos, hRl⟩ := vecRange_eq h
  obtain ⟨⟨x, hx, hrel, ha⟩, -⟩ := vecOf_spec h hip ht
  obtain ⟨⟨x', hx', hrel', ha'⟩, -⟩ := vecOf_spec h hip ht'
  rw [e, ha'] at ha
  have hs := (addr_eq_iff h.ok (inSlice_valid h.hf h.hl hx') (inSlice_valid h.hf h.hl hx) h.steps).1 ha
  have hxl : x'.length = first.length := by
    have := inRangeButStep_length (inSlice_valid h.hf h.hl hx')
    rw [h.flen]; exact this
  have := inSlice_sameElem hfit hx' hx hxl hs
  subst this
  exact relVec_inj (by omega) hpos ht ht' (hrel.symm.trans hrel')

/-- Address of an element of the slice: the copied vector and the lane. -/
theorem elem_vec {g : Geom} {first last x : List Int} (h : VecOk g first last) (hx : InSlice first last x)
    {ip : Nat} (hip : ip < g.dims.length) {t : Nat × Nat × Nat}
    (ht : t ∈ triples (numK g.hasStep (vecSizes (g.dims.map DimG.varVL) first last))
        (numC g.hasStep (vecSizes (g.dims.map DimG.varVL) first last) ip)
        (numI g.hasStep (vecSizes (g.dims.map DimG.varVL) first last) ip))
    (hrel : relVec g.hasStep (vecSizes (g.dims.map DimG.varVL) first last) ip t =
      relOf (g.dims.map DimG.varVL) first x) :
    g.addrOfSlots (slots g.dims x) = g.vecOf first last ip t * g.elemReals +
      layoutPerm g.foldPerm g.foldLens (g.foldPosns.map fun j => (vecOfsOf g.dims (slots g.dims x)).getD j 0) := by
  have e := vecPtr_eq h hx hip (mem_triples.1 ht).2.2 hrel
  unfold Geom.addrOfSlots Geom.vecOf
  rw [e]

/-- Lanes are in the vector. -/
theorem lane_range {g : Geom} (hok : g.Ok) {s : List Int} (hl : s.length = g.dims.length) :
    0 ≤ layoutPerm g.foldPerm g.foldLens (g.foldPosns.map fun j => (vecOfsOf g.dims s).getD j 0) ∧
    layoutPerm g.foldPerm g.foldLens (g.foldPosns.map fun j => (vecOfsOf g.dims s).getD j 0) < g.elemReals := by
  have := (C13_layout_value g.foldPerm g.foldLens _ (foldPerm_perm g) (foldOfs_inSpace hok hl)).2
  rw [elemReals_eq hok]
  exact this

end Yask.Var
