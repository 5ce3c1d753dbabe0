import Verif.Var.VecSliceOps

/-! Helper lemmas: what the vector-wise slice copies do to each element. -/

namespace Yask.Var
open Spec

variable {V : Type}

/-- Lane of an element of an aligned slice. -/
theorem lane_eq {g : Geom} {first last x : List Int} (h : VecOk g first last) (hxl : x.length = g.dims.length) :
    vecOfsOf g.dims (slots g.dims x) =
      List.zipWith (fun s v => s % v) (List.zipWith (fun i f => i - f) x first) (g.dims.map DimG.varVL) := by
  have hfl := h.flen
  apply List.ext_getElem
  · simp only [vecOfsOf, slots, List.length_zipWith, List.length_map]; omega
  · intro j hj hj'
    have hjn : j < g.dims.length := by
      simp only [vecOfsOf, List.length_zipWith] at hj; omega
    obtain ⟨h1, h2, h3, h4⟩ := h.dim hjn
    obtain ⟨n1, n2⟩ := norm_first h hjn
    have hv := h2.vvl_pos
    simp only [vecOfsOf, slots, zipWith_getElem', List.getElem_map]
    by_cases hd : (g.dims[j]).kind = .domain
    · have hk : ¬ (g.dims[j]).kind = .step := by rw [hd]; decide
      simp only [DimG.slot, hk, if_false]
      have hloc := h2.vlocal hd
      have hlp := h2.vlpad
      have e : x[j]'(by omega) + (g.dims[j]).lPad - ((g.dims[j]).rankOfs + (g.dims[j]).localOfs) =
          (x[j]'(by omega) - first[j]'(by omega)) +
          (normDim g.dims[j] (first[j]'(by omega)) + (g.dims[j]).vecLPad -
            (g.dims[j]).vecLocalOfs) * (g.dims[j]).varVL := by
        rw [Int.sub_mul, Int.add_mul, n1, hlp, hloc]; omega
      rw [e, Int.add_mul_emod_self_right]
    · rw [h4 hd, Int.emod_one, Int.emod_one]

/-- Number of elements. -/
theorem vec_count {g : Geom} {first last : List Int} (h : VecOk g first last) :
    prodVals (vecSizes (g.dims.map DimG.varVL) first last) * g.elemReals =
      numPoints (sliceSizes first last) := by
  have hfl := h.flen
  have hll := h.llen
  rw [elemReals_eq h.ok, foldLens_prod h.ok, prodVals_eq]
  have key : ∀ j (hj : j < g.dims.length), (last[j]'(by omega) + 1 - first[j]'(by omega)) /
      (g.dims[j]).varVL * (g.dims[j]).varVL = last[j]'(by omega) + 1 - first[j]'(by omega) := by
    intro j hj
    obtain ⟨n1, n2⟩ := norm_first h hj
    have e : last[j]'(by omega) + 1 - first[j]'(by omega) =
        (normDim g.dims[j] (last[j]'(by omega)) + 1 - normDim g.dims[j] (first[j]'(by omega))) *
          (g.dims[j]).varVL := by
      rw [Int.sub_mul, n1, n2]; omega
    exact Int.ediv_mul_cancel ⟨_, by rw [Int.mul_comm]; exact e⟩
  unfold vecSizes numPoints
  have e : sliceSizes first last = List.zipWith (· * ·)
      (List.zipWith (fun s v => s / v) (sliceSizes first last) (g.dims.map DimG.varVL))
      (g.dims.map DimG.varVL) := by
    apply List.ext_getElem
    · simp only [sliceSizes, List.length_zipWith, List.length_map]; omega
    · intro j hj hj'
      simp only [sliceSizes, List.length_zipWith] at hj
      simp only [sliceSizes, zipWith_getElem', List.getElem_map]
      exact (key j (by omega)).symm
  conv_rhs => rw [e]
  have hl : (List.zipWith (fun s v => s / v) (sliceSizes first last) (g.dims.map DimG.varVL)).length =
      (g.dims.map DimG.varVL).length := by
    simp only [sliceSizes, List.length_zipWith, List.length_map]; omega
  generalize List.zipWith (fun s v => s / v) (sliceSizes first last) (g.dims.map DimG.varVL) = a at hl ⊢
  generalize g.dims.map DimG.varVL = b at hl ⊢
  clear e key
  induction a generalizing b with
  | nil => cases b <;> simp_all
  | cons x a ih =>
    cases b with
    | nil => simp at hl
    | cons y b =>
      simp only [List.zipWith_cons_cons, List.prod_cons]
      rw [← ih b (by simpa using hl)]
      ring

/-- Reading a slice as vectors. -/
theorem getVecs_eq {g : Geom} {first last : List Int} (h : VecOk g first last) (m : Int → V)
    (env : VecEnv) (hn : 0 < env.nthr) (hord : ∀ l, (env.order l).Perm l) (lp : Option Nat) (same : Bool)
    (hip : g.innerPosn lp same < g.dims.length) (buf : Int → V) (bufVecs : Int)
    (hbuf : prodVals (vecSizes (g.dims.map DimG.varVL) first last) ≤ bufVecs) :
    ∃ buf', getVecs (⟨g, some m⟩ : YVar V) env lp same buf bufVecs first last =
        .ok (buf', prodVals (vecSizes (g.dims.map DimG.varVL) first last) * g.elemReals) ∧
      ∀ t ∈ triples (numK g.hasStep (vecSizes (g.dims.map DimG.varVL) first last))
        (numC g.hasStep (vecSizes (g.dims.map DimG.varVL) first last) (g.innerPosn lp same))
        (numI g.hasStep (vecSizes (g.dims.map DimG.varVL) first last) (g.innerPosn lp same)),
        ∀ j, 0 ≤ j → j < g.elemReals →
          buf' ((triPos (numC g.hasStep (vecSizes (g.dims.map DimG.varVL) first last) (g.innerPosn lp same))
              (numI g.hasStep (vecSizes (g.dims.map DimG.varVL) first last) (g.innerPosn lp same)) t : Int) *
                g.elemReals + j) =
            m (g.vecOf first last (g.innerPosn lp same) t * g.elemReals + j) := by
  obtain ⟨-, hpos, hRl⟩ := vecRange_eq h
  obtain ⟨L, hL, he⟩ := copyVecs_eq h m env hn hord lp same hip (getVecBody g m bufVecs) buf
  obtain ⟨hCI, hKCI⟩ := num_eq (st := g.hasStep) (R := vecSizes (g.dims.map DimG.varVL) first last)
    (ip := g.innerPosn lp same) (by omega) hpos
  generalize g.innerPosn lp same = ip at *
  have hmem : ∀ x ∈ L, ∃ t ∈ triples (numK g.hasStep (vecSizes (g.dims.map DimG.varVL) first last))
        (numC g.hasStep (vecSizes (g.dims.map DimG.varVL) first last) ip)
        (numI g.hasStep (vecSizes (g.dims.map DimG.varVL) first last) ip),
      x = (g.vecOf first last ip t,
            (triPos (numC g.hasStep (vecSizes (g.dims.map DimG.varVL) first last) ip)
              (numI g.hasStep (vecSizes (g.dims.map DimG.varVL) first last) ip) t : Int)) := by
    intro x hx
    obtain ⟨t, ht, e⟩ := List.mem_map.1 (hL.subset hx)
    exact ⟨t, ht, e.symm⟩
  have hfold := foldlM_ok (getVecBody g m bufVecs)
    (fun (b : Int → V) (x : Int × Int) => blockPoke g.elemReals b x.2 fun j => m (x.1 * g.elemReals + j)) L buf (by
      intro s x hx
      obtain ⟨t, ht, rfl⟩ := hmem x hx
      have hr := (vecOf_spec h hip ht).2
      have hp := triPos_lt ht
      unfold getVecBody
      rw [if_pos]
      refine ⟨hr.1, hr.2, Int.natCast_nonneg _, ?_⟩
      have : ((triPos (numC g.hasStep (vecSizes (g.dims.map DimG.varVL) first last) ip)
              (numI g.hasStep (vecSizes (g.dims.map DimG.varVL) first last) ip) t : Nat) : Int) <
          prodVals (vecSizes (g.dims.map DimG.varVL) first last) := by
        rw [← hKCI]
        exact_mod_cast hp
      simp only
      omega)
  refine ⟨L.foldl (fun (b : Int → V) (x : Int × Int) => blockPoke g.elemReals b x.2 fun j => m (x.1 * g.elemReals + j)) buf, ?_, ?_⟩
  · unfold getVecs
    simp only
    rw [he, hfold]
    rfl
  · intro t ht j hj hjn
    have hx : (g.vecOf first last ip t,
            (triPos (numC g.hasStep (vecSizes (g.dims.map DimG.varVL) first last) ip)
              (numI g.hasStep (vecSizes (g.dims.map DimG.varVL) first last) ip) t : Int)) ∈ L :=
      hL.symm.subset (List.mem_map.2 ⟨t, ht, rfl⟩)
    exact foldl_block_hit g.elemReals (fun x : Int × Int => x.2)
      (fun x j => m (x.1 * g.elemReals + j)) L buf _ hx (by
        intro y hy e
        obtain ⟨t', ht', rfl⟩ := hmem y hy
        simp only at e
        have := triPos_inj ht' ht (by exact_mod_cast e)
        rw [this]) j hj hjn

/-- Writing a slice as vectors. -/
theorem setVecs_eq {g : Geom} {first last : List Int} (h : VecOk g first last)
    (hfit : StepsFit g.api first last) (m : Int → V)
    (env : VecEnv) (hn : 0 < env.nthr) (hord : ∀ l, (env.order l).Perm l) (lp : Option Nat) (same : Bool)
    (hip : g.innerPosn lp same < g.dims.length) (buf : Int → V) (bufVecs : Int)
    (hbuf : prodVals (vecSizes (g.dims.map DimG.varVL) first last) ≤ bufVecs) :
    ∃ m', setVecs (⟨g, some m⟩ : YVar V) env lp same buf bufVecs first last =
        .ok (⟨g.setDirtyInSlice first last, some m'⟩,
          prodVals (vecSizes (g.dims.map DimG.varVL) first last) * g.elemReals) ∧
      (∀ t ∈ triples (numK g.hasStep (vecSizes (g.dims.map DimG.varVL) first last))
        (numC g.hasStep (vecSizes (g.dims.map DimG.varVL) first last) (g.innerPosn lp same))
        (numI g.hasStep (vecSizes (g.dims.map DimG.varVL) first last) (g.innerPosn lp same)),
        ∀ j, 0 ≤ j → j < g.elemReals →
          m' (g.vecOf first last (g.innerPosn lp same) t * g.elemReals + j) =
          buf ((triPos (numC g.hasStep (vecSizes (g.dims.map DimG.varVL) first last) (g.innerPosn lp same))
              (numI g.hasStep (vecSizes (g.dims.map DimG.varVL) first last) (g.innerPosn lp same)) t : Int) *
                g.elemReals + j)) ∧
      (∀ b, (∀ t ∈ triples (numK g.hasStep (vecSizes (g.dims.map DimG.varVL) first last))
        (numC g.hasStep (vecSizes (g.dims.map DimG.varVL) first last) (g.innerPosn lp same))
        (numI g.hasStep (vecSizes (g.dims.map DimG.varVL) first last) (g.innerPosn lp same)),
        ¬ (g.vecOf first last (g.innerPosn lp same) t * g.elemReals ≤ b ∧
          b < g.vecOf first last (g.innerPosn lp same) t * g.elemReals + g.elemReals)) → m' b = m b) := by
  obtain ⟨-, hpos, hRl⟩ := vecRange_eq h
  obtain ⟨L, hL, he⟩ := copyVecs_eq h m env hn hord lp same hip (setVecBody g buf bufVecs) m
  obtain ⟨hCI, hKCI⟩ := num_eq (st := g.hasStep) (R := vecSizes (g.dims.map DimG.varVL) first last)
    (ip := g.innerPosn lp same) (by omega) hpos
  generalize g.innerPosn lp same = ip at *
  have hmem : ∀ x ∈ L, ∃ t ∈ triples (numK g.hasStep (vecSizes (g.dims.map DimG.varVL) first last))
        (numC g.hasStep (vecSizes (g.dims.map DimG.varVL) first last) ip)
        (numI g.hasStep (vecSizes (g.dims.map DimG.varVL) first last) ip),
      x = (g.vecOf first last ip t,
            (triPos (numC g.hasStep (vecSizes (g.dims.map DimG.varVL) first last) ip)
              (numI g.hasStep (vecSizes (g.dims.map DimG.varVL) first last) ip) t : Int)) := by
    intro x hx
    obtain ⟨t, ht, e⟩ := List.mem_map.1 (hL.subset hx)
    exact ⟨t, ht, e.symm⟩
  have hfold := foldlM_ok (setVecBody g buf bufVecs)
    (fun (b : Int → V) (x : Int × Int) => blockPoke g.elemReals b x.1 fun j => buf (x.2 * g.elemReals + j)) L m (by
      intro s x hx
      obtain ⟨t, ht, rfl⟩ := hmem x hx
      have hr := (vecOf_spec h hip ht).2
      have hp := triPos_lt ht
      unfold setVecBody
      rw [if_pos]
      refine ⟨hr.1, hr.2, Int.natCast_nonneg _, ?_⟩
      have : ((triPos (numC g.hasStep (vecSizes (g.dims.map DimG.varVL) first last) ip)
              (numI g.hasStep (vecSizes (g.dims.map DimG.varVL) first last) ip) t : Nat) : Int) <
          prodVals (vecSizes (g.dims.map DimG.varVL) first last) := by
        rw [← hKCI]
        exact_mod_cast hp
      simp only
      omega)
  refine ⟨L.foldl (fun (b : Int → V) (x : Int × Int) => blockPoke g.elemReals b x.1 fun j => buf (x.2 * g.elemReals + j)) m, ?_, ?_, ?_⟩
  rotate_left
  · intro t ht j hj hjn
    have hx : (g.vecOf first last ip t,
            (triPos (numC g.hasStep (vecSizes (g.dims.map DimG.varVL) first last) ip)
              (numI g.hasStep (vecSizes (g.dims.map DimG.varVL) first last) ip) t : Int)) ∈ L :=
      hL.symm.subset (List.mem_map.2 ⟨t, ht, rfl⟩)
    exact foldl_block_hit g.elemReals (fun x : Int × Int => x.1)
      (fun x j => buf (x.2 * g.elemReals + j)) L m _ hx (by
        intro y hy e
        obtain ⟨t', ht', rfl⟩ := hmem y hy
        simp only at e
        have := vecOf_inj h hfit hip ht' ht e
        rw [this]) j hj hjn
  · intro b hb
    exact foldl_block_miss g.elemReals (fun x : Int × Int => x.1)
      (fun x j => buf (x.2 * g.elemReals + j)) L m b (by
        intro y hy
        obtain ⟨t', ht', rfl⟩ := hmem y hy
        exact hb t' ht')
  · unfold setVecs
    simp only
    rw [he, hfold]
    rfl

/-- An element whose vector is copied is in the slice. -/
theorem block_slice {g : Geom} {first last : List Int} (h : VecOk g first last) {ip : Nat}
    (hip : ip < g.dims.length) {t : Nat × Nat × Nat}
    (ht : t ∈ triples (numK g.hasStep (vecSizes (g.dims.map DimG.varVL) first last))
        (numC g.hasStep (vecSizes (g.dims.map DimG.varVL) first last) ip)
        (numI g.hasStep (vecSizes (g.dims.map DimG.varVL) first last) ip))
    {x : List Int} (hx : InRangeButStep g.api x)
    (hb : g.vecOf first last ip t * g.elemReals ≤ g.addrOfSlots (slots g.dims x) ∧
      g.addrOfSlots (slots g.dims x) < g.vecOf first last ip t * g.elemReals + g.elemReals) :
    ∃ y, InSlice first last y ∧ SameElem g.api y x := by
  have hfl := h.flen
  have hll := h.llen
  obtain ⟨-, hpos, hRl⟩ := vecRange_eq h
  obtain ⟨x0, hx0, hrel, hlane⟩ := exists_elem h (relVec_inSpace (by omega) hpos ht)
  have e := vecPtr_eq h hx0 hip (mem_triples.1 ht).2.2 hrel.symm
  have e' : g.vecOf first last ip t = layoutPerm g.layout g.vecAllocs (vecIdxOf g.dims (slots g.dims x0)) := e
  have hx0v := inSlice_valid h.hf h.hl hx0
  have hxl := inRangeButStep_length hx
  have hx0l := inRangeButStep_length hx0v
  have hsl : (slots g.dims x).length = g.dims.length := by
    unfold slots; rw [List.length_zipWith]; omega
  have hlr := lane_range h.ok hsl
  -- same vector
  have hvec : layoutPerm g.layout g.vecAllocs (vecIdxOf g.dims (slots g.dims x)) =
      layoutPerm g.layout g.vecAllocs (vecIdxOf g.dims (slots g.dims x0)) := by
    rw [e'] at hb
    unfold Geom.addrOfSlots at hb
    generalize layoutPerm g.layout g.vecAllocs (vecIdxOf g.dims (slots g.dims x)) = A at hb ⊢
    generalize layoutPerm g.layout g.vecAllocs (vecIdxOf g.dims (slots g.dims x0)) = B at hb ⊢
    generalize layoutPerm g.foldPerm g.foldLens _ = j at hb hlr
    generalize g.elemReals = n at *
    rcases Int.lt_trichotomy A B with hc | hc | hc
    · have : (A + 1) * n ≤ B * n := Int.mul_le_mul_of_nonneg_right (by omega) (by omega)
      rw [Int.add_mul] at this; omega
    · exact hc
    · have : (B + 1) * n ≤ A * n := Int.mul_le_mul_of_nonneg_right (by omega) (by omega)
      rw [Int.add_mul] at this; omega
  have hvi := layoutPerm_injective (layout_perm_vec h.ok)
    (vecIdx_inSpace h.ok.dims (slots_inSpace h.ok hx h.steps))
    (vecIdx_inSpace h.ok.dims (slots_inSpace h.ok hx0v h.steps)) hvec
  have hij : ∀ j (hj : j < g.dims.length), DimG.slot g.dims[j] (x[j]'(by omega)) / (g.dims[j]).varVL =
      DimG.slot g.dims[j] (x0[j]'(by omega)) / (g.dims[j]).varVL := by
    intro j hj
    have := congrArg (fun l => l[j]?) hvi
    simp only [vecIdxOf, slots] at this
    rw [List.getElem?_eq_getElem (by simp only [List.length_zipWith]; omega),
      List.getElem?_eq_getElem (by simp only [List.length_zipWith]; omega)] at this
    simpa only [zipWith_getElem', Option.some.injEq] using this
  let y := List.zipWith (fun (d : DimG) (p : Int × Int) => if d.kind = .step then p.1 else p.2) g.dims (x0.zip x)
  have hyl : y.length = g.dims.length := by simp [y]; omega
  have hyj : ∀ j (hj : j < g.dims.length), y[j]'(by omega) =
      if (g.dims[j]).kind = .step then x0[j]'(by omega) else x[j]'(by omega) := by
    intro j hj; simp [y]
  have hx0g := (inSlice_iff_get.1 hx0)
  refine ⟨y, ?_, ?_⟩
  · rw [inSlice_iff_get]
    refine ⟨by omega, fun j hj h1 h2 => ?_⟩
    have hjn : j < g.dims.length := by omega
    have b0 := hx0g.2 j (by omega) h1 h2
    rw [hyj j hjn]
    by_cases hk : (g.dims[j]).kind = .step
    · rw [if_pos hk]; exact b0
    · rw [if_neg hk]
      have hq := hij j hjn
      obtain ⟨o1, o2, o3, o4⟩ := h.dim hjn
      obtain ⟨n1, n2⟩ := norm_first h hjn
      have hv := o2.vvl_pos
      have hl0 := congrArg (fun l => l[j]?) hlane
      simp only [vecOfsOf, slots] at hl0
      rw [List.getElem?_eq_getElem (by simp only [List.length_zipWith]; omega),
        List.getElem?_eq_getElem (by simp only [List.length_map]; omega)] at hl0
      simp only [zipWith_getElem', List.getElem_map, Option.some.injEq] at hl0
      have q1 := Int.mul_ediv_add_emod (DimG.slot g.dims[j] (x[j]'(by omega))) (g.dims[j]).varVL
      have q2 := Int.emod_nonneg (DimG.slot g.dims[j] (x[j]'(by omega))) (b := (g.dims[j]).varVL) (by omega)
      have q3 := Int.emod_lt_of_pos (DimG.slot g.dims[j] (x[j]'(by omega))) hv
      have q4 := Int.mul_ediv_add_emod (DimG.slot g.dims[j] (x0[j]'(by omega))) (g.dims[j]).varVL
      rw [hq] at q1
      rw [hl0] at q4
      simp only [DimG.slot, hk, if_false] at q1 q2 q3 q4 hl0
      -- the vector of `x0` ends inside the slice
      by_cases hd : (g.dims[j]).kind = .domain
      · have d1 : (g.dims[j]).varVL ∣ x0[j]'(by omega) + (g.dims[j]).lPad -
            ((g.dims[j]).rankOfs + (g.dims[j]).localOfs) := Int.dvd_of_emod_eq_zero hl0
        have d2 : (g.dims[j]).varVL ∣ (g.dims[j]).lPad := ⟨(g.dims[j]).vecLPad, by rw [Int.mul_comm]; exact o2.vlpad.symm⟩
        have d3 : (g.dims[j]).varVL ∣ (g.dims[j]).localOfs :=
          ⟨(g.dims[j]).vecLocalOfs, by rw [Int.mul_comm]; exact (o2.vlocal hd).symm⟩
        have d4 := (o3 hd).2
        have d5 : (g.dims[j]).varVL ∣ last[j]'(by omega) + 1 - x0[j]'(by omega) := by
          have := (((d4.add d2).sub d3).sub d1)
          rw [show ∀ a b c d e : Int, a + 1 - c + d - e - (b + d - (c + e)) = a + 1 - b from
            fun a b c d e => by omega] at this
          exact this
        have := Int.le_of_dvd (by omega) d5
        constructor <;> omega
      · have := o4 hd
        constructor <;> omega
  · rw [sameElem_iff_slots h.ok hyl hxl]
    apply List.ext_getElem
    · simp only [slots, List.length_zipWith]; omega
    · intro j hj hj'
      have hjn : j < g.dims.length := by
        simp only [slots, List.length_zipWith] at hj; omega
      simp only [slots, zipWith_getElem']
      rw [hyj j hjn]
      by_cases hk : (g.dims[j]).kind = .step
      · rw [if_pos hk]
        have hq := hij j hjn
        rw [(h.dim hjn).2.2.2 (by rw [hk]; decide), Int.ediv_one, Int.ediv_one] at hq
        exact hq.symm
      · rw [if_neg hk]

end Yask.Var
