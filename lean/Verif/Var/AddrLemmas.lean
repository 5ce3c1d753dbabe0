import Verif.Var.ResizeLemmas
import Verif.Spec.VarSpec
import Verif.Props.Layouts

/-! Helper lemmas: the address of an element. -/

namespace Yask.Var
open Spec

/-- The dimensions as the API reports them: `get_first_local_index`, `get_last_local_index`
(`yk_var_apis.cpp`, `yk_var.hpp:117-122`) and `get_alloc_size` (`_allocs`). -/
def Geom.api (g : Geom) : List ApiDim :=
  g.dims.map fun d => ⟨d.kind == .step, d.firstLocal, d.lastLocal, d.alloc⟩

/-- Address of the element with the given indices: `get_alloc_step_index`, then `get_elem_ptr`, as
`read_elem` and `write_elem` callers do (`yk_var_apis.cpp:383-384,410-411`). -/
def Geom.addrOf (g : Geom) (idxs : List Int) : Outcome Int := do
  let asi ← g.allocStepIndex idxs
  g.elemAddr idxs asi

/-- Local index of an element in a dimension. -/
def DimG.slot (d : DimG) (i : Int) : Int :=
  if d.kind = .step then i % d.domain else i + d.lPad - (d.rankOfs + d.localOfs)

theorem slot_range {b : Bool} {d : DimG} (h : d.Ok b) {i : Int}
    (hi : (d.kind == .step) = true ∨ (d.firstLocal ≤ i ∧ i ≤ d.lastLocal))
    (hs : d.kind = .step → 0 < d.alloc) : 0 ≤ d.slot i ∧ d.slot i < d.alloc := by
  unfold DimG.slot
  split
  · next hk =>
    have h1 := hs hk
    have h2 := (h.nd_pad (by rw [hk]; decide)).2.2
    rw [h2] at h1
    rw [h2]
    exact ⟨Int.emod_nonneg _ (by omega), Int.emod_lt_of_pos _ h1⟩
  · next hk =>
    have hi' : d.firstLocal ≤ i ∧ i ≤ d.lastLocal := by
      rcases hi with h' | h'
      · exact absurd (by simpa using h') hk
      · exact h'
    have := h.alloc_eq
    unfold DimG.firstLocal DimG.lastLocal at hi'
    omega

/-- The slots of a tuple of indices. -/
def slots (ds : List DimG) (idx : List Int) : List Int := List.zipWith DimG.slot ds idx

theorem slots_inSpace {g : Geom} (hok : g.Ok) {idx : List Int} (hv : InRangeButStep g.api idx)
    (hs : StepsAlloc g.api) : InSpace (g.dims.map DimG.alloc) (slots g.dims idx) := by
  unfold InRangeButStep Geom.api at hv
  have hok' := hok.dims
  have hs' : ∀ d ∈ g.dims, d.kind = .step → 0 < d.alloc := by
    intro d hd hk
    exact hs ⟨d.kind == .step, d.firstLocal, d.lastLocal, d.alloc⟩ (List.mem_map.2 ⟨d, hd, rfl⟩)
      (by simp [hk])
  generalize g.dims = ds at *
  clear hs
  induction ds generalizing idx with
  | nil => cases idx <;> simp [slots, InSpace] at hv ⊢
  | cons d ds ih =>
    cases idx with
    | nil => simp at hv
    | cons i is =>
      simp only [List.map_cons, List.forall₂_cons] at hv
      unfold InSpace slots
      simp only [List.zipWith_cons_cons, List.map_cons, List.forall₂_cons]
      exact ⟨slot_range (hok' d List.mem_cons_self) hv.1 (hs' d List.mem_cons_self),
        ih hv.2 (fun x hx => hok' x (List.mem_cons_of_mem _ hx))
          (fun x hx => hs' x (List.mem_cons_of_mem _ hx))⟩

/-- Vector indices and offsets in the vector, from the slots. -/
def vecIdxOf (ds : List DimG) (s : List Int) : List Int := List.zipWith (fun d x => x / d.varVL) ds s
def vecOfsOf (ds : List DimG) (s : List Int) : List Int := List.zipWith (fun d x => x % d.varVL) ds s

/-- Address from the slots. -/
def Geom.addrOfSlots (g : Geom) (s : List Int) : Int :=
  layoutPerm g.layout g.vecAllocs (vecIdxOf g.dims s) * g.elemReals +
    layoutPerm g.foldPerm g.foldLens (g.foldPosns.map fun j => (vecOfsOf g.dims s).getD j 0)

theorem vecIdx_inSpace {b : Bool} {ds : List DimG} (hok : ∀ d ∈ ds, d.Ok b) {s : List Int}
    (h : InSpace (ds.map DimG.alloc) s) : InSpace (ds.map DimG.vecAlloc) (vecIdxOf ds s) := by
  induction ds generalizing s with
  | nil => cases s <;> simp_all [InSpace, vecIdxOf]
  | cons d ds ih =>
    cases s with
    | nil => simp [InSpace] at h
    | cons x s =>
      simp only [InSpace, List.map_cons, List.forall₂_cons] at h
      unfold InSpace vecIdxOf
      simp only [List.zipWith_cons_cons, List.map_cons, List.forall₂_cons]
      have hd := hok d List.mem_cons_self
      have hv := hd.vvl_pos
      refine ⟨⟨Int.ediv_nonneg h.1.1 hv.le, ?_⟩, ih (fun y hy => hok y (List.mem_cons_of_mem _ hy)) h.2⟩
      apply Int.ediv_lt_of_lt_mul hv
      rw [hd.valloc]; exact h.1.2

theorem vecOfs_getD {b : Bool} {ds : List DimG} (hok : ∀ d ∈ ds, d.Ok b) {s : List Int}
    (hl : s.length = ds.length) {j : Nat} (hj : j < ds.length) :
    0 ≤ (vecOfsOf ds s).getD j 0 ∧ (vecOfsOf ds s).getD j 0 < (ds.map DimG.varVL).getD j 0 := by
  have hv := (hok ds[j] (List.getElem_mem hj)).vvl_pos
  unfold vecOfsOf
  rw [List.getD_eq_getElem?_getD, List.getD_eq_getElem?_getD, List.getElem?_zipWith]
  rw [List.getElem?_eq_getElem hj, List.getElem?_eq_getElem (hl ▸ hj), List.getElem?_map,
    List.getElem?_eq_getElem hj]
  simp only [Option.map_some, Option.getD_some]
  exact ⟨Int.emod_nonneg _ (by omega), Int.emod_lt_of_pos _ hv⟩

theorem foldPosn_lt {g : Geom} (hok : g.Ok) {j : Nat} (hj : j ∈ g.foldPosns) : j < g.dims.length := by
  cases hb : g.isVec with
  | true => exact ((hok.foldAll hb j).1 hj).1
  | false => rw [hok.foldNone hb] at hj; simp at hj

theorem foldOfs_inSpace {g : Geom} (hok : g.Ok) {s : List Int} (hl : s.length = g.dims.length) :
    InSpace g.foldLens (g.foldPosns.map fun j => (vecOfsOf g.dims s).getD j 0) := by
  rw [hok.foldLens]
  unfold InSpace
  rw [List.forall₂_map_left_iff, List.forall₂_map_right_iff]
  have : ∀ j ∈ g.foldPosns, j < g.dims.length := fun j hj => foldPosn_lt hok hj
  rw [List.forall₂_same]
  intro j hj
  exact vecOfs_getD hok.dims hl (this j hj)

theorem foldPerm_perm (g : Geom) : g.foldPerm.Perm (List.range g.foldLens.length) := by
  unfold Geom.foldPerm
  split
  · exact List.reverse_perm _
  · exact List.Perm.refl _

theorem elemReals_eq {g : Geom} (hok : g.Ok) : g.elemReals = numPoints g.foldLens := by
  unfold Geom.elemReals
  cases hb : g.isVec with
  | true => simp [prodVals_eq, numPoints]
  | false => simp [hok.foldLens, hok.foldNone hb, numPoints]

/-- The vector lengths of the fold are those of all dimensions. -/
theorem foldLens_prod {g : Geom} (hok : g.Ok) : numPoints g.foldLens = (g.dims.map DimG.varVL).prod := by
  rw [hok.foldLens]
  unfold numPoints
  cases hb : g.isVec with
  | false =>
    rw [hok.foldNone hb]
    have : ∀ ds : List DimG, (∀ d ∈ ds, d.varVL = 1) → (ds.map DimG.varVL).prod = 1 := by
      intro ds
      induction ds with
      | nil => intro _; rfl
      | cons d ds ih =>
        intro h
        simp only [List.map_cons, List.prod_cons, h d List.mem_cons_self,
          ih fun x hx => h x (List.mem_cons_of_mem _ hx), one_mul]
    rw [this]
    · rfl
    · intro d hd
      have := (hok.dims d hd).vvl
      rw [hb] at this
      exact this
  | true =>
    have hmem := hok.foldAll hb
    have hnd := hok.foldNodup
    have hsub : (g.foldPosns).Perm ((List.range g.dims.length).filter
        fun j => decide ((g.dims.map DimG.varVL).getD j 0 ≠ 1)) := by
      rw [List.perm_ext_iff_of_nodup hnd (List.nodup_range.filter _)]
      intro j
      rw [hmem j]
      simp
    rw [(hsub.map _).prod_eq]
    have e : g.dims.map DimG.varVL = (List.range g.dims.length).map
        fun j => (g.dims.map DimG.varVL).getD j 0 := by
      apply List.ext_getElem
      · simp
      · intro i h1 h2
        rw [List.getElem_map, List.getElem_map, List.getElem_range]
        simp only [List.length_map] at h1
        rw [List.getD_eq_getElem?_getD, List.getElem?_map, List.getElem?_eq_getElem h1]
        rfl
    conv_rhs => rw [e]
    generalize List.range g.dims.length = l
    induction l with
    | nil => rfl
    | cons j l ih =>
      rw [List.filter_cons, List.map_cons, List.prod_cons, ← ih]
      split
      · rw [List.map_cons, List.prod_cons]
      · next h =>
        simp only [ne_eq, decide_not, Bool.not_eq_true', decide_eq_false_iff_not, not_not] at h
        rw [h, one_mul]

theorem layoutPerm_injective {p : List Nat} {sizes a b : List Int}
    (hp : p.Perm (List.range sizes.length)) (ha : InSpace sizes a) (hb : InSpace sizes b)
    (h : layoutPerm p sizes a = layoutPerm p sizes b) : a = b := by
  rw [← C13_unlayout_layout p sizes a hp ha, h, C13_unlayout_layout p sizes b hp hb]

theorem slots_length {g : Geom} {s : List Int} (h : InSpace (g.dims.map DimG.alloc) s) :
    s.length = g.dims.length := by
  have := (inSpace_nonneg h).2.2
  simpa using this

theorem layout_perm_vec {g : Geom} (hok : g.Ok) : g.layout.Perm (List.range g.vecAllocs.length) := by
  have := hok.layoutPerm
  simpa [Geom.vecAllocs] using this

theorem addrOfSlots_range {g : Geom} (hok : g.Ok) {s : List Int}
    (h : InSpace (g.dims.map DimG.alloc) s) :
    0 ≤ g.addrOfSlots s ∧ g.addrOfSlots s < g.numReals := by
  have h1 := (C13_layout_value g.layout g.vecAllocs _ (layout_perm_vec hok) (vecIdx_inSpace hok.dims h)).2
  have h2 := (C13_layout_value g.foldPerm g.foldLens _ (foldPerm_perm g)
    (foldOfs_inSpace hok (slots_length h))).2
  unfold Geom.addrOfSlots Geom.numReals
  rw [elemReals_eq hok, prodVals_eq]
  change _ ∧ _ < numPoints g.vecAllocs * _
  generalize layoutPerm g.layout g.vecAllocs (vecIdxOf g.dims s) = x at *
  generalize layoutPerm g.foldPerm g.foldLens _ = y at *
  generalize numPoints g.vecAllocs = X at *
  generalize numPoints g.foldLens = Y at *
  have hY : 0 < Y := by omega
  constructor
  · have := Int.mul_nonneg h1.1 hY.le; omega
  · have h3 : (x + 1) * Y ≤ X * Y := Int.mul_le_mul_of_nonneg_right (by omega) hY.le
    rw [Int.add_mul] at h3
    omega

theorem zipWith_ext_divmod {b : Bool} {ds : List DimG} (hok : ∀ d ∈ ds, d.Ok b) {s s' : List Int}
    (hl : s.length = ds.length) (hl' : s'.length = ds.length) (h1 : vecIdxOf ds s = vecIdxOf ds s')
    (h2 : vecOfsOf ds s = vecOfsOf ds s') : s = s' := by
  induction ds generalizing s s' with
  | nil =>
    cases s <;> cases s' <;> simp_all
  | cons d ds ih =>
    cases s with
    | nil => simp at hl
    | cons x s =>
      cases s' with
      | nil => simp at hl'
      | cons x' s' =>
        simp only [vecIdxOf, vecOfsOf, List.zipWith_cons_cons, List.cons.injEq] at h1 h2
        have e1 := Int.mul_ediv_add_emod x d.varVL
        have e2 := Int.mul_ediv_add_emod x' d.varVL
        rw [h1.1, h2.1, e2] at e1
        rw [e1]
        rw [ih (fun y hy => hok y (List.mem_cons_of_mem _ hy)) (by simpa using hl) (by simpa using hl')
          h1.2 h2.2]

theorem addrOfSlots_injective {g : Geom} (hok : g.Ok) {s s' : List Int}
    (h : InSpace (g.dims.map DimG.alloc) s) (h' : InSpace (g.dims.map DimG.alloc) s')
    (he : g.addrOfSlots s = g.addrOfSlots s') : s = s' := by
  have hl := slots_length h
  have hl' := slots_length h'
  have i1 := vecIdx_inSpace hok.dims h
  have i1' := vecIdx_inSpace hok.dims h'
  have i2 := foldOfs_inSpace hok hl
  have i2' := foldOfs_inSpace hok hl'
  have r2 := (C13_layout_value g.foldPerm g.foldLens _ (foldPerm_perm g) i2).2
  have r2' := (C13_layout_value g.foldPerm g.foldLens _ (foldPerm_perm g) i2').2
  unfold Geom.addrOfSlots at he
  rw [elemReals_eq hok] at he
  have key : ∀ (x x' y y' Y : Int), x * Y + y = x' * Y + y' → 0 ≤ y → y < Y → 0 ≤ y' → y' < Y →
      x = x' ∧ y = y' := by
    intro x x' y y' Y e h0 h1 h2 h3
    have hx : x = x' := by
      have a1 := Int.add_mul_ediv_right y x (c := Y) (by omega)
      have a2 := Int.add_mul_ediv_right y' x' (c := Y) (by omega)
      rw [Int.ediv_eq_zero_of_lt h0 h1] at a1
      rw [Int.ediv_eq_zero_of_lt h2 h3] at a2
      rw [Int.add_comm, e, Int.add_comm, a2] at a1
      omega
    subst hx
    omega
  obtain ⟨e1, e2⟩ := key _ _ _ _ _ he r2.1 r2.2 r2'.1 r2'.2
  have e1 := layoutPerm_injective (layout_perm_vec hok) i1 i1' e1
  have e2 := layoutPerm_injective (foldPerm_perm g) i2 i2' e2
  apply zipWith_ext_divmod hok.dims hl hl' e1
  apply List.ext_getElem?
  intro j
  by_cases hj : j < g.dims.length
  · have hg : ∀ t : List Int, t.length = g.dims.length →
        (vecOfsOf g.dims t)[j]? = some ((vecOfsOf g.dims t).getD j 0) := by
      intro t ht
      have hlen : j < (vecOfsOf g.dims t).length := by
        unfold vecOfsOf; rw [List.length_zipWith]; omega
      rw [List.getElem?_eq_getElem hlen, List.getD_eq_getElem _ _ hlen]
    rw [hg s hl, hg s' hl']
    by_cases hm : j ∈ g.foldPosns
    · have := List.map_inj_left.1 e2 j hm
      rw [this]
    · have hv : (g.dims.map DimG.varVL).getD j 0 = 1 := by
        cases hb : g.isVec with
        | true =>
          by_contra hne
          exact hm ((hok.foldAll hb j).2 ⟨hj, hne⟩)
        | false =>
          have := (hok.dims _ (List.getElem_mem hj)).vvl
          rw [hb] at this
          rw [List.getD_eq_getElem?_getD, List.getElem?_map, List.getElem?_eq_getElem hj]
          simpa using this
      have b1 := vecOfs_getD hok.dims hl hj
      have b2 := vecOfs_getD hok.dims hl' hj
      rw [hv] at b1 b2
      congr 1
      omega
  · have hn : ∀ t : List Int, (vecOfsOf g.dims t)[j]? = none := by
      intro t
      apply List.getElem?_eq_none
      unfold vecOfsOf; rw [List.length_zipWith]; omega
    rw [hn, hn]

/-! ### The model's addresses -/

theorem adjVecs_eq {b : Bool} (ti : Int) {ds : List DimG} (hok : ∀ d ∈ ds, d.Ok b) {idx : List Int}
    (hti : ∀ d ∈ ds, d.kind = .step → ti < d.alloc ∧ 0 ≤ ti) (hl : idx.length = ds.length)
    (hv : ∀ x ∈ List.zip ds idx, x.1.kind ≠ .step → 0 ≤ x.1.slot x.2)
    (hst : ∀ x ∈ List.zip ds idx, x.1.kind = .step → ti = x.1.slot x.2) :
    adjVecs ti ds idx =
      .ok (List.zipWith (fun d i => (d.slot i / d.varVL, d.slot i % d.varVL)) ds idx) := by
  induction ds generalizing idx with
  | nil => cases idx <;> simp_all [adjVecs]
  | cons d ds ih =>
    cases idx with
    | nil => simp at hl
    | cons i is =>
      have hd := hok d List.mem_cons_self
      have e : adjVec ti d i = .ok (d.slot i / d.varVL, d.slot i % d.varVL) := by
        unfold adjVec
        by_cases hk : d.kind = .step
        · rw [if_pos hk]
          have h1 := hst (d, i) (by simp) hk
          have hv1 : d.varVL = 1 := by
            rw [hd.vvl, hd.nd_svl (by rw [hk]; decide)]; simp
          simp only at h1
          rw [← h1, hv1]
          simp
        · rw [if_neg hk]
          have h1 := hv (d, i) (by simp) hk
          simp only [DimG.slot, hk, if_false] at h1 ⊢
          rw [if_neg (by omega)]
      simp only [adjVecs, e, List.zipWith_cons_cons, Outcome.bind_ok]
      rw [ih (fun y hy => hok y (List.mem_cons_of_mem _ hy))
        (fun y hy => hti y (List.mem_cons_of_mem _ hy)) (by simpa using hl)
        (fun x hx => hv x (by simp [hx])) (fun x hx => hst x (by simp [hx]))]
      rfl

theorem elemAddrScalar_eq {b : Bool} (ti : Int) {ds : List DimG} {idx : List Int}
    (hok : ∀ d ∈ ds, d.Ok b) (hb : b = false) (hl : idx.length = ds.length)
    (hst : ∀ x ∈ List.zip ds idx, x.1.kind = .step → ti = x.1.slot x.2) :
    List.zipWith (adjElem ti) ds idx = vecIdxOf ds (slots ds idx) := by
  induction ds generalizing idx with
  | nil => cases idx <;> simp_all [vecIdxOf, slots]
  | cons d ds ih =>
    cases idx with
    | nil => simp at hl
    | cons i is =>
      simp only [slots, vecIdxOf, List.zipWith_cons_cons, List.cons.injEq]
      refine ⟨?_, ih (fun y hy => hok y (List.mem_cons_of_mem _ hy)) (by simpa using hl)
        (fun x hx => hst x (by simp [hx]))⟩
      have hv : d.varVL = 1 := by rw [(hok d List.mem_cons_self).vvl, hb]; rfl
      rw [hv, Int.ediv_one]
      unfold adjElem
      by_cases hk : d.kind = .step
      · rw [if_pos hk]; exact hst (d, i) (by simp) hk
      · rw [if_neg hk]; simp only [DimG.slot, hk, if_false]; omega

theorem vecIdx_slots (ds : List DimG) (idx : List Int) :
    (List.zipWith (fun (d : DimG) i => (d.slot i / d.varVL, d.slot i % d.varVL)) ds idx).map Prod.fst =
      vecIdxOf ds (slots ds idx) ∧
    (List.zipWith (fun (d : DimG) i => (d.slot i / d.varVL, d.slot i % d.varVL)) ds idx).map Prod.snd =
      vecOfsOf ds (slots ds idx) := by
  induction ds generalizing idx with
  | nil => cases idx <;> simp [vecIdxOf, vecOfsOf, slots]
  | cons d ds ih =>
    cases idx with
    | nil => simp [vecIdxOf, vecOfsOf, slots]
    | cons i is =>
      obtain ⟨h1, h2⟩ := ih is
      simp only [slots, vecIdxOf, vecOfsOf, List.zipWith_cons_cons, List.map_cons] at h1 h2 ⊢
      exact ⟨by rw [h1], by rw [h2]⟩

/-- Address of an element whose step slot is `ti`. -/
theorem elemAddr_eq {g : Geom} (hok : g.Ok) {idx : List Int} (ti : Int)
    (hsp : InSpace (g.dims.map DimG.alloc) (slots g.dims idx)) (hl : idx.length = g.dims.length)
    (hst : g.hasStep = true → ti = (slots g.dims idx).getD 0 0) :
    g.elemAddr idx ti = .ok (g.addrOfSlots (slots g.dims idx)) := by
  have hstep : ∀ x ∈ List.zip g.dims idx, x.1.kind = .step → ti = x.1.slot x.2 := by
    have hsf := hok.stepFirst
    unfold Geom.hasStep at hst
    cases hd : g.dims with
    | nil => simp
    | cons d ds =>
      cases idx with
      | nil => simp
      | cons i is =>
        rw [hd] at hsf hst
        intro x hx hk
        simp only [List.zip_cons_cons, List.mem_cons] at hx
        rcases hx with rfl | hx
        · have := hst (by simpa using hk)
          simpa [slots] using this
        · exact absurd hk (hsf x.1 (List.of_mem_zip hx).1)
  have hnn : ∀ x ∈ List.zip g.dims idx, 0 ≤ x.1.slot x.2 ∧ x.1.slot x.2 < x.1.alloc := by
    clear hst hstep hok
    unfold InSpace slots at hsp
    generalize g.dims = ds at *
    induction ds generalizing idx with
    | nil => simp
    | cons d ds ih =>
      cases idx with
      | nil => simp
      | cons i is =>
        simp only [List.zipWith_cons_cons, List.map_cons, List.forall₂_cons] at hsp
        intro x hx
        simp only [List.zip_cons_cons, List.mem_cons] at hx
        rcases hx with rfl | hx
        · exact hsp.1
        · exact ih hsp.2 (by simpa using hl) x hx
  unfold Geom.elemAddr
  cases hb : g.isVec with
  | true =>
    simp only [if_true]
    unfold Geom.elemAddrVec
    have hti : ∀ d ∈ g.dims, d.kind = .step → ti < d.alloc ∧ 0 ≤ ti := by
      intro d hd hk
      obtain ⟨k, hk2, rfl⟩ := List.getElem_of_mem hd
      have hm : (g.dims[k], idx[k]'(by omega)) ∈ List.zip g.dims idx := by
        rw [List.mem_iff_getElem]
        exact ⟨k, by rw [List.length_zip]; omega, by simp⟩
      have := hnn _ hm
      rw [hstep _ hm hk]
      exact ⟨this.2, this.1⟩
    rw [adjVecs_eq ti hok.dims hti hl (fun x hx _ => (hnn x hx).1) hstep]
    simp only [Outcome.bind_ok, Outcome.pure_eq, (vecIdx_slots g.dims idx).1,
      (vecIdx_slots g.dims idx).2]
    rfl
  | false =>
    simp only [Bool.false_eq_true, if_false]
    unfold Geom.elemAddrScalar Geom.addrOfSlots
    rw [elemAddrScalar_eq ti hok.dims hb hl hstep]
    have h1 : g.foldPosns = [] := hok.foldNone hb
    have h2 : g.foldLens = [] := by rw [hok.foldLens, h1]; rfl
    have h3 : g.elemReals = 1 := by rw [elemReals_eq hok, h2]; rfl
    rw [h1, h2, h3]
    simp [Geom.foldPerm, layoutPerm, gather, layoutSum, h2]

theorem allocStepIndex_eq {g : Geom} (hok : g.Ok) {idx : List Int} (hl : idx.length = g.dims.length)
    (hs : StepsAlloc g.api) :
    ∃ ti, g.allocStepIndex idx = .ok ti ∧ (g.hasStep = true → ti = (slots g.dims idx).getD 0 0) := by
  unfold Geom.allocStepIndex
  cases hh : g.hasStep with
  | false => exact ⟨0, by simp, by simp⟩
  | true =>
    simp only [if_true]
    unfold Geom.wrapStep
    unfold Geom.hasStep at hh
    unfold Geom.stepSize
    cases hd : g.dims with
    | nil => rw [hd] at hh; simp at hh
    | cons d ds =>
      rw [hd] at hh
      simp only [beq_iff_eq] at hh
      simp only
      cases idx with
      | nil => rw [hd] at hl; simp at hl
      | cons i is =>
        have hdo := hok.dims d (by rw [hd]; exact List.mem_cons_self)
        have hpos : 0 < d.domain := by
          rw [← (hdo.nd_pad (by rw [hh]; decide)).2.2]
          exact hs ⟨d.kind == .step, d.firstLocal, d.lastLocal, d.alloc⟩
            (List.mem_map.2 ⟨d, by rw [hd]; exact List.mem_cons_self, rfl⟩) (by simp [hh])
        rw [if_neg (by omega)]
        refine ⟨_, rfl, fun _ => ?_⟩
        simp [slots, DimG.slot, hh, imodFlr_eq _ _ hpos]

theorem inRangeButStep_length {g : Geom} {idx : List Int} (h : InRangeButStep g.api idx) :
    idx.length = g.dims.length := by
  have := h.length_eq
  simpa [Geom.api] using this

theorem addrOf_eq {g : Geom} (hok : g.Ok) {idx : List Int} (hv : InRangeButStep g.api idx)
    (hs : StepsAlloc g.api) : g.addrOf idx = .ok (g.addrOfSlots (slots g.dims idx)) := by
  have hl := inRangeButStep_length hv
  obtain ⟨ti, h1, h2⟩ := allocStepIndex_eq hok hl hs
  unfold Geom.addrOf
  rw [h1]
  simp only [Outcome.bind_ok]
  exact elemAddr_eq hok ti (slots_inSpace hok hv hs) hl h2

theorem sameElem_iff_slots {g : Geom} (hok : g.Ok) {a b : List Int} (ha : a.length = g.dims.length)
    (hb : b.length = g.dims.length) : SameElem g.api a b ↔ slots g.dims a = slots g.dims b := by
  have hok' := hok.dims
  unfold Geom.api
  generalize g.dims = ds at *
  induction ds generalizing a b with
  | nil => cases a <;> cases b <;> simp_all [SameElem, slots]
  | cons d ds ih =>
    cases a with
    | nil => simp at ha
    | cons i a =>
      cases b with
      | nil => simp at hb
      | cons j b =>
        have := ih (a := a) (b := b) (by simpa using ha) (by simpa using hb)
          (fun x hx => hok' x (List.mem_cons_of_mem _ hx))
        simp only [SameElem, List.map_cons, slots, List.zipWith_cons_cons, List.cons.injEq] at this ⊢
        refine and_congr ?_ this
        by_cases hk : d.kind = .step
        · have := ((hok' d List.mem_cons_self).nd_pad (by rw [hk]; decide)).2.2
          simp [hk, DimG.slot, this]
        · simp [hk, DimG.slot]

end Yask.Var
