import Verif.Var.StepLemmas

/-!
# C14 – C17, C21: elements of a var

`Reachable v` ranges over every var obtained by construction and any sequence of successful setting
calls, of any number and kind of dimensions, sizes, paddings, halos, offsets, folds and layouts.
-/

namespace Yask
open Spec Var

variable {V : Type}

/-! ### An example var -/

/-- A 4-D vector-folded var before its construction: step, `x` (folded by 4), `y` (folded by 2), misc. -/
def exGeom0 : Geom where
  dims := [{ kind := .step }, { kind := .domain, solnVL := 4, varVL := 4 },
    { kind := .domain, solnVL := 2, varVL := 2, isInner := true }, { kind := .misc }]
  isVec := true
  layout := [0, 3, 1, 2]
  foldPosns := [1, 2]
  foldLens := [4, 2]
  vlenGt1 := true
  allowAddlPad := true

/-- Setting calls: sizes, halo, pads, offsets. -/
def exCalls : List (Nat × Setting × Int) :=
  [(0, .size, 3), (1, .size, 10), (2, .size, 5), (3, .size, 2), (1, .halo, 2), (2, .leftMinPad, 3),
    (1, .rankOfs, 20), (1, .localOfs, 0), (3, .firstMisc, -1)]

/-- The example var, allocated and filled with zeros. -/
def exVar : YVar Int :=
  match (exGeom0.resize false).bind fun g => runSettings (V := Int) ⟨g, none⟩ exCalls with
  | some v => { v with mem := some fun _ => 0 }
  | none => ⟨exGeom0, none⟩

theorem exGeom0_constructed : exGeom0.Constructed where
  stepFirst := by decide
  fresh := by
    intro d hd
    simp only [exGeom0, List.mem_cons, List.not_mem_nil, or_false] at hd
    rcases hd with rfl | rfl | rfl | rfl
    · exact ⟨.step, 1, 1, false, rfl⟩
    · exact ⟨.domain, 4, 4, false, rfl⟩
    · exact ⟨.domain, 2, 2, true, rfl⟩
    · exact ⟨.misc, 1, 1, false, rfl⟩
  vlPos := by decide
  vlDomain := by decide
  vlVar := by decide
  noDirty := rfl
  layoutPerm := by decide
  foldNodup := by decide
  foldLens := by decide
  foldAll := by
    intro _ j
    rcases j with _ | _ | _ | _ | j
    · decide
    · decide
    · decide
    · decide
    · simp [exGeom0]
  foldNone := by decide

theorem exVar_reachable : Reachable exVar := by
  have h1 : (exGeom0.resize false).isSome = true := by decide +kernel
  obtain ⟨g, hg⟩ := Option.isSome_iff_exists.1 h1
  have h2 : ((exGeom0.resize false).bind fun g => runSettings (V := Int) ⟨g, none⟩ exCalls).isSome =
    true := by decide +kernel
  obtain ⟨v, hv⟩ := Option.isSome_iff_exists.1 h2
  have hr : runSettings (V := Int) ⟨g, none⟩ exCalls = some v := by
    rw [hg] at hv; simpa using hv
  have : exVar = { v with mem := some fun _ => 0 } := by
    unfold exVar; rw [hv]
  rw [this]
  exact Reachable.storage v _ (runSettings_reachable (Reachable.construct _ g exGeom0_constructed hg) hr)

theorem exVar_api : exVar.g.api = [⟨true, 0, 2, 3⟩, ⟨false, 12, 35, 24⟩, ⟨false, -6, 7, 14⟩,
    ⟨false, -1, 0, 2⟩] := by decide +kernel

theorem exVar_steps : StepsAlloc exVar.g.api := by unfold StepsAlloc; decide +kernel

/-! ### C14 -/

/-- C14: every valid index tuple has an address inside the storage. -/
theorem C14_address_in_storage (v : YVar V) (hr : Reachable v) (hs : StepsAlloc v.g.api)
    (idx : List Int) (h : InRangeButStep v.g.api idx) :
    ∃ a, v.g.addrOf idx = .ok a ∧ 0 ≤ a ∧ a < v.g.numReals :=
  ⟨_, addrOf_eq hr.ok h hs, addrOfSlots_range hr.ok (slots_inSpace hr.ok h hs)⟩

/-- C14: two valid index tuples have the same address if and only if they name the same element: equal
in all dimensions but the step dimension, and congruent modulo the step allocation there. -/
theorem C14_addresses_distinct (v : YVar V) (hr : Reachable v) (hs : StepsAlloc v.g.api)
    (a b : List Int) (ha : InRangeButStep v.g.api a) (hb : InRangeButStep v.g.api b) :
    v.g.addrOf a = v.g.addrOf b ↔ SameElem v.g.api a b := by
  rw [addrOf_eq hr.ok ha hs, addrOf_eq hr.ok hb hs, Outcome.ok.injEq]
  exact addr_eq_iff hr.ok ha hb hs

/-- C14: the storage is not larger than needed: every address is used by an element. -/
theorem C14_elements_fill_storage (v : YVar V) (hr : Reachable v) :
    v.g.numReals = (v.g.api.map ApiDim.alloc).prod := by
  have hok := hr.ok
  have hmap : v.g.api.map ApiDim.alloc = v.g.dims.map DimG.alloc := by
    unfold Geom.api; rw [List.map_map]; rfl
  have h1 : ∀ ds : List DimG, (∀ d ∈ ds, d.Ok v.g.isVec) →
      (ds.map DimG.vecAlloc).prod * (ds.map DimG.varVL).prod = (ds.map DimG.alloc).prod := by
    intro ds
    induction ds with
    | nil => intro _; rfl
    | cons d ds ih =>
      intro h
      simp only [List.map_cons, List.prod_cons]
      rw [← ih fun x hx => h x (List.mem_cons_of_mem _ hx), ← (h d List.mem_cons_self).valloc]
      ring
  have h2 := foldLens_prod hok
  rw [hmap, ← h1 v.g.dims hok.dims]
  unfold Geom.numReals
  rw [elemReals_eq hok, h2, prodVals_eq]
  rfl

example : Reachable exVar ∧ StepsAlloc exVar.g.api ∧ InRangeButStep exVar.g.api [7, 29, -3, -1] ∧
    InRangeButStep exVar.g.api [4, 29, -3, -1] ∧ SameElem exVar.g.api [7, 29, -3, -1] [4, 29, -3, -1] ∧
    ¬ SameElem exVar.g.api [7, 29, -3, -1] [7, 29, -3, 0] := by
  refine ⟨exVar_reachable, exVar_steps, ?_, ?_, by decide +kernel, by decide +kernel⟩ <;>
    simp [exVar_api, InRangeButStep]

/-! ### C15 -/

/-- One call: no undefined behaviour, the meta-data stay as they are, and each element has the value
that the call implies. -/
theorem applyOp_spec [Add V] (g : Geom) (hok : g.Ok) (hs : StepsAlloc g.api) (m : Int → V)
    (op : ElemOp V) :
    ∃ m', applyOp ⟨g, some m⟩ op = .ok ⟨g, some m'⟩ ∧ ∀ idx, InRangeButStep g.api idx →
      m' (g.addrOfSlots (slots g.dims idx)) =
        afterOp g.stepWrap g.api idx (m (g.addrOfSlots (slots g.dims idx))) op := by
  cases op with
  | set val i strict =>
    by_cases hi : InRangeButStep g.api i
    · refine ⟨poke m (g.addrOfSlots (slots g.dims i)) val, ?_, ?_⟩
      · simp only [applyOp]; rw [setElement_eq hok m val strict hi hs]
      · intro idx hidx
        simp only [afterOp, poke]
        by_cases hsame : SameElem g.api i idx
        · rw [if_pos ((addr_eq_iff hok hi hidx hs).2 hsame).symm, if_pos ⟨hi, hsame⟩]
        · rw [if_neg fun h => hsame ((addr_eq_iff hok hi hidx hs).1 h.symm), if_neg fun h => hsame h.2]
    · refine ⟨m, ?_, fun idx _ => ?_⟩
      · simp only [applyOp]
        rcases setElement_no m val strict hi with h | h <;> rw [h]
      · simp only [afterOp]; rw [if_neg fun h => hi h.1]
  | add val i strict =>
    by_cases hi : Readable g.stepWrap g.api i
    · refine ⟨poke m (g.addrOfSlots (slots g.dims i)) (m (g.addrOfSlots (slots g.dims i)) + val), ?_, ?_⟩
      · simp only [applyOp]; rw [addToElement_eq hok m val strict hi hs]
      · intro idx hidx
        simp only [afterOp, poke]
        by_cases hsame : SameElem g.api i idx
        · have he := (addr_eq_iff hok hi.butStep hidx hs).2 hsame
          rw [if_pos he.symm, if_pos ⟨hi, hsame⟩, he]
        · rw [if_neg fun h => hsame ((addr_eq_iff hok hi.butStep hidx hs).1 h.symm),
            if_neg fun h => hsame h.2]
    · refine ⟨m, ?_, fun idx _ => ?_⟩
      · simp only [applyOp]
        rcases addToElement_no m val strict hi with h | h <;> rw [h]
      · simp only [afterOp]; rw [if_neg fun h => hi h.1]
  | setAll val =>
    refine ⟨_, rfl, fun idx hidx => ?_⟩
    simp only [afterOp]
    rw [if_pos (addrOfSlots_range hok (slots_inSpace hok hidx hs))]

/-- C15: after any sequence of `set_element`, `add_to_element` and `set_all_elements_same` calls (a
call that throws has no effect), `get_element` at a readable index returns the value implied by the
calls applied in turn to the value that it returned before. -/
theorem C15_get_returns_last_set [Add V] (v : YVar V) (hr : Reachable v) (hmem : v.mem.isSome)
    (hs : StepsAlloc v.g.api) (ops : List (ElemOp V)) :
    ∃ v', runOps v ops = .ok v' ∧ ∀ idx, Readable v.g.stepWrap v.g.api idx →
      ∃ x, getElement v idx = .ok x ∧
        getElement v' idx = .ok (ops.foldl (afterOp v.g.stepWrap v.g.api idx) x) := by
  obtain ⟨g, m⟩ := v
  obtain ⟨m, rfl⟩ := Option.isSome_iff_exists.1 hmem
  have hok : g.Ok := hr.ok
  simp only at hs ⊢
  have key : ∀ (ops : List (ElemOp V)) (m : Int → V), ∃ m', runOps ⟨g, some m⟩ ops = .ok ⟨g, some m'⟩ ∧
      ∀ idx, InRangeButStep g.api idx → m' (g.addrOfSlots (slots g.dims idx)) =
        ops.foldl (afterOp g.stepWrap g.api idx) (m (g.addrOfSlots (slots g.dims idx))) := by
    intro ops
    induction ops with
    | nil => intro m; exact ⟨m, rfl, fun _ _ => rfl⟩
    | cons op ops ih =>
      intro m
      obtain ⟨m1, h1, h2⟩ := applyOp_spec g hok hs m op
      obtain ⟨m2, h3, h4⟩ := ih m1
      refine ⟨m2, ?_, fun idx hidx => ?_⟩
      · unfold runOps at h3 ⊢
        rw [List.foldlM_cons, h1]
        exact h3
      · rw [h4 idx hidx, h2 idx hidx]; rfl
  obtain ⟨m', h1, h2⟩ := key ops m
  refine ⟨_, h1, fun idx hidx => ⟨_, getElement_eq hok m hidx fun _ => hs, ?_⟩⟩
  rw [getElement_eq hok m' hidx fun _ => hs, h2 idx hidx.butStep]

/-- C15: with the result of the calls themselves: `set_element` on valid indices reports one element
set, and on other indices throws or (if not strict) reports none. -/
theorem C15_set_reports (v : YVar V) (hr : Reachable v) (hmem : v.mem.isSome)
    (hs : StepsAlloc v.g.api) (val : V) (idx : List Int) (strict : Bool) :
    (InRangeButStep v.g.api idx → ∃ v', setElement v val idx strict = .ok (v', 1)) ∧
    (¬ InRangeButStep v.g.api idx → setElement v val idx strict = .throws ∨
      (strict = false ∧ setElement v val idx strict = .ok (v, 0))) := by
  obtain ⟨g, m⟩ := v
  obtain ⟨m, rfl⟩ := Option.isSome_iff_exists.1 hmem
  refine ⟨fun h => ⟨_, setElement_eq hr.ok m val strict h hs⟩, fun h => ?_⟩
  cases strict with
  | false =>
    rcases setElement_no m val false h with h' | h'
    · exact Or.inl h'
    · exact Or.inr ⟨rfl, h'⟩
  | true =>
    left
    unfold setElement
    simp only
    rw [checkIndices_strict g idx false false (by simpa [Readable] using h)]
    rfl

example : Reachable exVar ∧ exVar.mem.isSome ∧ StepsAlloc exVar.g.api ∧
    (∃ v', runOps exVar [.set 5 [1, 29, -3, -1] true, .add 7 [1, 29, -3, -1] true,
        .set 9 [1, 28, -3, -1] true, .set 1 [1, 99, 0, 0] true] = .ok v' ∧
      getElement v' [1, 29, -3, -1] = .ok 12) := by
  refine ⟨exVar_reachable, rfl, exVar_steps, ?_⟩
  exact ⟨_, rfl, by decide +kernel⟩

/-- C15: a var without storage: reads and writes throw, except that an `add_to_element` call that is
not strict reports that no element was changed. -/
theorem C15_without_storage [Add V] (v : YVar V) (hmem : v.mem = none) (val : V) (idx : List Int)
    (strict : Bool) :
    getElement v idx = .throws ∧ setElement v val idx strict = .throws ∧
      addToElement v val idx strict = (if strict then .throws else .ok (v, 0)) := by
  obtain ⟨g, m⟩ := v
  cases hmem
  exact ⟨rfl, rfl, rfl⟩

/-- C15: `add_to_element` on readable indices reports one element changed; on other indices it throws
or (if not strict) reports none. -/
theorem C15_add_reports [Add V] (v : YVar V) (hr : Reachable v) (hmem : v.mem.isSome)
    (hs : StepsAlloc v.g.api) (val : V) (idx : List Int) (strict : Bool) :
    (Readable v.g.stepWrap v.g.api idx → ∃ v', addToElement v val idx strict = .ok (v', 1)) ∧
    (¬ Readable v.g.stepWrap v.g.api idx → addToElement v val idx strict = .throws ∨
      (strict = false ∧ addToElement v val idx strict = .ok (v, 0))) := by
  obtain ⟨g, m⟩ := v
  obtain ⟨m, rfl⟩ := Option.isSome_iff_exists.1 hmem
  refine ⟨fun h => ⟨_, addToElement_eq hr.ok m val strict h hs⟩, fun h => ?_⟩
  cases strict with
  | false =>
    rcases addToElement_no m val false h with h' | h'
    · exact Or.inl h'
    · exact Or.inr ⟨rfl, h'⟩
  | true =>
    left
    unfold addToElement
    simp only
    rw [checkIndices_strict g idx true false (by simpa [Readable] using h)]
    rfl

example : (⟨exVar.g, none⟩ : YVar Int).mem = none ∧
    Readable exVar.g.stepWrap exVar.g.api [1, 29, -3, -1] ∧
    ¬ Readable exVar.g.stepWrap exVar.g.api [7, 29, -3, -1] := by
  refine ⟨rfl, ?_, ?_⟩ <;> rw [exVar_api] <;> simp [Readable, InRange, InRangeButStep] <;> decide +kernel

/-! ### C16 -/

/-- C16: `are_indices_local` is true if and only if storage is allocated and the indices are in the
range reported by the API in every dimension (in the step dimension any index if steps are wrapped). -/
theorem C16_local_iff_in_range (v : YVar V) (idx : List Int) :
    areIndicesLocal v idx = .ok true ↔ v.mem.isSome ∧ Readable v.g.stepWrap v.g.api idx := by
  obtain ⟨g, m⟩ := v
  unfold areIndicesLocal
  cases m with
  | none => simp
  | some m =>
    simp only [Option.isSome_some, true_and]
    by_cases h : Readable g.stepWrap g.api idx
    · rw [checkIndices_ok g idx false true (by simpa using h)]
      simp [h]
    · by_cases hl : idx.length = g.dims.length
      · obtain ⟨c, hc⟩ := checkIndices_loose g idx true hl (by simpa using h)
        rw [hc]; simp [h]
      · rw [checkIndices_length g idx _ _ _ hl]; simp [h]

/-- C16: `get_element` returns a value if and only if `are_indices_local` is true; otherwise it throws
(it never has undefined behaviour). -/
theorem C16_get_iff_local (v : YVar V) (hr : Reachable v)
    (hs : v.g.stepWrap = true → StepsAlloc v.g.api) (idx : List Int) :
    ((∃ x, getElement v idx = .ok x) ↔ areIndicesLocal v idx = .ok true) ∧
    (areIndicesLocal v idx ≠ .ok true → getElement v idx = .throws) := by
  have key : areIndicesLocal v idx ≠ .ok true → getElement v idx = .throws := by
    intro h
    apply getElement_throws
    rw [Ne, C16_local_iff_in_range, not_and_or] at h
    rcases h with h | h
    · left; simpa using h
    · exact Or.inr h
  refine ⟨⟨?_, ?_⟩, key⟩
  · rintro ⟨x, hx⟩
    by_contra h
    rw [key h] at hx
    cases hx
  · intro h
    obtain ⟨h1, h2⟩ := (C16_local_iff_in_range v idx).1 h
    obtain ⟨g, m⟩ := v
    obtain ⟨m, rfl⟩ := Option.isSome_iff_exists.1 h1
    exact ⟨_, getElement_eq hr.ok m h2 hs⟩

example : Reachable exVar ∧ areIndicesLocal exVar [2, 35, 7, 0] = .ok true ∧
    areIndicesLocal exVar [2, 36, 7, 0] = .ok false ∧ areIndicesLocal exVar [3, 35, 7, 0] = .ok false ∧
    areIndicesLocal exVar [2, 35, 7] = .throws := by
  refine ⟨exVar_reachable, ?_, ?_, ?_, ?_⟩ <;> decide +kernel

/-- C16, for vars on which a setting call threw: the property does not hold.  `set_alloc_size` on a
var with storage throws, but the new size stays recorded: `are_indices_local` is then true for
elements that are outside the storage, and `get_element` reads out of bounds. -/
theorem C16_fails_after_throwing_call :
    ∃ v : YVar Int, Reachable v ∧ (callSetting v 0 .size 100).2 = true ∧
      areIndicesLocal (callSetting v 0 .size 100).1 [50, 20, 0, 0] = .ok true ∧
      getElement (callSetting v 0 .size 100).1 [50, 20, 0, 0] = .undefined := by
  refine ⟨exVar, exVar_reachable, ?_, ?_, ?_⟩ <;> decide +kernel

end Yask
