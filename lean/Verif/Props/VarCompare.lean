import Verif.Var.CompareModel
import Mathlib.Algebra.Order.Field.Rat
import Mathlib.Algebra.Order.Ring.Abs
import Verif.Props.VarSlice
import Verif.Props.Tuple

/-!
# C22: comparison of two vars
-/

namespace Yask
open Spec Var

variable {V : Type}

/-- First index that the API reports for a dimension: the first valid step, the first index of the
domain of the rank, or the first misc index. -/
def firstIdx (d : DimG) : Int := if d.kind = .domain then d.rankOfs else d.firstLocal
/-- Last index that the API reports for a dimension. -/
def lastIdx (d : DimG) : Int := if d.kind = .domain then d.rankOfs + d.domain - 1 else d.lastLocal

/-- The API index that is compared for an allocation index. -/
def apiOf (d : DimG) (p : Int) : Int :=
  if d.kind = .step then d.firstLocal + (p - d.firstLocal) % d.alloc else p + (d.rankOfs + d.localOfs)

/-- The allocation index at which an API index is compared. -/
def allocOf (d : DimG) (i : Int) : Int :=
  if d.kind = .step then i % d.alloc else i - (d.rankOfs + d.localOfs)

/-- One dimension: allocation indices that pass the check correspond to API indices. -/
theorem cmp_dim {b : Bool} {d : DimG} (h : d.Ok b) (hpos : 0 < d.alloc)
    (hloc : d.kind = .domain → d.localOfs = 0) :
    (∀ p, 0 ≤ p → p < d.alloc → cmpOk d p = true →
      (firstIdx d ≤ apiOf d p ∧ apiOf d p ≤ lastIdx d) ∧ allocOf d (apiOf d p) = p ∧
      ((d.kind == .step) = true ∨ (d.firstLocal ≤ cmpIdx d p ∧ cmpIdx d p ≤ d.lastLocal)) ∧
      d.slot (cmpIdx d p) = d.slot (apiOf d p) ∧ d.firstLocal ≤ apiOf d p ∧ apiOf d p ≤ d.lastLocal) ∧
    (∀ i, firstIdx d ≤ i → i ≤ lastIdx d →
      (0 ≤ allocOf d i ∧ allocOf d i < d.alloc) ∧ cmpOk d (allocOf d i) = true ∧
      apiOf d (allocOf d i) = i) := by
  have f1 : d.firstLocal = d.rankOfs + d.localOfs - d.lPad := by unfold DimG.firstLocal; omega
  have f2 : d.lastLocal = d.rankOfs + d.localOfs + d.domain + d.rPad - 1 := by
    unfold DimG.lastLocal; omega
  have ha := h.alloc_eq
  rcases hk : d.kind with _ | _ | _
  · -- step
    obtain ⟨p1, p2, p3⟩ := h.nd_pad (by rw [hk]; decide)
    obtain ⟨_, _, _, _, p4⟩ := h.nd_halo (by rw [hk]; decide)
    have key : ∀ p, 0 ≤ p → p < d.alloc →
        (d.firstLocal + (p - d.firstLocal) % d.alloc) % d.alloc = p := by
      intro p h0 h1
      rw [Int.add_emod, Int.emod_emod, ← Int.add_emod]
      rw [show d.firstLocal + (p - d.firstLocal) = p by omega, Int.emod_eq_of_lt h0 h1]
    constructor
    · intro p h0 h1 _
      have r1 := Int.emod_nonneg (p - d.firstLocal) (by omega : d.alloc ≠ 0)
      have r2 := Int.emod_lt_of_pos (p - d.firstLocal) hpos
      simp only [firstIdx, lastIdx, apiOf, allocOf, cmpIdx, DimG.slot, hk, if_true]
      simp only [reduceCtorEq, if_false]
      refine ⟨by omega, key p h0 h1, Or.inl (by simp), ?_, by omega, by omega⟩
      rw [← p3, key p h0 h1, Int.emod_eq_of_lt h0 h1]
    · intro i h0 h1
      simp only [firstIdx, lastIdx, hk, reduceCtorEq, if_false] at h0 h1
      simp only [apiOf, allocOf, cmpOk, hk, if_true, reduceCtorEq, if_false, and_true, true_and]
      refine ⟨⟨Int.emod_nonneg _ (by omega), Int.emod_lt_of_pos _ hpos⟩, ?_⟩
      rw [Int.sub_emod, Int.emod_emod, ← Int.sub_emod,
        Int.emod_eq_of_lt (by omega) (by omega)]
      omega
  · -- domain
    have hl0 := hloc hk
    have q1 := h.lpad hk
    have q2 := h.rpad hk
    have hso := h.set_ok
    constructor
    · intro p h0 h1 hcok
      simp only [cmpOk, cmpIdx, hk, if_true, reduceCtorEq, if_false] at hcok
      have hc : d.rankOfs ≤ p + (d.rankOfs + d.localOfs) ∧
          p + (d.rankOfs + d.localOfs) ≤ d.rankOfs + d.domain - 1 := by
        simp only [Bool.not_eq_true', Bool.or_eq_false_iff, decide_eq_false_iff_not] at hcok
        omega
      simp only [firstIdx, lastIdx, apiOf, allocOf, cmpIdx, DimG.slot, hk, if_true, reduceCtorEq,
        if_false]
      have hpadl : 0 ≤ d.lPad := by
        have := (settingsOk_iff d).1 hso
        omega
      have hpadr : 0 ≤ d.rPad := by
        have := (settingsOk_iff d).1 hso
        omega
      exact ⟨by omega, by omega, Or.inr (by omega), trivial, by omega, by omega⟩
    · intro i h0 h1
      simp only [firstIdx, lastIdx, hk, if_true] at h0 h1
      have hpadl : 0 ≤ d.lPad := by
        have := (settingsOk_iff d).1 hso
        omega
      have hpadr : 0 ≤ d.rPad := by
        have := (settingsOk_iff d).1 hso
        omega
      simp only [apiOf, allocOf, cmpOk, cmpIdx, hk, if_true, reduceCtorEq, if_false]
      refine ⟨⟨by omega, by omega⟩, ?_, by omega⟩
      simp only [Bool.not_eq_true', Bool.or_eq_false_iff, decide_eq_false_iff_not]
      omega
  · -- misc
    obtain ⟨p1, p2, p3⟩ := h.nd_pad (by rw [hk]; decide)
    constructor
    · intro p h0 h1 _
      simp only [firstIdx, lastIdx, apiOf, allocOf, cmpIdx, DimG.slot, hk, reduceCtorEq, if_false]
      exact ⟨by omega, by omega, Or.inr (by omega), trivial, by omega, by omega⟩
    · intro i h0 h1
      simp only [firstIdx, lastIdx, hk, reduceCtorEq, if_false] at h0 h1
      simp only [apiOf, allocOf, cmpOk, hk, reduceCtorEq, if_false]
      exact ⟨⟨by omega, by omega⟩, trivial, by omega⟩

/-- All dimensions: the visited points that pass the check correspond to the API indices. -/
theorem cmp_dims {b : Bool} {ds : List DimG} (hok : ∀ d ∈ ds, d.Ok b) (hpos : ∀ d ∈ ds, 0 < d.alloc)
    (hloc : ∀ d ∈ ds, d.kind = .domain → d.localOfs = 0) :
    (∀ p, InSpace (ds.map DimG.alloc) p → (List.zipWith cmpOk ds p).all id = true →
      InSlice (ds.map firstIdx) (ds.map lastIdx) (List.zipWith apiOf ds p) ∧
      List.zipWith allocOf ds (List.zipWith apiOf ds p) = p ∧
      InRangeButStep (ds.map fun d => ⟨d.kind == .step, d.firstLocal, d.lastLocal, d.alloc⟩)
        (List.zipWith cmpIdx ds p) ∧
      InRange (ds.map fun d => ⟨d.kind == .step, d.firstLocal, d.lastLocal, d.alloc⟩)
        (List.zipWith apiOf ds p) ∧
      slots ds (List.zipWith cmpIdx ds p) = slots ds (List.zipWith apiOf ds p)) ∧
    (∀ i, InSlice (ds.map firstIdx) (ds.map lastIdx) i →
      InSpace (ds.map DimG.alloc) (List.zipWith allocOf ds i) ∧
      (List.zipWith cmpOk ds (List.zipWith allocOf ds i)).all id = true ∧
      List.zipWith apiOf ds (List.zipWith allocOf ds i) = i) := by
  unfold InSpace InSlice InRangeButStep InRange slots
  induction ds with
  | nil =>
    constructor
    · intro p hp _
      have : p = [] := by simpa using hp
      subst this
      simp
    · intro i hi
      have : i = [] := by simpa using hi
      subst this
      simp
  | cons d ds ih =>
    obtain ⟨ih1, ih2⟩ := ih (fun d hd => hok d (List.mem_cons_of_mem _ hd))
      (fun d hd => hpos d (List.mem_cons_of_mem _ hd)) (fun d hd => hloc d (List.mem_cons_of_mem _ hd))
    obtain ⟨k1, k2⟩ := cmp_dim (hok d List.mem_cons_self) (hpos d List.mem_cons_self)
      (hloc d List.mem_cons_self)
    constructor
    · intro p hp hall
      cases p with
      | nil => simp at hp
      | cons p0 p =>
        simp only [List.map_cons, List.forall₂_cons] at hp
        simp only [List.zipWith_cons_cons, List.all_cons, id_eq, Bool.and_eq_true] at hall
        obtain ⟨a1, a2, a3, a4, a5⟩ := ih1 p hp.2 hall.2
        obtain ⟨b1, b2, b3, b4, b5⟩ := k1 p0 hp.1.1 hp.1.2 hall.1
        simp only [List.map_cons, List.zipWith_cons_cons, List.zip_cons_cons, List.forall₂_cons]
        exact ⟨⟨b1, a1⟩, by rw [b2, a2], ⟨b3, a3⟩, ⟨b5, a4⟩, by rw [b4, a5]⟩
    · intro i hi
      cases i with
      | nil => simp at hi
      | cons i0 i =>
        simp only [List.map_cons, List.zip_cons_cons, List.forall₂_cons] at hi
        obtain ⟨a1, a2, a3⟩ := ih2 i hi.2
        obtain ⟨b1, b2, b3⟩ := k2 i0 hi.1.1 hi.1.2
        simp only [List.map_cons, List.zipWith_cons_cons, List.forall₂_cons, List.all_cons, id_eq,
          Bool.and_eq_true]
        exact ⟨⟨b1, a1⟩, ⟨b2, a2⟩, by rw [b3, a3]⟩

/-- C22: comparing two vars of the same geometry returns the number of elements of the domain (over all
valid steps and all misc indices) whose values are not within the tolerance, for every number of
threads and order of the visits. -/
theorem C22_count_of_mismatches (v r : YVar V) (hr : Reachable v) (hg : r.g = v.g)
    (hm : v.mem.isSome) (hmr : r.mem.isSome) (hpos : ∀ d ∈ v.g.dims, 0 < d.alloc)
    (hloc : ∀ d ∈ v.g.dims, d.kind = .domain → d.localOfs = 0)
    (tol : V → V → Bool) (env : ParForEnv) (nthr : Nat) (hn : 0 < nthr) (firstInner : Bool)
    (order : List (List Int × Nat) → List (List Int × Nat)) (hord : ∀ l, (order l).Perm l) :
    ∃ (pts : List (List Int)) (a b : List Int → V), pts.Nodup ∧
      (∀ idx, idx ∈ pts ↔ InSlice (v.g.dims.map firstIdx) (v.g.dims.map lastIdx) idx) ∧
      (∀ idx ∈ pts, getElement v idx = .ok (a idx) ∧ getElement r idx = .ok (b idx)) ∧
      compareVars v (some r) true tol env nthr firstInner order =
        .ok (pts.countP fun idx => !tol (a idx) (b idx)) := by
  obtain ⟨g, m⟩ := v
  obtain ⟨g', mr⟩ := r
  obtain ⟨m, rfl⟩ := Option.isSome_iff_exists.1 hm
  obtain ⟨mr, rfl⟩ := Option.isSome_iff_exists.1 hmr
  simp only at hg hpos hloc ⊢
  subst hg
  have hok : g'.Ok := hr.ok
  have hs : StepsAlloc g'.api := by
    intro d hd _
    obtain ⟨x, hx, rfl⟩ := List.mem_map.1 hd
    exact hpos x hx
  have hpos' : ∀ d ∈ g'.dims.map DimG.alloc, 0 < d := by
    intro d hd
    obtain ⟨x, hx, rfl⟩ := List.mem_map.1 hd
    exact hpos x hx
  obtain ⟨c1, c2⟩ := cmp_dims hok.dims hpos hloc
  let val : (Int → V) → List Int → V := fun m idx => m (g'.addrOfSlots (slots g'.dims idx))
  let okp : List Int × Nat → Bool := fun x => (List.zipWith cmpOk g'.dims x.1).all id
  let L0 := (List.range (numPoints (g'.dims.map DimG.alloc)).toNat).map
    fun k => (unlayoutVals firstInner (g'.dims.map DimG.alloc) k, k)
  have hp0 := prodVals_pos _ hpos'
  have hnp : numPoints (g'.dims.map DimG.alloc) = prodVals (g'.dims.map DimG.alloc) := by
    rw [prodVals_eq]; rfl
  have hL0 : ∀ x ∈ L0, InSpace (g'.dims.map DimG.alloc) x.1 := by
    intro x hx
    obtain ⟨k, hk, rfl⟩ := List.mem_map.1 hx
    exact unlayout_inSpace firstInner _ hpos' k
  obtain ⟨n1, n2⟩ := C38_points_complete firstInner _ hpos'
  let pts := (L0.filter okp).map fun x => List.zipWith apiOf g'.dims x.1
  have hbody : ∀ errs, ∀ x, InSpace (g'.dims.map DimG.alloc) x.1 →
      cmpBody g' g' m mr tol errs x = .ok (if okp x && !tol (val m (List.zipWith apiOf g'.dims x.1))
        (val mr (List.zipWith apiOf g'.dims x.1)) then errs + 1 else errs) := by
    intro errs x hx
    unfold cmpBody
    by_cases hk : okp x = true
    · obtain ⟨a1, a2, a3, a4, a5⟩ := c1 x.1 hx hk
      rw [if_pos hk]
      have hlx : x.1.length = g'.dims.length := by
        have := (inSpace_nonneg hx).2.2
        simpa using this
      have hlc : (List.zipWith cmpIdx g'.dims x.1).length = g'.dims.length := by
        rw [List.length_zipWith, hlx, Nat.min_self]
      have hasi : g'.allocStepIndex x.1 = .ok (if g'.hasStep then
          (List.zipWith cmpIdx g'.dims x.1).getD 0 0 % g'.stepSize else 0) := by
        have hsz := stepSize_pos hok hs
        obtain ⟨ti, h1, h2⟩ := allocStepIndex_eq hok hlx hs
        rw [h1]
        congr 1
        cases hh : g'.hasStep with
        | false =>
          unfold Geom.allocStepIndex at h1
          rw [hh] at h1
          simp only [Bool.false_eq_true, if_false, Outcome.ok.injEq] at h1
          simp [← h1]
        | true =>
          rw [h2 hh, slots_zero hh x.1 hlx, if_pos rfl]
          unfold Geom.hasStep at hh
          cases hd : g'.dims with
          | nil => rw [hd] at hh; simp at hh
          | cons d ds =>
            rw [hd] at hh hlx
            simp only [beq_iff_eq] at hh
            cases hxx : x.1 with
            | nil => rw [hxx] at hlx; simp at hlx
            | cons i is => simp [cmpIdx, hh]
      rw [hasi]
      simp only [Outcome.bind_ok]
      rw [readElem_visit hok hs a3 m, readElem_visit hok hs a3 mr]
      simp only [Outcome.bind_ok, a5, hk, Bool.true_and]
      show Outcome.ok _ = Outcome.ok _
      congr 1
      simp only [val]
      cases tol _ _ <;> simp
    · rw [if_neg hk]
      rw [Bool.not_eq_true] at hk
      simp only [hk, Bool.false_and, Bool.false_eq_true, if_false]
      rfl
  refine ⟨pts, val m, val mr, ?_, ?_, ?_, ?_⟩
  · apply List.Nodup.map_on
    · intro x hx y hy hxy
      rw [List.mem_filter] at hx hy
      have e1 := (c1 x.1 (hL0 x hx.1) hx.2).2.1
      have e2 := (c1 y.1 (hL0 y hy.1) hy.2).2.1
      rw [hxy] at e1
      have e3 : x.1 = y.1 := e1.symm.trans e2
      obtain ⟨k, hk, rfl⟩ := List.mem_map.1 hx.1
      obtain ⟨k', hk', rfl⟩ := List.mem_map.1 hy.1
      simp only at e3
      rw [List.mem_range] at hk hk'
      have : k = k' := by
        rw [← layout_unlayout firstInner _ hpos' k (by omega), e3,
          layout_unlayout firstInner _ hpos' k' (by omega)]
      rw [this]
    · apply List.Nodup.filter
      apply List.Nodup.map _ List.nodup_range
      intro a b hab
      simpa using (Prod.mk.inj hab).2
  · intro idx
    constructor
    · intro h
      obtain ⟨x, hx, rfl⟩ := List.mem_map.1 h
      rw [List.mem_filter] at hx
      exact (c1 x.1 (hL0 x hx.1) hx.2).1
    · intro h
      obtain ⟨d1, d2, d3⟩ := c2 idx h
      obtain ⟨k, hk1, hk2⟩ := List.mem_map.1 ((n2 _).2 d1)
      apply List.mem_map.2
      refine ⟨(List.zipWith allocOf g'.dims idx, k), ?_, d3⟩
      rw [List.mem_filter]
      exact ⟨List.mem_map.2 ⟨k, hk1, by rw [hk2]⟩, d2⟩
  · intro idx h
    obtain ⟨x, hx, rfl⟩ := List.mem_map.1 h
    rw [List.mem_filter] at hx
    have hre : Readable g'.stepWrap g'.api (List.zipWith apiOf g'.dims x.1) := by
      have := (c1 x.1 (hL0 x hx.1) hx.2).2.2.2.1
      unfold Readable
      split
      · exact InRange.butStep this
      · exact this
    exact ⟨getElement_eq hok m hre fun _ => hs, getElement_eq hok mr hre fun _ => hs⟩
  · unfold compareVars
    simp only [Bool.not_true, bne_self_eq_false, Bool.or_self, Bool.false_eq_true, if_false]
    have hperm := (hord _).trans ((C38_visit_parallel env nthr hn firstInner _ hpos').2)
    generalize order (parallelVisitsTuple env nthr firstInner (g'.dims.map DimG.alloc)) = L at hperm
    have hfold : ∀ (L : List (List Int × Nat)) (n : Int),
        (∀ x ∈ L, InSpace (g'.dims.map DimG.alloc) x.1) →
        L.foldlM (cmpBody g' g' m mr tol) n = .ok (n + (L.countP fun x => okp x &&
          !tol (val m (List.zipWith apiOf g'.dims x.1)) (val mr (List.zipWith apiOf g'.dims x.1)))) := by
      intro L
      induction L with
      | nil => intro n _; simp only [List.foldlM_nil, List.countP_nil]; simp
      | cons x L ih =>
        intro n hx
        rw [List.foldlM_cons, hbody n x (hx x List.mem_cons_self)]
        simp only [Outcome.bind_ok]
        rw [ih _ fun y hy => hx y (List.mem_cons_of_mem _ hy), List.countP_cons]
        congr 1
        split <;> simp_all
        omega
    rw [hfold L 0 fun x hx => hL0 x (hperm.mem_iff.1 hx), hperm.countP_eq]
    simp only [zero_add]
    congr 2
    have : ∀ L : List (List Int × Nat), L.countP (fun x => okp x &&
          !tol (val m (List.zipWith apiOf g'.dims x.1)) (val mr (List.zipWith apiOf g'.dims x.1))) =
        ((L.filter okp).map fun x => List.zipWith apiOf g'.dims x.1).countP
          fun idx => !tol (val m idx) (val mr idx) := by
      intro L
      rw [List.countP_map, List.countP_filter]
      apply List.countP_congr
      intro x _
      simp [and_comm]
    exact this L0

/-- C22: the result is zero if and only if all elements of the domain are within the tolerance. -/
theorem C22_zero_iff_equal (v r : YVar V) (hr : Reachable v) (hg : r.g = v.g)
    (hm : v.mem.isSome) (hmr : r.mem.isSome) (hpos : ∀ d ∈ v.g.dims, 0 < d.alloc)
    (hloc : ∀ d ∈ v.g.dims, d.kind = .domain → d.localOfs = 0)
    (tol : V → V → Bool) (env : ParForEnv) (nthr : Nat) (hn : 0 < nthr) (firstInner : Bool)
    (order : List (List Int × Nat) → List (List Int × Nat)) (hord : ∀ l, (order l).Perm l) :
    compareVars v (some r) true tol env nthr firstInner order = .ok 0 ↔
      ∀ idx, InSlice (v.g.dims.map firstIdx) (v.g.dims.map lastIdx) idx →
        ∃ x y, getElement v idx = .ok x ∧ getElement r idx = .ok y ∧ tol x y = true := by
  obtain ⟨pts, a, b, h1, h2, h3, h4⟩ := C22_count_of_mismatches v r hr hg hm hmr hpos hloc tol env nthr
    hn firstInner order hord
  rw [h4, Outcome.ok.injEq, Int.natCast_eq_zero, List.countP_eq_zero]
  constructor
  · intro h idx hi
    have hp := (h2 idx).2 hi
    refine ⟨_, _, (h3 idx hp).1, (h3 idx hp).2, ?_⟩
    simpa using h idx hp
  · intro h idx hp
    obtain ⟨x, y, e1, e2, e3⟩ := h idx ((h2 idx).1 hp)
    have f1 := (h3 idx hp).1
    have f2 := (h3 idx hp).2
    rw [e1, Outcome.ok.injEq] at f1
    rw [e2, Outcome.ok.injEq] at f2
    rw [← f1, ← f2]
    simpa using e3

example : Reachable exVar ∧ (∀ d ∈ exVar.g.dims, 0 < d.alloc) ∧
    (∀ d ∈ exVar.g.dims, d.kind = .domain → d.localOfs = 0) ∧
    InSlice (exVar.g.dims.map firstIdx) (exVar.g.dims.map lastIdx) [1, 29, 4, -1] ∧
    ¬ InSlice (exVar.g.dims.map firstIdx) (exVar.g.dims.map lastIdx) [1, 30, 4, -1] := by
  have h1 : exVar.g.dims.map firstIdx = [0, 20, 0, -1] := by decide +kernel
  have h2 : exVar.g.dims.map lastIdx = [2, 29, 4, 0] := by decide +kernel
  refine ⟨exVar_reachable, by decide +kernel, by decide +kernel, ?_, ?_⟩
  · rw [h1, h2]; simp [InSlice]
  · rw [h1, h2]; simp [InSlice]

/-- C22: the tolerance: two values are accepted if and only if they are equal or differ by less than
epsilon, relative to the reference value where that is greater than one in magnitude. -/
theorem C22_tolerance (x ref eps : ℚ) (he : 0 ≤ eps) :
    withinTolerance x ref eps = true ↔ x = ref ∨ |x - ref| < eps * max 1 |ref| := by
  unfold withinTolerance
  by_cases h : x = ref
  · simp [h]
  · simp only [h, if_false, false_or, decide_eq_true_eq]
    split
    · next h1 => rw [max_eq_right (le_of_lt h1), abs_mul, abs_of_nonneg he, mul_comm]
    · next h1 => rw [max_eq_left (not_lt.1 h1), mul_one]

example : withinTolerance (100 : ℚ) 101 (1 / 50) = true ∧ withinTolerance (1 / 2 : ℚ) (1 / 3) (1 / 50) = false := by
  decide +kernel

end Yask
