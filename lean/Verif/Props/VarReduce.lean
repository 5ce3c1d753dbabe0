import Verif.Var.ReduceLemmas
import Verif.Var.ClipLemmas
import Verif.Props.VarSlice

/-!
# C20: reductions over slices

For every number of threads, every assignment `thr` of the visits to the threads, and every order of the
visits.
-/

namespace Yask
open Spec Var

/-- `vals` are the values of the elements of the slice, in row-major order. -/
def SliceValues (v : YVar ℚ) (first last : List Int) (vals : List ℚ) : Prop :=
  vals.length = numPoints (sliceSizes first last) ∧
  ∀ idx, InSlice first last idx → ∃ x, getElement v idx = .ok x ∧
    vals[(slicePos first last idx).toNat]? = some x

/-- Hypotheses on a reduction: a var with storage, valid ends of the slice, a number of elements that
does not exceed the largest index. -/
structure RedHyps (v : YVar ℚ) (env : SliceEnv) (thr : List Int × Int × Int → Nat)
    (first last : List Int) (idxMax : Int) : Prop where
  reach : Reachable v
  mem : v.mem.isSome
  steps : StepsAlloc v.g.api
  envOk : EnvOk env
  thrOk : ∀ x, thr x < env.nthr
  firstOk : Readable v.g.stepWrap v.g.api first
  lastOk : Readable v.g.stepWrap v.g.api last
  nonempty : SliceNonempty first last
  size : numPoints (sliceSizes first last) ≤ idxMax

theorem reduce_spec {v : YVar ℚ} {env : SliceEnv} {thr : List Int × Int × Int → Nat}
    {first last : List Int} {idxMax : Int} (h : RedHyps v env thr first last idxMax) (mask : RedMask)
    (strict : Bool) :
    ∃ r vals, reduceSlice v env thr mask first last strict idxMax = .ok r ∧
      SliceValues v first last vals ∧ r.mask = mask ∧ r.nred = vals.length ∧
      r.sum = (if mask.sum then vals.sum else 0) ∧
      (mask.prod = true → r.prod = vals.prod) ∧
      (mask.max = true → r.max = vals.foldl max dblMin) ∧
      r.min = (if mask.min then vals.foldl min dblMax else dblMax) := by
  obtain ⟨g, m⟩ := v
  obtain ⟨hr, hmem, hs, he, ht, hf, hl, hne, hsz⟩ := h
  obtain ⟨m, rfl⟩ := Option.isSome_iff_exists.1 hmem
  have hok : g.Ok := hr.ok
  simp only at hs hf hl
  have hnp : numPoints (sliceSizes first last) = prodVals (sliceSizes first last) := by
    rw [prodVals_eq]; rfl
  rw [hnp] at hsz
  have hpos := prodVals_pos _ (sliceSizes_pos hne)
  obtain ⟨r, vals, h1, h2, h3, h4, h5⟩ := reduceSlice_eq g m hok hs env he.1 he.2 thr ht mask strict
    idxMax first last first last true true (checkIndices_ok g first strict true (by simpa using hf))
    (checkIndices_ok g last strict true (by simpa using hl)) hf.butStep hl.butStep hne hsz
  have hlen : (vals.length : Int) = prodVals (sliceSizes first last) := by
    rw [h2, List.length_map, List.length_range]; omega
  refine ⟨r, vals, h1, ⟨by rw [hlen, hnp], ?_⟩, h3, by rw [h4, hlen], h5⟩
  intro idx hi
  refine ⟨_, getElement_eq hok m (inSlice_readable hf hl hi) fun _ => hs, ?_⟩
  obtain ⟨k, hk, hpt, hp⟩ := slicePt_surj hne hi
  rw [h2, hp, Int.toNat_natCast, List.getElem?_map, List.getElem?_range (by omega), Option.map_some, hpt]

/-- C20: the number of reduced elements is the number of elements of the slice; if requested, the sum is
the sum of their values and the product is the product of their values; results that were not
requested are refused. -/
theorem C20_sum_product {v : YVar ℚ} {env : SliceEnv} {thr : List Int × Int × Int → Nat}
    {first last : List Int} {idxMax : Int} (h : RedHyps v env thr first last idxMax) (mask : RedMask)
    (strict : Bool) :
    ∃ r vals, reduceSlice v env thr mask first last strict idxMax = .ok r ∧
      SliceValues v first last vals ∧ r.nred = numPoints (sliceSizes first last) ∧
      (r.getSum = if mask.sum then .ok vals.sum else .throws) ∧
      (r.getProduct = if mask.prod then .ok vals.prod else .throws) := by
  obtain ⟨r, vals, h1, h2, h3, h4, h5, h6, h7, h8⟩ := reduce_spec h mask strict
  refine ⟨r, vals, h1, h2, by rw [h4, h2.1], ?_, ?_⟩
  · unfold RedRes.getSum
    rw [h3, h5]
    split <;> rfl
  · unfold RedRes.getProduct
    rw [h3]
    split
    · next hm => rw [h6 hm]
    · rfl

theorem inSlice_first {first last : List Int} (h : SliceNonempty first last) :
    InSlice first last first := by
  unfold SliceNonempty at h
  unfold InSlice
  induction h with
  | nil => exact List.Forall₂.nil
  | cons h _ ih => exact List.Forall₂.cons ⟨le_refl _, h⟩ ih

/-- C20, minimum, if the sum is requested also: the least of the values. -/
theorem C20_min_partial {v : YVar ℚ} {env : SliceEnv} {thr : List Int × Int × Int → Nat}
    {first last : List Int} {idxMax : Int} (h : RedHyps v env thr first last idxMax) (mask : RedMask)
    (strict : Bool) (hmin : mask.min = true) (hsum : mask.sum = true)
    (hbig : ∀ idx x, InSlice first last idx → getElement v idx = .ok x → x ≤ dblMax) :
    ∃ r vals x, reduceSlice v env thr mask first last strict idxMax = .ok r ∧
      SliceValues v first last vals ∧ r.getMin = .ok x ∧ x ∈ vals ∧ ∀ y ∈ vals, x ≤ y := by
  obtain ⟨r, vals, h1, h2, h3, h4, h5, h6, h7, h8⟩ := reduce_spec h mask strict
  obtain ⟨q1, q2, q3⟩ := foldl_min_spec vals dblMax
  refine ⟨r, vals, vals.foldl min dblMax, h1, h2, ?_, ?_, q3⟩
  · unfold RedRes.getMin; rw [h3, h8, if_pos hsum, if_pos hmin]
  · rcases q1 with q | q
    · obtain ⟨x, hx1, hx2⟩ := h2.2 first (inSlice_first h.nonempty)
      have hxm : x ∈ vals := List.mem_of_getElem? hx2
      have hge := q3 x hxm
      have hle := hbig first x (inSlice_first h.nonempty) hx1
      rw [q] at hge
      have : x = dblMax := le_antisymm hle hge
      rw [q, ← this]; exact hxm
    · exact q

/-- C20, maximum, if some value is at least the least positive normalised number: the greatest of the
values. -/
theorem C20_max_partial {v : YVar ℚ} {env : SliceEnv} {thr : List Int × Int × Int → Nat}
    {first last : List Int} {idxMax : Int} (h : RedHyps v env thr first last idxMax) (mask : RedMask)
    (strict : Bool) (hmax : mask.max = true)
    (hpos : ∃ idx x, InSlice first last idx ∧ getElement v idx = .ok x ∧ dblMin ≤ x) :
    ∃ r vals x, reduceSlice v env thr mask first last strict idxMax = .ok r ∧
      SliceValues v first last vals ∧ r.getMax = .ok x ∧ x ∈ vals ∧ ∀ y ∈ vals, y ≤ x := by
  obtain ⟨r, vals, h1, h2, h3, h4, h5, h6, h7, h8⟩ := reduce_spec h mask strict
  obtain ⟨q1, q2, q3⟩ := foldl_max_spec vals dblMin
  refine ⟨r, vals, vals.foldl max dblMin, h1, h2, ?_, ?_, q3⟩
  · unfold RedRes.getMax; rw [h3, h7 hmax, if_pos hmax]
  · rcases q1 with q | q
    · obtain ⟨idx, x, hi, hx, hle⟩ := hpos
      obtain ⟨y, hy1, hy2⟩ := h2.2 idx hi
      rw [hx] at hy1
      obtain rfl : x = y := by simpa using hy1
      have hxm : x ∈ vals := List.mem_of_getElem? hy2
      have hge := q3 x hxm
      rw [q] at hge
      have : x = dblMin := le_antisymm hge hle
      rw [q, ← this]; exact hxm
    · exact q

/-- C20, maximum, otherwise: the result is always the least positive normalised number, which is not the
value of any element. -/
theorem C20_max_wrong {v : YVar ℚ} {env : SliceEnv} {thr : List Int × Int × Int → Nat}
    {first last : List Int} {idxMax : Int} (h : RedHyps v env thr first last idxMax) (mask : RedMask)
    (strict : Bool) (hmax : mask.max = true)
    (hneg : ∀ idx x, InSlice first last idx → getElement v idx = .ok x → x < dblMin) :
    ∃ r, reduceSlice v env thr mask first last strict idxMax = .ok r ∧ r.getMax = .ok dblMin := by
  obtain ⟨r, vals, h1, h2, h3, h4, h5, h6, h7, h8⟩ := reduce_spec h mask strict
  refine ⟨r, h1, ?_⟩
  unfold RedRes.getMax; rw [h3, h7 hmax, if_pos hmax]
  obtain ⟨q1, q2, q3⟩ := foldl_max_spec vals dblMin
  rcases q1 with q | q
  · rw [q]
  · obtain ⟨k, hk⟩ := List.getElem?_of_mem q
    have hkl : (k : Int) < numPoints (sliceSizes first last) := by
      rw [← h2.1]
      have := List.getElem?_eq_some_iff.1 hk
      exact_mod_cast this.1
    obtain ⟨idx, hi, hp⟩ := (C18_positions first last h.nonempty).1 k (by omega) hkl
    obtain ⟨x, hx1, hx2⟩ := h2.2 idx hi
    rw [hp, Int.toNat_natCast, hk] at hx2
    have := hneg idx x hi hx1
    rw [Option.some.injEq] at hx2
    rw [hx2] at q2
    exact absurd this (not_lt.2 q2)

/-- C20, sum of squares: the result is always the plain sum if that is requested also, and otherwise
zero. -/
theorem C20_sum_squares_wrong {v : YVar ℚ} {env : SliceEnv} {thr : List Int × Int × Int → Nat}
    {first last : List Int} {idxMax : Int} (h : RedHyps v env thr first last idxMax) (mask : RedMask)
    (strict : Bool) (hsq : mask.sumSq = true) :
    ∃ r vals, reduceSlice v env thr mask first last strict idxMax = .ok r ∧
      SliceValues v first last vals ∧
      r.getSumSquares = .ok (if mask.sum then vals.sum else 0) := by
  obtain ⟨r, vals, h1, h2, h3, h4, h5, h6, h7, h8⟩ := reduce_spec h mask strict
  refine ⟨r, vals, h1, h2, ?_⟩
  unfold RedRes.getSumSquares; rw [h3, if_pos hsq, h5]

/-- C20, minimum, without the sum: if only the minimum is requested it is refused; if only the sum is
requested the minimum is not refused, and is the largest number. -/
theorem C20_min_wrong {v : YVar ℚ} {env : SliceEnv} {thr : List Int × Int × Int → Nat}
    {first last : List Int} {idxMax : Int} (h : RedHyps v env thr first last idxMax) (mask : RedMask)
    (strict : Bool) :
    ∃ r, reduceSlice v env thr mask first last strict idxMax = .ok r ∧
      (mask.sum = false → r.getMin = .throws) ∧
      (mask.sum = true → mask.min = false → r.getMin = .ok dblMax) := by
  obtain ⟨r, vals, h1, h2, h3, h4, h5, h6, h7, h8⟩ := reduce_spec h mask strict
  refine ⟨r, h1, fun hs => ?_, fun hs hm => ?_⟩
  · unfold RedRes.getMin; rw [h3, hs]; rfl
  · unfold RedRes.getMin; rw [h3, hs, h8, hm]; rfl

/-- Reductions with `strict_indices` false: if the slice has an element in range and valid steps, the
elements reduced are exactly those in range. -/
theorem C53_nonstrict_reduces_part_in_range_partial (v : YVar ℚ) (hr : Reachable v)
    (hmem : v.mem.isSome) (hs : StepsAlloc v.g.api) (env : SliceEnv) (he : EnvOk env)
    (thr : List Int × Int × Int → Nat) (hthr : ∀ x, thr x < env.nthr) (mask : RedMask)
    (first last : List Int) (hfl : first.length = v.g.api.length)
    (hll : last.length = v.g.api.length)
    (hp : ∃ p, InSlice first last p ∧ Readable v.g.stepWrap v.g.api p) (idxMax : Int)
    (hmax : ∀ pts : List (List Int), pts.Nodup →
      (∀ x ∈ pts, InSlice first last x ∧ Readable v.g.stepWrap v.g.api x) → pts.length ≤ idxMax) :
    ∃ (r : RedRes) (pts : List (List Int)) (vals : List ℚ),
      reduceSlice v env thr mask first last false idxMax = .ok r ∧
      pts.Nodup ∧ (∀ x, x ∈ pts ↔ InSlice first last x ∧ Readable v.g.stepWrap v.g.api x) ∧
      List.Forall₂ (fun x y => getElement v x = .ok y) pts vals ∧
      r.nred = pts.length ∧ (mask.sum = true → r.getSum = .ok vals.sum) ∧
      (mask.prod = true → r.getProduct = .ok vals.prod) := by
  obtain ⟨g, m⟩ := v
  obtain ⟨m, rfl⟩ := Option.isSome_iff_exists.1 hmem
  have hok : g.Ok := hr.ok
  simp only at hs hfl hll hp hmax ⊢
  have hgl : g.api.length = g.dims.length := by unfold Geom.api; simp
  rw [hgl] at hfl hll
  obtain ⟨p, hp1, hp2⟩ := hp
  obtain ⟨hne, hfv, hlv, hin⟩ := clip_slice hp1 hp2 hfl hll
  obtain ⟨b1, hf⟩ := checkIndices_clipIdx g first hfl
  obtain ⟨b2, hl⟩ := checkIndices_clipIdx g last hll
  generalize clipIdx g first = f at *
  generalize clipIdx g last = l at *
  have hpos := prodVals_pos _ (sliceSizes_pos hne)
  let pts := (List.range (prodVals (sliceSizes f l)).toNat).map (slicePt f l)
  have hmem' : ∀ x, x ∈ pts ↔ InSlice f l x := by
    intro x
    simp only [pts, List.mem_map, List.mem_range]
    constructor
    · rintro ⟨k, hk, rfl⟩; exact (slicePt_spec hne (by omega)).1
    · intro hx
      obtain ⟨k, hk, h1, _⟩ := slicePt_surj hne hx
      exact ⟨k, by omega, h1⟩
  have hnd : pts.Nodup := by
    apply List.Nodup.map_on _ List.nodup_range
    intro a ha b hb hab
    rw [List.mem_range] at ha hb
    have h1 := (slicePt_spec (k := a) hne (by omega)).2
    have h2 := (slicePt_spec (k := b) hne (by omega)).2
    rw [hab] at h1
    omega
  have hlen : (pts.length : Int) = prodVals (sliceSizes f l) := by
    simp only [pts, List.length_map, List.length_range]; omega
  have hbuf : prodVals (sliceSizes f l) ≤ idxMax := by
    rw [← hlen]; exact hmax pts hnd fun x hx => (hin x).1 ((hmem' x).1 hx)
  obtain ⟨r, vals, h1, h2, h3, h4, h5, h6, h7, h8⟩ := reduceSlice_eq g m hok hs env he.1 he.2 thr hthr
    mask false idxMax first last f l b1 b2 hf hl hfv hlv hne hbuf
  refine ⟨r, pts, vals, h1, hnd, fun x => (hmem' x).trans (hin x), ?_, by rw [h4, hlen], ?_, ?_⟩
  · have hall : ∀ x ∈ pts, getElement ⟨g, some m⟩ x = .ok (m (g.addrOfSlots (slots g.dims x))) :=
      fun x hx => getElement_eq hok m ((hin x).1 ((hmem' x).1 hx)).2 fun _ => hs
    have e : vals = pts.map fun x => m (g.addrOfSlots (slots g.dims x)) := by
      rw [h2]; simp only [pts, List.map_map]; rfl
    rw [e, List.forall₂_map_right_iff, List.forall₂_same]
    exact hall
  · intro hm; unfold RedRes.getSum; rw [h3, h5, hm]; rfl
  · intro hm; unfold RedRes.getProduct; rw [h3, h6 hm, hm]; rfl

/-! ### Examples -/

/-- The example var with rational values: minus one everywhere. -/
def exVarQ : YVar ℚ :=
  match (exGeom0.resize false).bind fun g => runSettings (V := ℚ) ⟨g, none⟩ exCalls with
  | some v => { v with mem := some fun _ => -1 }
  | none => ⟨exGeom0, none⟩

theorem exVarQ_reachable : Reachable exVarQ := by
  have h1 : (exGeom0.resize false).isSome = true := by decide +kernel
  obtain ⟨g, hg⟩ := Option.isSome_iff_exists.1 h1
  have h2 : ((exGeom0.resize false).bind fun g => runSettings (V := ℚ) ⟨g, none⟩ exCalls).isSome =
    true := by decide +kernel
  obtain ⟨v, hv⟩ := Option.isSome_iff_exists.1 h2
  have hr : runSettings (V := ℚ) ⟨g, none⟩ exCalls = some v := by
    rw [hg] at hv; simpa using hv
  have : exVarQ = { v with mem := some fun _ => -1 } := by
    unfold exVarQ; rw [hv]
  rw [this]
  exact Reachable.storage v _ (runSettings_reachable (Reachable.construct _ g exGeom0_constructed hg) hr)

theorem exVarQ_g : exVarQ.g = exVar.g := by decide +kernel

theorem exRedHyps : RedHyps exVarQ exEnv (fun x => (x.2.2 % 2).toNat) [1, 13, 2, -1] [2, 15, 6, 0] 100
    where
  reach := exVarQ_reachable
  mem := by decide +kernel
  steps := by rw [exVarQ_g]; exact exVar_steps
  envOk := exEnv_ok
  thrOk := by intro x; show _ < 2; omega
  firstOk := by
    have hw : exVar.g.stepWrap = false := by decide +kernel
    simp [exVarQ_g, hw, Readable, exVar_api, InRange]
  lastOk := by
    have hw : exVar.g.stepWrap = false := by decide +kernel
    simp [exVarQ_g, hw, Readable, exVar_api, InRange]
  nonempty := by simp [SliceNonempty]
  size := by decide +kernel

/-- C20 does not hold: with all elements minus one, the maximum is positive, the sum of squares is
negative (or zero), and the requested minimum is refused. -/
theorem C20_fails :
    (reduceSlice exVarQ exEnv (fun x => (x.2.2 % 2).toNat) { max := true } [1, 13, 2, -1] [2, 15, 6, 0]
      true 100 >>= RedRes.getMax) = .ok dblMin ∧ 0 < dblMin ∧
    (reduceSlice exVarQ exEnv (fun x => (x.2.2 % 2).toNat) { sum := true, sumSq := true } [1, 13, 2, -1]
      [2, 15, 6, 0] true 100 >>= RedRes.getSumSquares) = .ok (-60) ∧
    (reduceSlice exVarQ exEnv (fun x => (x.2.2 % 2).toNat) { sumSq := true } [1, 13, 2, -1]
      [2, 15, 6, 0] true 100 >>= RedRes.getSumSquares) = .ok 0 ∧
    (reduceSlice exVarQ exEnv (fun x => (x.2.2 % 2).toNat) { min := true } [1, 13, 2, -1]
      [2, 15, 6, 0] true 100 >>= RedRes.getMin) = .throws := by
  refine ⟨?_, ?_, ?_, ?_, ?_⟩ <;> decide +kernel

example : (reduceSlice exVarQ exEnv (fun x => (x.2.2 % 2).toNat) { min := true, sum := true }
    [1, 13, 2, -1] [2, 15, 6, 0] true 100 >>= RedRes.getMin) = .ok (-1) := by decide +kernel

end Yask
