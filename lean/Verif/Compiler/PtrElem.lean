import Mathlib.Tactic.LinearCombination
import Verif.Compiler.PtrLoop
import Verif.Spec.PointSpec

/-! Helper lemmas: the elements of the vectors of the generated inner loop. -/

namespace Yask.Comp
open Var Spec

/-- A dim as the user sees it. -/
def accessDim (d : DimG) : AccessDim :=
  match d.kind with
  | .step => .step
  | .domain => .domain d.varVL d.rankOfs
  | .misc => .misc

/-- Position of a lane in the vector: `VEC_FOLD_LAYOUT` of the offsets in the folded dims (`yk_var.hpp:392-401`). -/
def laneNo (g : Geom) (l : List Int) : Int := layoutPerm g.foldPerm g.foldLens (g.foldPosns.map fun j => l.getD j 0)

theorem pointElem_getElem {g : Geom} {i p l : List Int} {k : Nat} (hk : k < (pointElem (g.dims.map accessDim) i p l).length) :
    (pointElem (g.dims.map accessDim) i p l)[k] =
      (accessDim (g.dims[k]'(by simp [pointElem] at hk; omega))).elem (i[k]'(by simp [pointElem] at hk; omega))
        (p[k]'(by simp [pointElem] at hk; omega)) (l[k]'(by simp [pointElem] at hk; omega)) := by
  simp [pointElem]

theorem dimAt_eq {g : Geom} {k : Nat} (hk : k < g.dims.length) : dimAt g k = g.dims[k] := by
  unfold dimAt; simp [List.getD, hk]

/-- Slot of the element, and its lane. -/
theorem slot_elem {v : CVar} {o : PtrOpts} {g : Geom} (hv : v.Of o g) (hok : g.Ok)
    (hm : ∀ d ∈ g.dims, d.kind = .misc → d.vecLocalOfs = d.localOfs) {idx p l : List Int} (hi : idx.length = g.dims.length)
    (hp : WholeVecs (g.dims.map accessDim) p) (hl : IsLane (g.dims.map accessDim) l) {ti : Int} {k : Nat} (hk : k < g.dims.length)
    (hti : (dimAt g k).kind = .step → ti = (dimAt g k).slot ((accessDim (dimAt g k)).elem (idx.getD k 0) (p.getD k 0) (l.getD k 0))) :
    (dimAt g k).slot ((accessDim (dimAt g k)).elem (idx.getD k 0) (p.getD k 0) (l.getD k 0)) =
      adjNorm ti (dimAt g k) (v.normArg idx p k) * (dimAt g k).varVL + l.getD k 0 ∧
    0 ≤ l.getD k 0 ∧ l.getD k 0 < (dimAt g k).varVL := by
  have hd := hok.dims _ (List.getElem_mem hk)
  rw [← dimAt_eq hk] at hd
  have hpl : k < p.length := by rw [hp.1]; simpa using hk
  have hll : k < l.length := by rw [hl.1]; simpa using hk
  have hlk := hl.2 (accessDim (dimAt g k), l.getD k 0) (by
    rw [List.mem_iff_getElem]
    refine ⟨k, by simp; omega, ?_⟩
    simp [dimAt_eq hk, List.getD, hll])
  have hpk := hp.2 (accessDim (dimAt g k), p.getD k 0) (by
    rw [List.mem_iff_getElem]
    refine ⟨k, by simp; omega, ?_⟩
    simp [dimAt_eq hk, List.getD, hpl])
  simp only at hlk hpk
  have hkind := hv.kind k hk
  have hfold := hv.fold k hk
  unfold CVar.normArg adjNorm
  rw [hkind]
  have hmm : (dimAt g k).kind = .misc → (dimAt g k).vecLocalOfs = (dimAt g k).localOfs := by
    rw [dimAt_eq hk]; exact hm _ (List.getElem_mem hk)
  generalize dimAt g k = d at *
  cases hkk : d.kind with
  | step =>
    have h1 : d.varVL = 1 := by
      have h3 := hd.nd_svl (by rw [hkk]; decide)
      rw [hd.vvl, h3]; simp
    simp only [accessDim, hkk] at hlk
    have h4 := hti hkk
    rw [if_pos rfl, ← h4, hlk, h1]
    simp
  | domain =>
    simp only [accessDim, hkk] at hlk hpk
    simp only [accessDim, hkk, AccessDim.elem, DimG.slot]
    have h2 := hd.vlocal hkk
    have h3 := hd.vlpad
    have h4 := tdiv_mul_of_dvd hpk
    rw [hfold hkk, if_neg (by decide), if_neg (by decide)]
    refine ⟨?_, hlk⟩
    rw [← h2, ← h3]
    linear_combination -h4
  | misc =>
    have h1 : d.varVL = 1 := by
      have h3 := hd.nd_svl (by rw [hkk]; decide)
      rw [hd.vvl, h3]; simp
    simp only [accessDim, hkk] at hlk
    have h5 := hd.nd_halo (by rw [hkk]; decide)
    have h3 := hd.vlpad
    simp only [accessDim, hkk, AccessDim.elem, DimG.slot]
    rw [if_neg (by decide), if_neg (by decide), hlk, hmm hkk, h1]
    rw [h1] at h3
    refine ⟨?_, by omega, by omega⟩
    omega

/-- The address of an element of the vector of a point. -/
theorem addrOf_elem {v : CVar} {o : PtrOpts} {g : Geom} (hv : v.Of o g) (hok : g.Ok) (hs : StepsAlloc g.api)
    (hm : ∀ d ∈ g.dims, d.kind = .misc → d.vecLocalOfs = d.localOfs) {slot : Int → Int} {idx p l : List Int}
    (hi : idx.length = g.dims.length) (hp : WholeVecs (g.dims.map accessDim) p) (hl : IsLane (g.dims.map accessDim) l)
    (hslot : g.hasStep = true → slot (p.getD 0 0) = imodFlr (idx.getD 0 0 + p.getD 0 0) g.stepSize)
    (hr : InRangeButStep g.api (pointElem (g.dims.map accessDim) idx p l)) :
    g.addrOf (pointElem (g.dims.map accessDim) idx p l) = .ok (v.callAddr g slot idx p * g.elemReals + laneNo g l) := by
  rw [addrOf_eq hok hr hs]
  have hlen : (pointElem (g.dims.map accessDim) idx p l).length = g.dims.length := inRangeButStep_length hr
  have hpl : p.length = g.dims.length := by rw [hp.1]; simp
  have hll : l.length = g.dims.length := by rw [hl.1]; simp
  set ti := v.slotOf slot p with htid
  -- per dim
  have hdim : ∀ k (hk : k < g.dims.length),
      (slots g.dims (pointElem (g.dims.map accessDim) idx p l)).getD k 0 =
        adjNorm ti (dimAt g k) (v.normArg idx p k) * (dimAt g k).varVL + l.getD k 0 ∧
      0 ≤ l.getD k 0 ∧ l.getD k 0 < (dimAt g k).varVL := by
    intro k hk
    have e : (slots g.dims (pointElem (g.dims.map accessDim) idx p l)).getD k 0 =
        (dimAt g k).slot ((accessDim (dimAt g k)).elem (idx.getD k 0) (p.getD k 0) (l.getD k 0)) := by
      unfold slots
      simp only [List.getD]
      rw [List.getElem?_eq_getElem (by simp [hlen, hk])]
      simp only [Option.getD_some, List.getElem_zipWith]
      rw [pointElem_getElem (by rw [hlen]; exact hk)]
      simp [dimAt_eq hk, hi, hpl, hll, hk]
    rw [e]
    refine slot_elem hv hok hm hi hp hl hk ?_
    intro hst
    have h0 : k = 0 := by
      by_contra h
      have := hok.stepFirst (g.dims[k]) (by
        rw [List.mem_iff_getElem]
        exact ⟨k - 1, by simp; omega, by simp [show k - 1 + 1 = k by omega]⟩)
      rw [← dimAt_eq hk] at this
      exact this hst
    subst h0
    have hhas : g.hasStep = true := by
      unfold Geom.hasStep
      cases hd : g.dims with
      | nil => rw [hd] at hk; simp at hk
      | cons d ds => unfold dimAt at hst; rw [hd] at hst; simpa using hst
    have hsz : g.stepSize = (dimAt g 0).domain := by
      unfold Geom.stepSize dimAt
      cases hd : g.dims with
      | nil => rw [hd] at hk; simp at hk
      | cons d ds => rfl
    have hpos : 0 < (dimAt g 0).domain := by
      have hdo := hok.dims _ (List.getElem_mem hk)
      rw [← dimAt_eq hk] at hdo
      rw [← (hdo.nd_pad (by rw [hst]; decide)).2.2]
      exact hs ⟨(dimAt g 0).kind == .step, (dimAt g 0).firstLocal, (dimAt g 0).lastLocal, (dimAt g 0).alloc⟩
        (List.mem_map.2 ⟨dimAt g 0, by rw [dimAt_eq hk]; exact List.getElem_mem hk, rfl⟩) (by simp [hst])
    rw [htid]
    unfold CVar.slotOf
    rw [if_pos (by rw [hv.kind 0 hk]; exact hst), hslot hhas, hsz, imodFlr_eq _ _ hpos]
    simp [DimG.slot, hst, accessDim, AccessDim.elem]
  have hsl : (slots g.dims (pointElem (g.dims.map accessDim) idx p l)).length = g.dims.length := by
    unfold slots; simp [hlen]
  unfold Geom.addrOfSlots CVar.callAddr Geom.vecPtrNorm laneNo
  have e1 : vecIdxOf g.dims (slots g.dims (pointElem (g.dims.map accessDim) idx p l)) =
      List.zipWith (adjNorm ti) g.dims ((List.range v.dims.length).map (v.normArg idx p)) := by
    apply List.ext_getElem
    · unfold vecIdxOf; simp [hsl, hv.len]
    · intro k h1 h2
      have hk : k < g.dims.length := by unfold vecIdxOf at h1; simp at h1; omega
      have h3 := hdim k hk
      simp only [List.getD, hsl, hk, getElem?_pos, Option.getD_some] at h3
      simp only [vecIdxOf, List.getElem_zipWith, List.getElem_map, List.getElem_range]
      rw [h3.1, dimAt_eq hk]
      rw [dimAt_eq hk] at h3
      rw [add_comm, Int.add_mul_ediv_right _ _ (by omega), Int.ediv_eq_zero_of_lt h3.2.1 h3.2.2, zero_add]
  have e2 : ∀ j ∈ g.foldPosns, (vecOfsOf g.dims (slots g.dims (pointElem (g.dims.map accessDim) idx p l))).getD j 0 = l.getD j 0 := by
    intro j hj
    have hk := foldPosn_lt hok hj
    have h3 := hdim j hk
    have h4 : (vecOfsOf g.dims (slots g.dims (pointElem (g.dims.map accessDim) idx p l))).getD j 0 =
        (slots g.dims (pointElem (g.dims.map accessDim) idx p l)).getD j 0 % (dimAt g j).varVL := by
      unfold vecOfsOf
      simp [List.getD, hsl, hk, dimAt_eq hk]
    rw [h4, h3.1, add_comm, Int.add_mul_emod_self_right, Int.emod_eq_of_lt h3.2.1 h3.2.2]
  rw [e1, List.map_congr_left e2]

end Yask.Comp
