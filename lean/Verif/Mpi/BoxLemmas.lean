import Verif.Mpi.BoxModel
import Verif.Var.ResizeLemmas
import Verif.Setup.RankSetupLemmas
import Verif.Common.IdivLemmas

/-! # Lemmas about the regions exchanged between ranks -/

namespace Yask.Mpi
open Var Setup

/-- Facts about one dim of the var on one rank. -/
structure DimFacts (D : DimG) (vl lh rh le re ofs sz : Int) : Prop where
  vl_pos : 0 < vl
  vvl : D.varVL = vl
  lh0 : 0 ≤ lh
  rh0 : 0 ≤ rh
  hl : D.lHalo = lh
  hr : D.rHalo = rh
  ro : D.rankOfs = ofs
  dom : D.domain = sz
  first : D.firstLocal ≤ ofs - (lh + le + (vl - 1))
  last : ofs + sz + (rh + re + (vl - 1)) ≤ D.lastLocal + 1

variable {nd n : Nat} {fold : Nat → Int} {r : RankRes} {minSize : Nat → Nat → Nat} {var : Nat → XRank}
  {ext : Nat → Int} {used : Nat → Bool} {vl lh rh : Nat → Int}

theorem OnRanks.facts (h : OnRanks nd n fold r minSize var ext used vl lh rh) {k j : Nat} (hk : k < n) (hj : j < nd)
    (hu : used j = true) : DimFacts ((var k).dim j) (vl j) (lh j) (rh j) (if r.idx k j = 0 then 0 else ext j)
      (if r.idx k j = r.num.getD j 0 - 1 then 0 else ext j) (r.ofs k j) (r.lsz k j) := by
  obtain ⟨d, v, aa, al, e, hs, hk', hv, h1, h2, h3, h4, h5, h6, h7, h8, h9⟩ := h.dims k hk j hj hu
  have hf := h.fold_pos j hj
  have hvl := h.vl_eq j hj
  have hvp : 0 < vl j := by omega
  rw [settingsOk_iff] at hs
  have hsp : 0 < d.solnVL := by rw [h1]; exact hf
  have L : lh j + (if r.idx k j = 0 then 0 else ext j) + (vl j - 1) ≤ d.newLPad v al := by
    have key : lh j + (if r.idx k j = 0 then 0 else ext j) + (vl j - 1) ≤ d.newLPad v false := by
      unfold DimG.newLPad
      simp only [Bool.false_eq_true, if_false]
      have := (roundUp_ge (max (d.lHalo + d.lExt + d.reqLEpad) d.reqLPad) hsp).1
      cases v with
      | true => simp only [if_true]; omega
      | false => simp only [Bool.false_eq_true, if_false]; have := hv rfl; omega
    refine le_trans key ?_
    unfold DimG.newLPad
    cases al <;> simp
  have R : rh j + (if r.idx k j = r.num.getD j 0 - 1 then 0 else ext j) + (vl j - 1) ≤ d.newRPad v aa al := by
    refine le_trans ?_ (newRPad_ge v aa al d hsp)
    unfold DimG.newRPad0
    simp only
    have := (roundUp_ge (d.domain + max (d.rHalo + d.rExt + d.reqREpad) d.reqRPad) hsp).1
    cases v with
    | true => simp only [if_true]; omega
    | false => simp only [Bool.false_eq_true, if_false]; have := hv rfl; omega
  rw [e]
  refine ⟨hvp, h2, by omega, by omega, h3, h4, h7, h9, ?_, ?_⟩
  · unfold DimG.firstLocal
    simp only [DimG.resized, hk', if_true]
    omega
  · unfold DimG.lastLocal
    simp only [DimG.resized, hk', if_true]
    omega

theorem roundable_true (h : OnRanks nd n fold r minSize var ext used vl lh rh) {k j : Nat} (hk : k < n) (hj : j < nd)
    (hu : used j = true) : (var k).roundable j = true := by
  have f := h.facts hk hj hu
  have hext := h.ext_nonneg j hj
  have a1 := roundDownFlr_spec ((var k).fidx j) f.vl_pos
  have a2 := roundUpFlr_spec ((var k).lidx j + 1) f.vl_pos
  have := f.first
  have := f.last
  have := f.lh0
  have := f.rh0
  unfold XRank.roundable
  rw [f.vvl]
  simp only [Bool.and_eq_true, Bool.not_eq_true', decide_eq_false_iff_not, not_lt]
  unfold XRank.fidx XRank.lidx XRank.firstInner XRank.lastInner at *
  rw [h.isFirst k hk j hj, f.ro, f.hl] at a1 ⊢
  rw [h.isLast k hk j hj, f.ro, f.hr, f.dom] at a2
  rw [h.isLast k hk j hj, f.hr, f.dom]
  simp only [decide_eq_true_eq] at *
  constructor
  · split_ifs at * <;> omega
  · split_ifs at * <;> omega

theorem varVecOk_eq (h : OnRanks nd n fold r minSize var ext used vl lh rh) {k : Nat} (hk : k < n) (ok : Bool) :
    (var k).varVecOk nd ok = ok := by
  unfold XRank.varVecOk
  have : (List.range nd).all (fun j => !(var k).used j || (var k).roundable j) = true := by
    rw [List.all_eq_true]
    intro j hj
    rw [List.mem_range] at hj
    rw [h.used_eq k hk]
    cases hu : used j with
    | false => rfl
    | true => rw [roundable_true h hk hj hu]; rfl
  rw [this, Bool.and_true]

theorem hasMults_iff {k : Nat} : hasMults nd fold r k = true ↔ ∀ j < nd, fold j ∣ r.lsz k j := by
  unfold hasMults
  rw [List.all_eq_true]
  simp only [List.mem_range, decide_eq_true_eq]
  exact ⟨fun h j hj => Int.dvd_of_tmod_eq_zero (h j hj), fun h j hj => Int.tmod_eq_zero_of_dvd (h j hj)⟩

/-- Sizes, offsets and positions of neighbours. -/
theorem nbr_facts {fi : Bool} {oldNbr : Nat → Nat → Option Nat} {opts : List ROpts}
    (hp : Placed fi fold nd oldNbr opts r) {a b j : Nat} (ha : a < opts.length) (hb : b < opts.length) (hj : j < nd) :
    (r.idx b j - r.idx a j = 0 → r.ofs b j = r.ofs a j ∧ r.lsz b j = r.lsz a j) ∧
    (r.idx b j - r.idx a j = 1 → r.ofs b j = r.ofs a j + r.lsz a j) := by
  obtain ⟨S, hS⟩ := exists_sizes hp.grid hp.aligned
  have ea := rankOffset_eq hp.grid ha hj (fun q hq => hS q hq j hj)
  have eb := rankOffset_eq hp.grid hb hj (fun q hq => hS q hq j hj)
  have ga := (hp.grid.lt a ha j hj).1
  rw [← hp.ofs] at ea eb
  constructor
  · intro h
    have : r.idx b j = r.idx a j := by omega
    refine ⟨by rw [ea, eb, this], ?_⟩
    rw [hS a ha j hj, hS b hb j hj, this]
  · intro h
    have : (r.idx b j).toNat = (r.idx a j).toNat + 1 := by omega
    rw [eb, ea, this, Finset.sum_range_succ, hS a ha j hj, Int.toNat_of_nonneg ga]

/-- The size check. -/
theorem size_facts {fi : Bool} {oldNbr : Nat → Nat → Option Nat} {opts : List ROpts}
    (h : placeRanks fi fold nd oldNbr minSize opts = .ok r) (hne : opts ≠ []) :
    Placed fi fold nd oldNbr opts r ∧
    ∀ a < opts.length, ∀ j < nd, r.num.getD j 0 > 1 → (minSize a j : Int) ≤ r.lsz a j := by
  unfold placeRanks at h
  cases hs : setupRanks fi fold nd oldNbr opts with
  | throws => rw [hs] at h; cases h
  | undefined => rw [hs] at h; cases h
  | ok r' =>
    rw [hs, Outcome.bind_ok] at h
    unfold checkSizes at h
    split at h
    · cases h
    rename_i hmin
    simp only [Outcome.ok.injEq] at h
    subst h
    refine ⟨placed_of_setup hne hs, ?_⟩
    simp only [Bool.not_eq_true', Bool.not_eq_false, allRD_iff] at hmin
    intro a ha j hj h1
    have := hmin a ha j hj
    simp only [Bool.and_eq_false_iff, decide_eq_false_iff_not] at this
    rcases this with h2 | h2
    · exact absurd h1 h2
    · omega

/-- Ranges sent and received match. -/
theorem range_match {fi : Bool} {oldNbr : Nat → Nat → Option Nat} {opts : List ROpts}
    (hp : Placed fi fold nd oldNbr opts r) (h : OnRanks nd opts.length fold r minSize var ext used vl lh rh)
    {a b j : Nat} (ha : a < opts.length) (hb : b < opts.length) (hj : j < nd) (hu : used j = true)
    (hnear : -1 ≤ r.idx b j - r.idx a j ∧ r.idx b j - r.idx a j ≤ 1) (vec : Bool) :
    (var a).range vec true ext (fun j => r.idx b j - r.idx a j) j =
      (var b).range vec false ext (fun j => r.idx a j - r.idx b j) j := by
  have fa := h.facts ha hj hu
  have fb := h.facts hb hj hu
  have hn := nbr_facts hp ha hb hj
  have hn' := nbr_facts hp hb ha hj
  unfold XRank.range XRank.halo
  simp only [Bool.not_true, Bool.not_false, if_true, Bool.false_eq_true, if_false]
  have cases3 : r.idx b j - r.idx a j = -1 ∨ r.idx b j - r.idx a j = 0 ∨ r.idx b j - r.idx a j = 1 := by omega
  unfold XRank.firstOuter XRank.lastOuter XRank.fidx XRank.lidx XRank.firstInner XRank.lastInner
  rw [h.isFirst a ha j hj, h.isLast a ha j hj, h.isFirst b hb j hj, h.isLast b hb j hj, fa.vvl, fb.vvl, fa.hl, fb.hl, fa.hr,
    fb.hr, fa.ro, fb.ro, fa.dom, fb.dom]
  rcases cases3 with e | e | e
  · have e' : r.idx a j - r.idx b j = 1 := by omega
    have := hn'.2 e'
    rw [e, e']
    simp only [if_true, (by decide : ¬ ((1 : Int) = -1)), if_false]
    rw [this]
    rw [show r.ofs b j + r.lsz b j - 1 + 1 = r.ofs b j + r.lsz b j by omega]
  · have e' : r.idx a j - r.idx b j = 0 := by omega
    have e2 : r.idx a j = r.idx b j := by omega
    have := hn.1 e
    rw [e, e']
    simp only [(by decide : ¬ ((0 : Int) = -1)), (by decide : ¬ ((0 : Int) = 1)), if_false]
    rw [this.1, this.2, e2]
  · have e' : r.idx a j - r.idx b j = -1 := by omega
    have := hn.2 e
    rw [e, e']
    simp only [if_true, (by decide : ¬ ((1 : Int) = -1)), if_false]
    rw [this]
    simp only [Prod.mk.injEq]
    omega

end Yask.Mpi
