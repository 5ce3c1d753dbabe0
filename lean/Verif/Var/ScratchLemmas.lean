import Verif.Spec.ScratchSpec
import Verif.Var.InfoLemmas

/-! Helper lemmas: sizes and positions of scratch vars. -/

namespace Yask.Var
open Spec

variable {V : Type}

theorem scratchCalls_mem {c : RunCfg} {wl wr : Nat → Int} {posn : Nat → Option Nat} {j : Nat} :
    ∀ x ∈ scratchCalls c wl wr posn j, posn j = some x.1 ∧ noHalo x.2.1 = true := by
  intro x hx
  unfold scratchCalls at hx
  split at hx
  · simp at hx
  · next p hp =>
    simp only [List.mem_cons, List.not_mem_nil, or_false] at hx
    rcases hx with rfl | rfl | rfl | rfl | rfl | rfl <;> exact ⟨hp, rfl⟩

theorem moveCalls_mem {c : RunCfg} {mb : Box} {k : KVar V} {j : Nat} :
    ∀ x ∈ moveCalls c mb k j, k.posn j = some x.1 ∧ noHalo x.2.1 = true := by
  intro x hx
  unfold moveCalls at hx
  split at hx
  · simp at hx
  · next p hp =>
    simp only [List.mem_cons, List.not_mem_nil, or_false] at hx
    rcases hx with rfl | rfl <;> exact ⟨hp, rfl⟩

theorem setScratch_spec {c : RunCfg} {wl wr : Nat → Int} {k k' : KVar V} (hk : k.Ok c) (h : k.setScratch c wl wr = some k') :
    k'.Ok c ∧ k.Kept k' ∧ ∀ j < c.nd, ∀ p d, k'.posn j = some p → k'.v.g.dims[p]? = some d →
      d.domain = (c.dim j).microSize ∧ d.lExt = scratchExt c j ∧ d.rExt = scratchExt c j := by
  unfold KVar.setScratch at h
  obtain ⟨v, hv, rfl⟩ := Option.map_eq_some_iff.1 h
  have hkept : k.Kept { k with v := v } := by
    refine ⟨rfl, ⟨rfl, rfl, rfl⟩, (runSettings_core hv).2.2, (runSettings_core hv).2.1, runSettings_key hv fun x hx => ?_⟩
    obtain ⟨j, _, hx⟩ := List.mem_flatMap.1 hx
    exact (scratchCalls_mem x hx).2
  refine ⟨Kept.ok hkept (runSettings_reach hk.reach hv) hk, hkept, ?_⟩
  intro j hj p d hp hd
  have := runSettings_dim hv (fun j _ x hx => (scratchCalls_mem x hx).1) hk.inj hj hp
  obtain ⟨d0, h0, h1, _⟩ := hk.valid j hj p hp
  simp only at hp hd
  rw [hd, h0] at this
  simp only [Option.map_some, Option.some.injEq, scratchCalls, hp, List.foldl_cons, List.foldl_nil] at this
  exact ⟨congrArg DimG.domain this, congrArg DimG.lExt this, congrArg DimG.rExt this⟩

theorem moveTo_spec {c : RunCfg} {mb : Box} {k k' : KVar V} (hk : k.Ok c) (h : KVar.moveTo c mb k = some k') :
    k'.Ok c ∧ k.Kept k' ∧ ∀ j < c.nd, ∀ p d, k'.posn j = some p → k'.v.g.dims[p]? = some d →
      d.rankOfs = (c.dim j).rankBeg ∧ d.localOfs = roundDownFlr ((mb.getD j (0, 0)).1 - (c.dim j).rankBeg) d.varVL ∧
      ∃ d0, k.v.g.dims[p]? = some d0 ∧ d.domain = d0.domain ∧ d.lExt = d0.lExt ∧ d.rExt = d0.rExt := by
  unfold KVar.moveTo at h
  obtain ⟨v, hv, rfl⟩ := Option.map_eq_some_iff.1 h
  have hkept : k.Kept { k with v := v } := by
    refine ⟨rfl, ⟨rfl, rfl, rfl⟩, (runSettings_core hv).2.2, (runSettings_core hv).2.1, runSettings_key hv fun x hx => ?_⟩
    obtain ⟨j, _, hx⟩ := List.mem_flatMap.1 hx
    exact (moveCalls_mem x hx).2
  refine ⟨Kept.ok hkept (runSettings_reach hk.reach hv) hk, hkept, ?_⟩
  intro j hj p d hp hd
  have := runSettings_dim hv (fun j _ x hx => (moveCalls_mem x hx).1) hk.inj hj hp
  obtain ⟨d0, h0, h1, _⟩ := hk.valid j hj p hp
  simp only at hp hd
  rw [hd, h0] at this
  simp only [Option.map_some, Option.some.injEq, moveCalls, hp, h0, Option.getD_some, List.foldl_cons, List.foldl_nil] at this
  have hkd : d.kind = .domain := by
    have h3 := congrArg DimG.kind this
    simp only [DimG.core, Setting.modify] at h3
    rw [h3, h1]
  have hvl : d.varVL = d0.varVL := by
    have h3 := congrArg DimG.varVL this
    simpa only [DimG.core, Setting.modify] using h3
  refine ⟨congrArg DimG.rankOfs this, ?_, d0, h0, ?_, ?_, ?_⟩
  · have h4 := congrArg DimG.localOfs this
    simp only [DimG.core, Setting.modify, hkd, h1, reduceCtorEq, if_false] at h4
    rw [h4, hvl]
  · have := congrArg DimG.domain this; exact this
  · have := congrArg DimG.lExt this; exact this
  · have := congrArg DimG.rExt this; exact this

/-- What `ScratchAt` means for the sizes. -/
theorem scratchAt_spec {c : RunCfg} {wl wr : Nat → Int} {mb : Box} {k k' : KVar V} (hk : k.Ok c) (h : ScratchAt c wl wr mb k k') :
    k'.Ok c ∧ k'.posn = k.posn ∧ (∀ p : Nat, (k'.v.g.dims[p]?).map DimG.key = (k.v.g.dims[p]?).map DimG.key) ∧
    ∀ j < c.nd, ∀ p d, k'.posn j = some p → k'.v.g.dims[p]? = some d →
      d.rankOfs = (c.dim j).rankBeg ∧ d.localOfs = roundDownFlr ((mb.getD j (0, 0)).1 - (c.dim j).rankBeg) d.varVL ∧
      d.domain = (c.dim j).microSize ∧ d.lExt = scratchExt c j ∧ d.rExt = scratchExt c j := by
  obtain ⟨k1, m, h1, h2⟩ := h
  obtain ⟨a1, a2, a3⟩ := setScratch_spec hk h1
  have hk1 : KVar.Ok c { k1 with v := { k1.v with mem := m } } := ⟨Reachable.storage _ _ a1.reach, a1.inj, a1.valid, a1.all, a1.vlen⟩
  obtain ⟨b1, b2, b3⟩ := moveTo_spec hk1 h2
  refine ⟨b1, by rw [b2.posn]; exact a2.posn, fun p => by rw [Kept.dim b2 p]; exact Kept.dim a2 p, ?_⟩
  intro j hj p d hp hd
  obtain ⟨c1, c2, d0, c3, c4, c5, c6⟩ := b3 j hj p d hp hd
  obtain ⟨e1, e2, e3⟩ := a3 j hj p d0 (by rw [b2.posn] at hp; exact hp) c3
  exact ⟨c1, c2, by rw [c4, e1], by rw [c5, e2], by rw [c6, e3]⟩

/-- The pads of a domain dim. -/
theorem pads_ge {g : Geom} (hok : g.Ok) {d : DimG} (hd : d ∈ g.dims) (hk : d.kind = .domain) (hv : 1 < d.solnVL → g.vlenGt1 = true) :
    d.lHalo + d.lExt + (d.solnVL - 1) ≤ d.lPad ∧ d.rHalo + d.rExt + (d.solnVL - 1) ≤ d.rPad := by
  have hdo := hok.dims d hd
  obtain ⟨p1, p2⟩ := hok.lfull d hd hk
  have hset := (settingsOk_iff d).1 hdo.set_ok
  have hs := hdo.svl
  constructor
  · refine le_trans ?_ p1
    have := roundUp_ge (max (d.lHalo + d.lExt + d.reqLEpad) d.reqLPad) hs
    unfold DimG.newLPad
    simp only [Bool.false_eq_true, if_false]
    split
    · omega
    · next hn =>
      have : ¬ 1 < d.solnVL := fun h => hn (hv h)
      omega
  · refine le_trans ?_ p2
    have := roundUp_ge (d.domain + max (d.rHalo + d.rExt + d.reqREpad) d.reqRPad) hs
    unfold DimG.newRPad0
    simp only
    split
    · omega
    · next hn =>
      have : ¬ 1 < d.solnVL := fun h => hn (hv h)
      omega

/-- Moving a scratch var never fails. -/
theorem runSettings_some {v : YVar V} {cs : List (Nat × Setting × Int)}
    (h : ∀ x ∈ cs, x.2.1.needResize = false ∧ ∀ v' : YVar V, v'.g.dims.map (fun d => (d.kind, d.varVL)) = v.g.dims.map (fun d => (d.kind, d.varVL)) →
      ∃ d, v'.g.dims[x.1]? = some d ∧ x.2.1.allowed x.2.2 d = true) : ∃ v', runSettings v cs = some v' := by
  induction cs generalizing v with
  | nil => exact ⟨v, rfl⟩
  | cons x cs ih =>
    unfold runSettings
    obtain ⟨h1, h2⟩ := h x List.mem_cons_self
    obtain ⟨d, hd, ha⟩ := h2 v rfl
    have e : callSetting v x.1 x.2.1 x.2.2 =
        ({ v with g := { v.g with dims := v.g.dims.set x.1 (x.2.1.modify x.2.2 d) } }, false) := by
      unfold callSetting
      simp [hd, ha, h1]
    rw [e]
    simp only [Bool.false_eq_true, if_false]
    refine ih fun y hy => ?_
    obtain ⟨g1, g2⟩ := h y (List.mem_cons_of_mem _ hy)
    refine ⟨g1, fun v' hv' => g2 v' ?_⟩
    rw [hv']
    simp only [List.map_set]
    apply List.ext_getElem?
    intro i
    rw [List.getElem?_set]
    split
    · next hi =>
      subst hi
      have hlt := (List.getElem?_eq_some_iff.1 hd).1
      simp only [List.length_map, hlt, if_true]
      rw [List.getElem?_map, hd]
      cases x.2.1 <;> rfl
    · rfl

theorem moveTo_some {c : RunCfg} (mb : Box) {k : KVar V} (hk : k.Ok c) : ∃ k', KVar.moveTo c mb k = some k' := by
  obtain ⟨v, hv⟩ : ∃ v, runSettings k.v ((List.range c.nd).flatMap (moveCalls c mb k)) = some v := by
    apply runSettings_some
    intro x hx
    obtain ⟨j, hj, hx⟩ := List.mem_flatMap.1 hx
    rw [List.mem_range] at hj
    have hp := (moveCalls_mem x hx).1
    obtain ⟨d0, h0, h1, _⟩ := hk.valid j hj _ hp
    have hx' := hx
    unfold moveCalls at hx
    rw [hp] at hx
    simp only [h0, Option.map_some, Option.getD_some, List.mem_cons, List.not_mem_nil, or_false] at hx
    have hdim : ∀ v' : YVar V, v'.g.dims.map (fun d => (d.kind, d.varVL)) = k.v.g.dims.map (fun d => (d.kind, d.varVL)) →
        ∃ d, v'.g.dims[x.1]? = some d ∧ d.kind = .domain ∧ d.varVL = d0.varVL := by
      intro v' hv'
      have e := congrArg (·[x.1]?) hv'
      simp only [List.getElem?_map, h0, Option.map_some] at e
      obtain ⟨d, hd, e⟩ := Option.map_eq_some_iff.1 e
      rw [Prod.mk.injEq] at e
      exact ⟨d, hd, by rw [e.1, h1], e.2⟩
    have hvp := (hk.reach.ok.dims d0 (List.mem_of_getElem? h0)).vvl_pos
    rcases hx with hx | hx
    · refine ⟨by rw [hx]; rfl, fun v' hv' => ?_⟩
      obtain ⟨d, hd, e1, e2⟩ := hdim v' hv'
      refine ⟨d, hd, ?_⟩
      rw [hx]; simp [Setting.allowed, e1]
    · refine ⟨by rw [hx]; rfl, fun v' hv' => ?_⟩
      obtain ⟨d, hd, e1, e2⟩ := hdim v' hv'
      refine ⟨d, hd, ?_⟩
      rw [hx]
      simp only [Setting.allowed, e1, e2, beq_self_eq_true, Bool.true_and, Bool.or_eq_true, decide_eq_true_eq]
      left
      rw [imodFlr_eq _ _ hvp]
      exact Int.emod_eq_zero_of_dvd (roundDownFlr_spec _ hvp).2.2
  exact ⟨_, by unfold KVar.moveTo; rw [hv]; rfl⟩

end Yask.Var
