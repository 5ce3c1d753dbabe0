import Verif.Props.VarSteps
import Verif.Props.VarCompare

/-!
# C21, C22, C23: effects of single calls on a var
-/

namespace Yask
open Var Spec

variable {V : Type}

/-- What a call of a size or padding function promises, in terms of the values that the var reports afterwards (`d'`) and
before (`d`): sizes of the domain, of halos and of pads. -/
def Promised (s : Setting) (n : Int) (d d' : DimG) : Prop :=
  match s with
  | .size => d'.domain = n ∧ d'.lHalo = d.lHalo ∧ d'.rHalo = d.rHalo
  | .leftHalo => d'.lHalo = n ∧ d'.rHalo = d.rHalo ∧ d'.domain = d.domain ∧ n ≤ d'.lPad
  | .rightHalo => d'.rHalo = n ∧ d'.lHalo = d.lHalo ∧ d'.domain = d.domain ∧ n ≤ d'.rPad
  | .halo => d'.lHalo = n ∧ d'.rHalo = n ∧ d'.domain = d.domain ∧ n ≤ d'.lPad ∧ n ≤ d'.rPad
  | .leftMinPad => n ≤ d'.lPad ∧ d'.lHalo = d.lHalo ∧ d'.rHalo = d.rHalo ∧ d'.domain = d.domain
  | .rightMinPad => n ≤ d'.rPad ∧ d'.lHalo = d.lHalo ∧ d'.rHalo = d.rHalo ∧ d'.domain = d.domain
  | .minPad => n ≤ d'.lPad ∧ n ≤ d'.rPad ∧ d'.lHalo = d.lHalo ∧ d'.rHalo = d.rHalo ∧ d'.domain = d.domain
  | .leftExtraPad => d.lHalo + n ≤ d'.lPad ∧ d'.lHalo = d.lHalo ∧ d'.rHalo = d.rHalo ∧ d'.domain = d.domain
  | .rightExtraPad => d.rHalo + n ≤ d'.rPad ∧ d'.lHalo = d.lHalo ∧ d'.rHalo = d.rHalo ∧ d'.domain = d.domain
  | .extraPad => d.lHalo + n ≤ d'.lPad ∧ d.rHalo + n ≤ d'.rPad ∧ d'.lHalo = d.lHalo ∧ d'.rHalo = d.rHalo ∧ d'.domain = d.domain
  -- earlier requests stay in force
  | .updMinPad => n ≤ d'.lPad ∧ n ≤ d'.rPad ∧ d.reqLPad ≤ d'.lPad ∧ d.reqRPad ≤ d'.rPad ∧ d'.lHalo = d.lHalo ∧
      d'.rHalo = d.rHalo ∧ d'.domain = d.domain
  | .updLeftMinPad => n ≤ d'.lPad ∧ d.reqLPad ≤ d'.lPad ∧ d'.lHalo = d.lHalo ∧ d'.rHalo = d.rHalo ∧ d'.domain = d.domain
  | .updRightMinPad => n ≤ d'.rPad ∧ d.reqRPad ≤ d'.rPad ∧ d'.lHalo = d.lHalo ∧ d'.rHalo = d.rHalo ∧ d'.domain = d.domain
  | .updExtraPad => d.lHalo + n ≤ d'.lPad ∧ d.rHalo + n ≤ d'.rPad ∧ d.lHalo + d.reqLEpad ≤ d'.lPad ∧
      d.rHalo + d.reqREpad ≤ d'.rPad ∧ d'.lHalo = d.lHalo ∧ d'.rHalo = d.rHalo ∧ d'.domain = d.domain
  | .leftExt => d.lHalo + n ≤ d'.lPad ∧ d'.lHalo = d.lHalo ∧ d'.rHalo = d.rHalo ∧ d'.domain = d.domain
  | .rightExt => d.rHalo + n ≤ d'.rPad ∧ d'.lHalo = d.lHalo ∧ d'.rHalo = d.rHalo ∧ d'.domain = d.domain
  | .rankOfs => d'.rankOfs = n ∧ d'.lPad = d.lPad ∧ d'.rPad = d.rPad ∧ d'.domain = d.domain
  | .localOfs | .firstMisc => d'.localOfs = n ∧ d'.lPad = d.lPad ∧ d'.rPad = d.rPad ∧ d'.domain = d.domain

/-- The requests of the other side or kind that a call leaves as they are. -/
def KeepsRequests (s : Setting) (d d' : DimG) : Prop :=
  (s ≠ .leftMinPad → s ≠ .minPad → d.reqLPad ≤ d'.lPad ∨ d.kind ≠ .domain) ∧
  (s ≠ .rightMinPad → s ≠ .minPad → d.reqRPad ≤ d'.rPad ∨ d.kind ≠ .domain) ∧
  (s ≠ .leftExtraPad → s ≠ .extraPad → d'.lHalo + d.reqLEpad ≤ d'.lPad ∨ d.kind ≠ .domain) ∧
  (s ≠ .rightExtraPad → s ≠ .extraPad → d'.rHalo + d.reqREpad ≤ d'.rPad ∨ d.kind ≠ .domain)

/-- What a successful setting call does to the dim it is called for. -/
theorem callSetting_dim {v v' : YVar V} {posn : Nat} {s : Setting} {n : Int} (h : callSetting v posn s n = (v', false)) :
    ∃ d d', v.g.dims[posn]? = some d ∧ v'.g.dims[posn]? = some d' ∧ s.allowed n d = true ∧
      (s.needResize = true → ∃ lo, d' = { (s.modify n d).resized v.g.vlenGt1 v.g.allowAddlPad v.mem.isSome with localOfs := lo }) ∧
      (s.needResize = false → d' = s.modify n d) := by
  unfold callSetting at h
  split at h
  · cases h
  next d hd =>
  have hlt : posn < v.g.dims.length := (List.getElem?_eq_some_iff.1 hd).1
  split at h
  · cases h
  next ha =>
  simp only [Bool.not_eq_true', Bool.not_eq_false] at ha
  simp only at h
  split at h
  · next hn =>
    split at h
    · next g2 hg2 =>
      cases h
      unfold Geom.resize at hg2
      simp only at hg2
      have base : ((v.g.dims.set posn (s.modify n d)).map (DimG.resized v.g.vlenGt1 v.g.allowAddlPad v.mem.isSome))[posn]? =
          some ((s.modify n d).resized v.g.vlenGt1 v.g.allowAddlPad v.mem.isSome) := by
        rw [List.getElem?_map, List.getElem?_set_self hlt]; rfl
      have init : ∀ (ds : List DimG) (x : DimG), ds[posn]? = some x → ∃ lo, (initValidSteps ds)[posn]? = some { x with localOfs := lo } := by
        intro ds x hx
        cases ds with
        | nil => simp at hx
        | cons y ys =>
          cases posn with
          | zero =>
            simp only [List.getElem?_cons_zero, Option.some.injEq] at hx
            subst hx
            simp only [initValidSteps, List.getElem?_cons_zero]
            split
            · exact ⟨0, rfl⟩
            · exact ⟨y.localOfs, rfl⟩
          | succ p =>
            simp only [List.getElem?_cons_succ] at hx
            simp only [initValidSteps, List.getElem?_cons_succ]
            exact ⟨x.localOfs, hx⟩
      split at hg2
      · cases hg2
      split at hg2
      · cases hg2
      split at hg2
      · simp only [Option.some.injEq] at hg2
        subst hg2
        obtain ⟨lo, hlo⟩ := init _ _ base
        exact ⟨d, _, hd, hlo, ha, fun _ => ⟨lo, rfl⟩, fun h0 => by rw [hn] at h0; cases h0⟩
      · simp only [Option.some.injEq] at hg2
        subst hg2
        exact ⟨d, _, hd, base, ha, fun _ => ⟨_, rfl⟩, fun h0 => by rw [hn] at h0; cases h0⟩
    · cases h
  · next hn =>
    cases h
    exact ⟨d, s.modify n d, hd, List.getElem?_set_self hlt, ha, fun h0 => absurd h0 hn, fun _ => rfl⟩

/-- C21 (each call does what it promises). A size, halo, padding or offset call that returns normally has the effect it
promises on the dim it names, and leaves the other requests in force. For all vars a program can obtain, all calls and all
values. -/
theorem C21_call_effect (v v' : YVar V) (hr : Reachable v) (posn : Nat) (s : Setting) (n : Int)
    (h : callSetting v posn s n = (v', false)) :
    ∃ d d', v.g.dims[posn]? = some d ∧ v'.g.dims[posn]? = some d' ∧ Promised s n d d' ∧ KeepsRequests s d d' := by
  have hr' : Reachable v' := Reachable.setting v v' posn s n hr h
  obtain ⟨d, d', hd, hd', ha, h1, h2⟩ := callSetting_dim h
  refine ⟨d, d', hd, hd', ?_⟩
  have hok := hr.ok.dims d (List.mem_of_getElem? hd)
  have hok' := hr'.ok.dims d' (List.mem_of_getElem? hd')
  have hs' := (settingsOk_iff d').1 hok'.set_ok
  have hl' := hok'.lpad
  have hrp' := hok'.rpad
  have hsd := (settingsOk_iff d).1 hok.set_ok
  have hl := hok.lpad
  have hrp := hok.rpad
  by_cases hn : s.needResize = true
  · obtain ⟨lo, e⟩ := h1 hn
    have e0 : d'.kind = (s.modify n d).kind := by rw [e]; rfl
    have e1 : d'.lHalo = (s.modify n d).lHalo := by rw [e]; rfl
    have e2 : d'.rHalo = (s.modify n d).rHalo := by rw [e]; rfl
    have e3 : d'.domain = (s.modify n d).domain := by rw [e]; rfl
    have e4 : d'.reqLPad = (s.modify n d).reqLPad := by rw [e]; rfl
    have e5 : d'.reqRPad = (s.modify n d).reqRPad := by rw [e]; rfl
    have e6 : d'.reqLEpad = (s.modify n d).reqLEpad := by rw [e]; rfl
    have e7 : d'.reqREpad = (s.modify n d).reqREpad := by rw [e]; rfl
    have e8 : d'.lExt = (s.modify n d).lExt := by rw [e]; rfl
    have e9 : d'.rExt = (s.modify n d).rExt := by rw [e]; rfl
    clear e h1 h2 h hd hd' hr hr' hok hok' hl hrp
    rw [(modify_kind s n d).1] at e0
    rw [e0] at hl' hrp'
    have hkd : s ≠ .size → d.kind = .domain := by
      intro hs
      cases s <;> simp_all [Setting.allowed, Setting.needResize]
    have hd2 : d.kind = .domain → _ := fun hk => And.intro (hl' hk) (hrp' hk)
    clear hl' hrp'
    unfold Promised KeepsRequests
    by_cases hk : d.kind = .domain
    · have hd3 := hd2 hk
      cases s <;> simp only [Setting.modify] at e1 e2 e3 e4 e5 e6 e7 e8 e9 <;>
        simp only [hk, ne_eq, not_true_eq_false, or_false, reduceCtorEq, not_false_eq_true, true_implies, false_implies, and_true,
          true_and] <;> first | omega | (exact absurd hn (by decide))
    · cases s <;> first
        | exact absurd (hkd (by decide)) hk
        | (simp only [Setting.modify] at e1 e2 e3; simp [hk, e1, e2, e3])
  · have e := h2 (by simpa using hn)
    unfold Promised KeepsRequests
    cases s <;> first
      | exact absurd rfl hn
      | (simp only [Setting.modify] at e
         subst e
         by_cases hk : d.kind = .domain
         · have hl2 := hl hk
           have hr2 := hrp hk
           simp only [ne_eq, reduceCtorEq, not_false_eq_true, true_implies, true_and, and_true]
           omega
         · simp [hk])

/-- An accepted call on a var with storage (`exVar` has halos of 2 in the second dim). -/
example : Reachable exVar ∧ (callSetting exVar 1 .rightMinPad 2).2 = false ∧ (callSetting exVar 1 .updMinPad 2).2 = false :=
  ⟨exVar_reachable, by decide +kernel, by decide +kernel⟩

/-- C23 (flags). The dirty flag of every step index is one of the flags that the var has: with a step dim, steps use the flag of
the place they are stored in; without one, there is one flag. -/
theorem C23_flag_exists (v : YVar V) (hr : Reachable v) (hs : StepsAlloc v.g.api) (t : Int) :
    ∃ i, v.g.allocStepIndex [t] = .ok i ∧ 0 ≤ i ∧ i < v.g.numDirty := by
  have hok := hr.ok
  rw [hok.dirty]
  unfold Geom.allocStepIndex newDirty
  cases hds : v.g.dims with
  | nil => simp [Geom.hasStep, hds]
  | cons d ds =>
    have htail := hok.stepFirst
    rw [hds] at htail
    by_cases hk : d.kind = .step
    · have hd := hok.dims d (by rw [hds]; simp)
      have ha := (hd.nd_pad (by rw [hk]; decide)).2.2
      have hpos : 0 < d.alloc := hs ⟨true, d.firstLocal, d.lastLocal, d.alloc⟩ (by
        simp [Geom.api, hds, hk]) rfl
      have hh : v.g.hasStep = true := by simp [Geom.hasStep, hds, hk]
      have hw : v.g.stepSize = d.domain := by simp [Geom.stepSize, hds]
      simp only [hh, if_true, Geom.wrapStep, hw, List.getD_cons_zero]
      rw [if_neg (by omega)]
      refine ⟨_, rfl, imodFlr_nonneg _ (by omega), ?_⟩
      have := imodFlr_lt t (b := d.domain) (by omega)
      simp [hk, ha, this]
    · have hh : v.g.hasStep = false := by
        simp [Geom.hasStep, hds, hk]
      have hn : (d :: ds).find? (fun d => d.kind == .step) = none := by
        rw [List.find?_eq_none]
        intro x hx
        simp only [List.mem_cons] at hx
        rcases hx with rfl | hx
        · simpa using hk
        · simpa using htail x hx
      rw [hn, hh]
      simp

/-- C22 (nothing to compare with). Without a reference var, or with one of other dims or another number of elements, the result
is the number of all elements, so it is not zero if there are any. -/
theorem C22_no_reference (v : YVar V) (ref : Option (YVar V)) (sameDims : Bool) (tol : V → V → Bool)
    (env : ParForEnv) (nthr : Nat) (firstInner : Bool) (order : List (List Int × Nat) → List (List Int × Nat))
    (hpos : ∀ d ∈ v.g.dims, 0 < d.alloc)
    (h : ref = none ∨ sameDims = false ∨ ∃ r, ref = some r ∧ v.g.numReals ≠ r.g.numReals) :
    compareVars v ref sameDims tol env nthr firstInner order = .ok (v.g.dims.map DimG.alloc).prod ∧
      0 < (v.g.dims.map DimG.alloc).prod := by
  have hp : prodVals (v.g.dims.map DimG.alloc) = (v.g.dims.map DimG.alloc).prod := by
    rw [prodVals_eq]
  refine ⟨?_, ?_⟩
  · unfold compareVars
    simp only [hp]
    rcases h with rfl | rfl | ⟨r, rfl, hr⟩
    · rfl
    · cases ref <;> simp
    · simp [hr]
  · rw [← hp]
    apply prodVals_pos
    intro x hx
    obtain ⟨d, hd, rfl⟩ := List.mem_map.1 hx
    exact hpos d hd

example : ∀ d ∈ exVar.g.dims, 0 < d.alloc := by decide +kernel

end Yask
