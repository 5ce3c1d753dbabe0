import Verif.Var.InfoModel
import Verif.Var.StepLemmas
import Verif.Spec.AccessSpec
import Verif.Spec.InfoSpec

/-! Helper lemmas: what `update_var_info` sets. -/

namespace Yask.Var
open Spec

variable {V : Type}

/-- The fields of a dim that only setting calls change. -/
def DimG.core (d : DimG) : DimG :=
  { d with lPad := 0, rPad := 0, alloc := 0, vecLPad := 0, vecAlloc := 0, localOfs := if d.kind = .step then 0 else d.localOfs }

theorem core_resized (v a al : Bool) (d : DimG) : (d.resized v a al).core = d.core := by
  unfold DimG.core DimG.resized; rfl

theorem core_initValid (ds : List DimG) : (initValidSteps ds).map DimG.core = ds.map DimG.core := by
  cases ds with
  | nil => rfl
  | cons d ds =>
    simp only [initValidSteps, List.map_cons, List.cons.injEq, and_true]
    split
    · next h => simp [DimG.core, h]
    · rfl

theorem core_modify (s : Setting) (n : Int) (d : DimG) : (s.modify n d).core = (s.modify n d.core).core := by
  by_cases hk : d.kind = .step <;> cases s <;> simp [Setting.modify, DimG.core, hk]

theorem resize_core {g g' : Geom} {al : Bool} (h : g.resize al = some g') :
    g'.dims.map DimG.core = g.dims.map DimG.core ∧ g'.vlenGt1 = g.vlenGt1 ∧ g'.isVec = g.isVec := by
  unfold Geom.resize at h
  split at h
  · cases h
  · simp only at h
    have e : (g.dims.map (DimG.resized g.vlenGt1 g.allowAddlPad al)).map DimG.core = g.dims.map DimG.core := by
      rw [List.map_map]
      exact List.map_congr_left fun d _ => core_resized _ _ _ d
    split at h
    · cases h
    · split at h <;> cases h
      · exact ⟨by rw [core_initValid]; exact e, rfl, rfl⟩
      · exact ⟨e, rfl, rfl⟩

/-- The effect of one call on the cores. -/
theorem callSetting_core {v v' : YVar V} {p : Nat} {s : Setting} {n : Int} (h : callSetting v p s n = (v', false)) :
    ∃ d, v.g.dims[p]? = some d ∧ s.allowed n d = true ∧
      v'.g.dims.map DimG.core = (v.g.dims.map DimG.core).set p (s.modify n d.core).core ∧
      v'.g.vlenGt1 = v.g.vlenGt1 ∧ v'.mem = v.mem := by
  unfold callSetting at h
  cases hd : v.g.dims[p]? with
  | none => rw [hd] at h; simp at h
  | some d =>
    rw [hd] at h
    simp only at h
    by_cases ha : s.allowed n d = true
    · simp only [ha, Bool.not_true, Bool.false_eq_true, if_false] at h
      refine ⟨d, rfl, ha, ?_⟩
      have e : ((v.g.dims.set p (s.modify n d)).map DimG.core) = (v.g.dims.map DimG.core).set p (s.modify n d.core).core := by
        rw [List.map_set, core_modify]
      split at h
      · split at h
        · next g2 hg2 =>
          cases h
          obtain ⟨r1, r2, r3⟩ := resize_core hg2
          exact ⟨by rw [r1]; exact e, r2, rfl⟩
        · cases h
      · cases h
        exact ⟨e, rfl, rfl⟩
    · simp only [ha, Bool.not_false, if_true] at h
      cases h

/-- The calls as a function of the cores. -/
def coreCalls (ds : List DimG) : List (Nat × Setting × Int) → List DimG
  | [] => ds
  | c :: cs => coreCalls (match ds[c.1]? with
    | some d => ds.set c.1 (c.2.1.modify c.2.2 d).core
    | none => ds) cs

theorem runSettings_core {v v' : YVar V} {cs : List (Nat × Setting × Int)} (h : runSettings v cs = some v') :
    v'.g.dims.map DimG.core = coreCalls (v.g.dims.map DimG.core) cs ∧ v'.g.vlenGt1 = v.g.vlenGt1 ∧ v'.mem = v.mem := by
  induction cs generalizing v with
  | nil => cases h; exact ⟨rfl, rfl, rfl⟩
  | cons c cs ih =>
    unfold runSettings at h
    split at h
    · cases h
    · next hf =>
      have hc : callSetting v c.1 c.2.1 c.2.2 = ((callSetting v c.1 c.2.1 c.2.2).1, false) := by
        rw [Bool.not_eq_true] at hf; rw [← hf]
      obtain ⟨d, hd, _, h1, h2, h3⟩ := callSetting_core hc
      obtain ⟨i1, i2, i3⟩ := ih h
      refine ⟨?_, by rw [i2, h2], by rw [i3, h3]⟩
      rw [i1, h1, coreCalls, List.getElem?_map, hd]
      rfl

theorem runSettings_reach {v v' : YVar V} {cs : List (Nat × Setting × Int)} (hr : Reachable v) (h : runSettings v cs = some v') :
    Reachable v' := by
  induction cs generalizing v with
  | nil => cases h; exact hr
  | cons c cs ih =>
    unfold runSettings at h
    split at h
    · cases h
    · next hf =>
      have hc : callSetting v c.1 c.2.1 c.2.2 = ((callSetting v c.1 c.2.1 c.2.2).1, false) := by
        rw [Bool.not_eq_true] at hf; rw [← hf]
      exact ih (.setting _ _ _ _ _ hr hc) h

theorem coreCalls_append (ds : List DimG) (a b : List (Nat × Setting × Int)) :
    coreCalls ds (a ++ b) = coreCalls (coreCalls ds a) b := by
  induction a generalizing ds with
  | nil => rfl
  | cons c a ih => rw [List.cons_append, coreCalls, coreCalls, ih]

theorem coreCalls_length (ds : List DimG) (cs : List (Nat × Setting × Int)) : (coreCalls ds cs).length = ds.length := by
  induction cs generalizing ds with
  | nil => rfl
  | cons c cs ih =>
    rw [coreCalls, ih]
    split <;> simp

/-- Calls for other dims. -/
theorem coreCalls_other (ds : List DimG) (cs : List (Nat × Setting × Int)) (p : Nat) (h : ∀ c ∈ cs, c.1 ≠ p) :
    (coreCalls ds cs)[p]? = ds[p]? := by
  induction cs generalizing ds with
  | nil => rfl
  | cons c cs ih =>
    rw [coreCalls, ih _ fun x hx => h x (List.mem_cons_of_mem _ hx)]
    split
    · rw [List.getElem?_set_ne (h c List.mem_cons_self)]
    · rfl

/-- The calls of one dim among those of all dims. -/
theorem coreCalls_flatMap (ds : List DimG) (n : Nat) (f : Nat → List (Nat × Setting × Int)) (j p : Nat) (hj : j < n)
    (hf : ∀ i, i < n → i ≠ j → ∀ c ∈ f i, c.1 ≠ p) (hp : ∀ c ∈ f j, c.1 = p) :
    (coreCalls ds ((List.range n).flatMap f))[p]? = ds[p]?.map fun d => (f j).foldl (fun d c => (c.2.1.modify c.2.2 d).core) d := by
  obtain ⟨a, b, hab⟩ := List.append_of_mem (List.mem_range.2 hj)
  have hnd : (a ++ j :: b).Nodup := by rw [← hab]; exact List.nodup_range
  have hlt : ∀ i ∈ a ++ j :: b, i < n := by intro i hi; rw [← hab] at hi; exact List.mem_range.1 hi
  have hnj := List.nodup_middle.1 hnd
  rw [List.nodup_cons, List.mem_append] at hnj
  have hne : ∀ l : List Nat, (∀ i ∈ l, i < n ∧ i ≠ j) → ∀ c ∈ l.flatMap f, c.1 ≠ p := by
    intro l hl c hc
    obtain ⟨i, hi, hc⟩ := List.mem_flatMap.1 hc
    exact hf i (hl i hi).1 (hl i hi).2 c hc
  rw [hab, List.flatMap_append, List.flatMap_cons, coreCalls_append, coreCalls_append,
    coreCalls_other _ _ _ (hne b fun i hi => ⟨hlt i (by simp [hi]), fun e => hnj.1 (Or.inr (e ▸ hi))⟩)]
  have h1 := coreCalls_other ds (a.flatMap f) p (hne a fun i hi => ⟨hlt i (by simp [hi]), fun e => hnj.1 (Or.inl (e ▸ hi))⟩)
  rw [← h1]
  generalize coreCalls ds (a.flatMap f) = es
  clear h1 hab hnd hlt hnj hf hne
  generalize f j = cs at hp ⊢
  induction cs generalizing es with
  | nil => simp [coreCalls]
  | cons c cs ih =>
    have hc := hp c List.mem_cons_self
    rw [coreCalls, ih _ (fun x hx => hp x (List.mem_cons_of_mem _ hx)), hc]
    cases he : es[p]? with
    | none => simp [he]
    | some d =>
      have hlt : p < es.length := (List.getElem?_eq_some_iff.1 he).1
      simp [List.getElem?_set_self hlt]

theorem mapM_forall2 {α β : Type} {l : List α} {f : α → Option β} {r : List β} (h : l.mapM f = some r) :
    List.Forall₂ (fun a b => f a = some b) l r := by
  induction l generalizing r with
  | nil => rw [List.mapM_nil] at h; cases h; exact .nil
  | cons a l ih =>
    rw [List.mapM_cons] at h
    cases hf : f a with
    | none => rw [hf] at h; simp at h
    | some b =>
      cases hl : List.mapM f l with
      | none => rw [hf, hl] at h; simp at h
      | some bs =>
        rw [hf, hl] at h
        simp only [Option.bind_eq_bind, Option.bind_some, Option.pure_def, Option.some.injEq] at h
        subst h
        exact .cons hf (ih hl)

/-- What the calls never change. -/
abbrev DimG.key (d : DimG) : DimKind × Int × Int × Int := (d.kind, d.lHalo, d.rHalo, d.solnVL)

theorem key_core (d : DimG) : d.core.key = d.key := rfl

theorem map_key_core (ds : List DimG) : ds.map DimG.key = (ds.map DimG.core).map DimG.key := by
  rw [List.map_map]; rfl

/-- Settings that change no halo. -/
def noHalo : Setting → Bool
  | .leftHalo | .rightHalo | .halo => false
  | _ => true

theorem key_modify (s : Setting) (n : Int) (d : DimG) (h : noHalo s = true) : (s.modify n d).core.key = d.key := by
  cases s <;> first | rfl | (simp [noHalo] at h)

theorem coreCalls_key (ds : List DimG) (cs : List (Nat × Setting × Int)) (h : ∀ c ∈ cs, noHalo c.2.1 = true) :
    (coreCalls ds cs).map DimG.key = ds.map DimG.key := by
  induction cs generalizing ds with
  | nil => rfl
  | cons c cs ih =>
    rw [coreCalls, ih _ fun x hx => h x (List.mem_cons_of_mem _ hx)]
    split
    · next d hd =>
      rw [List.map_set, key_modify _ _ _ (h c List.mem_cons_self)]
      apply List.ext_getElem?
      intro i
      rw [List.getElem?_set]
      split
      · next hi =>
        subst hi
        have hlt := (List.getElem?_eq_some_iff.1 hd).1
        simp only [List.length_map, hlt, if_true]
        rw [List.getElem?_map, hd]; rfl
      · rfl
    · rfl

theorem runSettings_key {v v' : YVar V} {cs : List (Nat × Setting × Int)} (h : runSettings v cs = some v')
    (hc : ∀ c ∈ cs, noHalo c.2.1 = true) : v'.g.dims.map DimG.key = v.g.dims.map DimG.key := by
  rw [map_key_core, (runSettings_core h).1, coreCalls_key _ _ hc, ← map_key_core]

theorem sizeCalls_noHalo (c : RunCfg) (ep mp : Nat → Int) (posn : Nat → Option Nat) (n : Nat) :
    ∀ x ∈ (List.range n).flatMap (sizeCalls c ep mp posn), noHalo x.2.1 = true := by
  intro x hx
  obtain ⟨j, _, hx⟩ := List.mem_flatMap.1 hx
  unfold sizeCalls at hx
  split at hx
  · simp at hx
  · simp only [List.mem_cons, List.not_mem_nil, or_false] at hx
    rcases hx with rfl | rfl | rfl | rfl | rfl <;> rfl

theorem extCalls_noHalo (c : RunCfg) (posn : Nat → Option Nat) (n : Nat) :
    ∀ x ∈ (List.range n).flatMap (extCalls c posn), noHalo x.2.1 = true := by
  intro x hx
  obtain ⟨j, _, hx⟩ := List.mem_flatMap.1 hx
  unfold extCalls at hx
  split at hx
  · simp at hx
  · simp only [List.mem_cons, List.not_mem_nil, or_false] at hx
    rcases hx with rfl | rfl <;> rfl

theorem Kept.refl (k : KVar V) : KVar.Kept k k := ⟨rfl, ⟨rfl, rfl, rfl⟩, rfl, rfl, rfl⟩

theorem Kept.trans {k k' k'' : KVar V} (h : KVar.Kept k k') (h' : KVar.Kept k' k'') : KVar.Kept k k'' :=
  ⟨by rw [h'.posn, h.posn], ⟨by rw [h'.flags.1, h.flags.1], by rw [h'.flags.2.1, h.flags.2.1], by rw [h'.flags.2.2, h.flags.2.2]⟩,
    by rw [h'.mem, h.mem], by rw [h'.vlen, h.vlen], by rw [h'.dims, h.dims]⟩

theorem Kept.dim {k k' : KVar V} (h : KVar.Kept k k') (p : Nat) :
    (k'.v.g.dims[p]?).map DimG.key = (k.v.g.dims[p]?).map DimG.key := by
  rw [← List.getElem?_map, ← List.getElem?_map]; exact congrArg (·[p]?) h.dims

theorem Kept.ok {c : RunCfg} {k k' : KVar V} (h : KVar.Kept k k') (hr : Reachable k'.v) (hk : k.Ok c) : k'.Ok c := by
  have hd := Kept.dim h
  refine ⟨hr, by rw [h.posn]; exact hk.inj, ?_, ?_, ?_⟩
  · intro j hj p hp
    rw [h.posn] at hp
    obtain ⟨d, h1, h2, h3⟩ := hk.valid j hj p hp
    have := hd p
    rw [h1] at this
    cases h4 : k'.v.g.dims[p]? with
    | none => rw [h4] at this; simp at this
    | some d' =>
      rw [h4] at this
      simp only [Option.map_some, Option.some.injEq, DimG.key, Prod.mk.injEq] at this
      exact ⟨d', rfl, by rw [this.1, h2], by rw [this.2.2.2, h3]⟩
  · intro p d' h4 hk'
    have := hd p
    rw [h4] at this
    cases h1 : k.v.g.dims[p]? with
    | none => rw [h1] at this; simp at this
    | some d =>
      rw [h1] at this
      simp only [Option.map_some, Option.some.injEq, DimG.key, Prod.mk.injEq] at this
      obtain ⟨j, hj, hp⟩ := hk.all p d h1 (by rw [← this.1]; exact hk')
      exact ⟨j, hj, by rw [h.posn]; exact hp⟩
  · intro d' hd' hv
    obtain ⟨p, hp⟩ := List.mem_iff_getElem?.1 hd'
    have := hd p
    rw [hp] at this
    cases h1 : k.v.g.dims[p]? with
    | none => rw [h1] at this; simp at this
    | some d =>
      rw [h1] at this
      simp only [Option.map_some, Option.some.injEq, DimG.key, Prod.mk.injEq] at this
      rw [h.vlen]
      exact hk.vlen d (List.mem_of_getElem? h1) (by rw [← this.2.2.2]; exact hv)

/-- Positions of the calls. -/
theorem sizeCalls_posn {c : RunCfg} {ep mp : Nat → Int} {posn : Nat → Option Nat} {j : Nat} :
    ∀ x ∈ sizeCalls c ep mp posn j, posn j = some x.1 := by
  intro x hx
  unfold sizeCalls at hx
  split at hx
  · simp at hx
  · next p hp =>
    simp only [List.mem_cons, List.not_mem_nil, or_false] at hx
    rcases hx with rfl | rfl | rfl | rfl | rfl <;> exact hp

theorem extCalls_posn {c : RunCfg} {posn : Nat → Option Nat} {j : Nat} : ∀ x ∈ extCalls c posn j, posn j = some x.1 := by
  intro x hx
  unfold extCalls at hx
  split at hx
  · simp at hx
  · next p hp =>
    simp only [List.mem_cons, List.not_mem_nil, or_false] at hx
    rcases hx with rfl | rfl <;> exact hp

/-- The dims after the calls of all domain dims. -/
theorem runSettings_dim {v v' : YVar V} {n : Nat} {posn : Nat → Option Nat} {f : Nat → List (Nat × Setting × Int)}
    (h : runSettings v ((List.range n).flatMap f) = some v') (hf : ∀ j < n, ∀ x ∈ f j, posn j = some x.1)
    (hinj : ∀ i < n, ∀ j < n, ∀ p, posn i = some p → posn j = some p → i = j) {j p : Nat} (hj : j < n) (hp : posn j = some p) :
    (v'.g.dims[p]?).map DimG.core = (v.g.dims[p]?).map fun d => (f j).foldl (fun d c => (c.2.1.modify c.2.2 d).core) d.core := by
  rw [← List.getElem?_map, (runSettings_core h).1, coreCalls_flatMap _ n f j p hj]
  · rw [List.getElem?_map, Option.map_map]; rfl
  · intro i hi hne x hx e
    exact hne (hinj i hi j hj p (by rw [hf i hi x hx, e]) hp)
  · intro x hx
    have := hf j hj x hx
    rw [hp] at this
    exact (Option.some.inj this).symm

theorem setSizes_spec {c : RunCfg} {ep mp : Nat → Int} {force : Bool} {k k' : KVar V} (hk : k.Ok c)
    (h : k.setSizes c ep mp force = some k') :
    k'.Ok c ∧ k.Kept k' ∧ ((k.fixed = false ∨ (k.user = false ∧ force = true)) → k'.Set c) := by
  unfold KVar.setSizes at h
  split at h
  · obtain ⟨v, hv, rfl⟩ := Option.map_eq_some_iff.1 h
    have hkept : k.Kept { k with v := v } :=
      ⟨rfl, ⟨rfl, rfl, rfl⟩, (runSettings_core hv).2.2, (runSettings_core hv).2.1, runSettings_key hv (sizeCalls_noHalo c ep mp k.posn c.nd)⟩
    refine ⟨Kept.ok hkept (runSettings_reach hk.reach hv) hk, hkept, fun _ => ?_⟩
    have key : ∀ j < c.nd, ∀ p d, k.posn j = some p → v.g.dims[p]? = some d →
        d.domain = (c.dim j).rankSize ∧ d.rankOfs = (c.dim j).rankBeg ∧ d.localOfs = 0 := by
      intro j hj p d hp hd
      have := runSettings_dim hv (fun j _ => sizeCalls_posn) hk.inj hj hp
      obtain ⟨d0, h0, h1, _⟩ := hk.valid j hj p hp
      rw [hd, h0] at this
      simp only [Option.map_some, Option.some.injEq, sizeCalls, hp, List.foldl_cons, List.foldl_nil] at this
      have hkd : d.kind = .domain := by
        have h3 := congrArg DimG.kind this
        simp only [DimG.core, Setting.modify] at h3
        rw [h3, h1]
      refine ⟨congrArg DimG.domain this, congrArg DimG.rankOfs this, ?_⟩
      have h4 := congrArg DimG.localOfs this
      simp [DimG.core, Setting.modify, hkd, h1] at h4
      exact h4
    exact ⟨fun j hj p d hp hd => (key j hj p d hp hd).1, fun j hj p d hp hd => (key j hj p d hp hd).2.1,
      fun j hj p d hp hd => (key j hj p d hp hd).2.2⟩
  · next hn =>
    cases h
    refine ⟨hk, Kept.refl k, fun hc => absurd ?_ hn⟩
    rcases hc with hc | ⟨hc, hf⟩ <;> simp [hc, *]

theorem setExts_spec {c : RunCfg} {k k' : KVar V} (hk : k.Ok c) (h : k.setExts c = some k') :
    k'.Ok c ∧ k.Kept k' ∧ (k.orig = true → k'.Extended c) ∧ (k.Set c → k'.Set c) := by
  unfold KVar.setExts at h
  split at h
  · obtain ⟨v, hv, rfl⟩ := Option.map_eq_some_iff.1 h
    have hkept : k.Kept { k with v := v } :=
      ⟨rfl, ⟨rfl, rfl, rfl⟩, (runSettings_core hv).2.2, (runSettings_core hv).2.1, runSettings_key hv (extCalls_noHalo c k.posn c.nd)⟩
    have key : ∀ j < c.nd, ∀ p d, k.posn j = some p → v.g.dims[p]? = some d →
        d.lExt = c.leftExt j ∧ d.rExt = c.rightExt j ∧ ∃ d0, k.v.g.dims[p]? = some d0 ∧ d.domain = d0.domain ∧ d.rankOfs = d0.rankOfs ∧
          d.localOfs = d0.localOfs := by
      intro j hj p d hp hd
      have := runSettings_dim hv (fun j _ => extCalls_posn) hk.inj hj hp
      obtain ⟨d0, h0, h1, _⟩ := hk.valid j hj p hp
      rw [hd, h0] at this
      simp only [Option.map_some, Option.some.injEq, extCalls, hp, List.foldl_cons, List.foldl_nil] at this
      have hkd : d.kind = .domain := by
        have h3 := congrArg DimG.kind this
        simp only [DimG.core, Setting.modify] at h3
        rw [h3, h1]
      refine ⟨congrArg DimG.lExt this, congrArg DimG.rExt this, d0, h0, by have := congrArg DimG.domain this; exact this, by have := congrArg DimG.rankOfs this; exact this, ?_⟩
      have h4 := congrArg DimG.localOfs this
      simp [DimG.core, Setting.modify, hkd, h1] at h4
      exact h4
    refine ⟨Kept.ok hkept (runSettings_reach hk.reach hv) hk, hkept, fun _ => ⟨fun j hj p d hp hd => (key j hj p d hp hd).1,
      fun j hj p d hp hd => (key j hj p d hp hd).2.1⟩, fun hs => ⟨?_, ?_, ?_⟩⟩
    all_goals
      intro j hj p d hp hd
      obtain ⟨_, _, d0, h0, e1, e2, e3⟩ := key j hj p d hp hd
    · rw [e1]; exact hs.size j hj p d0 hp h0
    · rw [e2]; exact hs.rankOfs j hj p d0 hp h0
    · rw [e3]; exact hs.localOfs j hj p d0 hp h0
  · next hn =>
    cases h
    exact ⟨hk, Kept.refl k, fun hc => absurd hc hn, id⟩

/-- Requests for padding. -/
def ReqPads (c : RunCfg) (ep mp : Nat → Int) (k : KVar V) : Prop :=
  ∀ j < c.nd, ∀ p d, k.posn j = some p → k.v.g.dims[p]? = some d → ep j ≤ d.reqLEpad ∧ ep j ≤ d.reqREpad ∧ mp j ≤ d.reqLPad ∧ mp j ≤ d.reqRPad

theorem setSizes_pads {c : RunCfg} {ep mp : Nat → Int} {force : Bool} {k k' : KVar V} (hk : k.Ok c)
    (h : k.setSizes c ep mp force = some k') (hc : k.fixed = false ∨ (k.user = false ∧ force = true)) : ReqPads c ep mp k' := by
  unfold KVar.setSizes at h
  split at h
  · obtain ⟨v, hv, rfl⟩ := Option.map_eq_some_iff.1 h
    intro j hj p d hp hd
    have := runSettings_dim hv (fun j _ => sizeCalls_posn) hk.inj hj hp
    obtain ⟨d0, h0, h1, _⟩ := hk.valid j hj p hp
    have hd : v.g.dims[p]? = some d := hd
    have hp : k.posn j = some p := hp
    rw [hd, h0] at this
    simp only [Option.map_some, Option.some.injEq, sizeCalls, hp, List.foldl_cons, List.foldl_nil] at this
    have e1 : d.reqLEpad = max (ep j) d0.reqLEpad := congrArg DimG.reqLEpad this
    have e2 : d.reqREpad = max (ep j) d0.reqREpad := congrArg DimG.reqREpad this
    have e3 : d.reqLPad = max (mp j) d0.reqLPad := congrArg DimG.reqLPad this
    have e4 : d.reqRPad = max (mp j) d0.reqRPad := congrArg DimG.reqRPad this
    rw [e1, e2, e3, e4]
    exact ⟨le_max_left _ _, le_max_left _ _, le_max_left _ _, le_max_left _ _⟩
  · next hn =>
    refine absurd ?_ hn
    rcases hc with hc | ⟨hc, hf⟩ <;> simp [hc, *]

theorem setExts_pads {c : RunCfg} {ep mp : Nat → Int} {k k' : KVar V} (hk : k.Ok c) (h : k.setExts c = some k') (hr : ReqPads c ep mp k) :
    ReqPads c ep mp k' := by
  unfold KVar.setExts at h
  split at h
  · obtain ⟨v, hv, rfl⟩ := Option.map_eq_some_iff.1 h
    intro j hj p d hp hd
    have := runSettings_dim hv (fun j _ => extCalls_posn) hk.inj hj hp
    obtain ⟨d0, h0, h1, _⟩ := hk.valid j hj p hp
    have hd : v.g.dims[p]? = some d := hd
    have hp : k.posn j = some p := hp
    rw [hd, h0] at this
    simp only [Option.map_some, Option.some.injEq, extCalls, hp, List.foldl_cons, List.foldl_nil] at this
    have e1 : d.reqLEpad = d0.reqLEpad := by have := congrArg DimG.reqLEpad this; exact this
    have e2 : d.reqREpad = d0.reqREpad := by have := congrArg DimG.reqREpad this; exact this
    have e3 : d.reqLPad = d0.reqLPad := by have := congrArg DimG.reqLPad this; exact this
    have e4 : d.reqRPad = d0.reqRPad := by have := congrArg DimG.reqRPad this; exact this
    rw [e1, e2, e3, e4]
    exact hr j hj p d0 hp h0
  · cases h
    exact hr

theorem maxHalos_ge_acc (ks : List (KVar V)) (j : Nat) (a : Int) :
    a ≤ ks.foldl (fun h k => if k.user then h else max h (k.halo j)) a := by
  induction ks generalizing a with
  | nil => exact le_rfl
  | cons k ks ih =>
    rw [List.foldl_cons]
    refine le_trans ?_ (ih _)
    split
    · exact le_rfl
    · exact le_max_left _ _

theorem maxHalos_ge (ks : List (KVar V)) (j : Nat) (a : Int) {k : KVar V} (hk : k ∈ ks) (hu : k.user = false) :
    k.halo j ≤ ks.foldl (fun h k => if k.user then h else max h (k.halo j)) a := by
  induction ks generalizing a with
  | nil => simp at hk
  | cons k' ks ih =>
    rw [List.foldl_cons]
    rcases List.mem_cons.1 hk with rfl | hk
    · rw [if_neg (by simp [hu])]
      exact le_trans (le_max_right _ _) (maxHalos_ge_acc ks j _)
    · exact ih _ hk

theorem Kept.halo {k k' : KVar V} (h : k.Kept k') (j : Nat) : k'.halo j = k.halo j := by
  unfold KVar.halo
  rw [h.posn]
  cases k.posn j with
  | none => rfl
  | some p =>
    simp only
    have := Kept.dim h p
    cases h1 : k.v.g.dims[p]? <;> cases h2 : k'.v.g.dims[p]? <;> rw [h1, h2] at this <;> simp at this
    · simp only; rw [this.2.1, this.2.2.1]

theorem forall2_exists {α β : Type} {R : α → β → Prop} {l : List α} {r : List β} (h : List.Forall₂ R l r) {b : β} (hb : b ∈ r) :
    ∃ a ∈ l, R a b := by
  induction h with
  | nil => simp at hb
  | cons h1 _ ih =>
    rcases List.mem_cons.1 hb with rfl | hb
    · exact ⟨_, List.mem_cons_self, h1⟩
    · obtain ⟨a, ha, hr⟩ := ih hb
      exact ⟨a, List.mem_cons_of_mem _ ha, hr⟩

theorem withHalos_ok {c : RunCfg} {ks : List (KVar V)} {k : KVar V} (h : k.Ok c) : k.Ok (withHalos c ks) :=
  ⟨h.reach, h.inj, h.valid, h.all, h.vlen⟩

theorem withHalos_set {c : RunCfg} {ks : List (KVar V)} {k : KVar V} (h : k.Set c) : k.Set (withHalos c ks) :=
  ⟨h.size, h.rankOfs, h.localOfs⟩

/-- What `update_var_info` establishes. -/
theorem updateVarInfo_spec {c c' : RunCfg} {ep mp : Nat → Int} {force : Bool} {ks ks' : List (KVar V)} (hk : ∀ k ∈ ks, k.Ok c)
    (h : updateVarInfo c ep mp force ks = some (c', ks')) :
    (∃ H : Nat → Int, c' = { c with dim := fun j => { c.dim j with maxHalo := H j } }) ∧
    ∀ k' ∈ ks', k'.Ok c' ∧ (∃ k ∈ ks, k.Kept k') ∧
      ((k'.fixed = false ∨ (k'.user = false ∧ force = true)) → k'.Set c') ∧ (k'.orig = true → k'.Extended c') ∧
      (k'.user = false → ∀ j < c.nd, k'.halo j ≤ (c'.dim j).maxHalo) := by
  unfold updateVarInfo at h
  simp only [Option.bind_eq_bind, Option.pure_def] at h
  obtain ⟨ks1, h1, h⟩ := Option.bind_eq_some_iff.1 h
  split at h
  · obtain ⟨ks2, h2, e⟩ := Option.bind_eq_some_iff.1 h
    cases e
    refine ⟨⟨_, rfl⟩, fun k' hk' => ?_⟩
    obtain ⟨k1, hk1, hx⟩ := forall2_exists (mapM_forall2 h2) hk'
    obtain ⟨k, hkm, hs⟩ := forall2_exists (mapM_forall2 h1) hk1
    obtain ⟨a1, a2, a3⟩ := setSizes_spec (hk k hkm) hs
    obtain ⟨b1, b2, b3, b4⟩ := setExts_spec (withHalos_ok (ks := ks1) a1) hx
    refine ⟨b1, ⟨k, hkm, Kept.trans a2 b2⟩, fun hc => b4 (withHalos_set (a3 ?_)), fun ho => b3 (by rw [← b2.flags.2.2]; exact ho), ?_⟩
    · rw [b2.flags.1, b2.flags.2.1, a2.flags.1, a2.flags.2.1] at hc; exact hc
    · intro hu j _
      rw [Kept.halo b2]
      exact maxHalos_ge ks1 j 0 hk1 (by rw [← b2.flags.2.1]; exact hu)
  · cases h

/-- Padding, and the size of the rank. -/
theorem updateVarInfo_pads {c c' : RunCfg} {ep mp : Nat → Int} {force : Bool} {ks ks' : List (KVar V)} (hk : ∀ k ∈ ks, k.Ok c)
    (h : updateVarInfo c ep mp force ks = some (c', ks')) :
    (∀ j < c'.nd, 1 < (c'.dim j).nranks → (c'.dim j).maxHalo + c'.wfShiftPts j ≤ (c'.dim j).rankSize) ∧
    ∀ k' ∈ ks', (k'.fixed = false ∨ (k'.user = false ∧ force = true)) → ReqPads c' ep mp k' := by
  unfold updateVarInfo at h
  simp only [Option.bind_eq_bind, Option.pure_def] at h
  obtain ⟨ks1, h1, h⟩ := Option.bind_eq_some_iff.1 h
  split at h
  · next hok =>
    obtain ⟨ks2, h2, e⟩ := Option.bind_eq_some_iff.1 h
    cases e
    refine ⟨fun j hj hn => ?_, fun k' hk' hc => ?_⟩
    · unfold sizesOk at hok
      rw [List.all_eq_true] at hok
      have := hok j (List.mem_range.2 hj)
      simp only [Bool.not_eq_true', Bool.and_eq_false_iff, decide_eq_false_iff_not, not_lt, gt_iff_lt] at this
      rcases this with h | h
      · omega
      · exact h
    · obtain ⟨k1, hk1, hx⟩ := forall2_exists (mapM_forall2 h2) hk'
      obtain ⟨k, hkm, hs⟩ := forall2_exists (mapM_forall2 h1) hk1
      obtain ⟨a1, a2, -⟩ := setSizes_spec (hk k hkm) hs
      obtain ⟨b1, b2, -, -⟩ := setExts_spec (withHalos_ok (ks := ks1) a1) hx
      rw [b2.flags.1, b2.flags.2.1, a2.flags.1, a2.flags.2.1] at hc
      have hq : ReqPads c ep mp k1 := setSizes_pads (hk k hkm) hs hc
      exact setExts_pads (c := withHalos c ks1) (withHalos_ok a1) hx hq
  · cases h

end Yask.Var
