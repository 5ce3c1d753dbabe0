import Verif.Compiler.MiscDimLemmas
import Verif.Spec.MiscSpec

/-!
# Lemmas about the misc dims of vars of a solution
-/

namespace Yask.Comp
open Var

variable {V π : Type}

/-! ### Kinds of dims -/

theorem resize_kinds {g g' : Geom} {al : Bool} (h : g.resize al = some g') : g'.dims.map DimG.kind = g.dims.map DimG.kind := by
  have hm : (g.dims.map (DimG.resized g.vlenGt1 g.allowAddlPad al)).map DimG.kind = g.dims.map DimG.kind := by
    rw [List.map_map]; rfl
  have hi : ∀ ds : List DimG, (initValidSteps ds).map DimG.kind = ds.map DimG.kind := by
    intro ds
    cases ds with
    | nil => rfl
    | cons d ds =>
      unfold initValidSteps
      simp only [List.map_cons]
      split_ifs <;> rfl
  unfold Geom.resize at h
  split at h
  · cases h
  · dsimp only at h
    split at h
    · cases h
    · split at h <;> cases h
      · simp only [hi, hm]
      · simp only [hm]

theorem modify_kind (s : Setting) (n : Int) (d : DimG) : (s.modify n d).kind = d.kind := by
  cases s <;> rfl

theorem set_kinds {ds : List DimG} {p : Nat} {d : DimG} (hd : ds[p]? = some d) (s : Setting) (n : Int) :
    (ds.set p (s.modify n d)).map DimG.kind = ds.map DimG.kind := by
  rw [List.map_set, modify_kind]
  apply List.ext_getElem?
  intro i
  by_cases hi : p = i
  · subst hi
    have hlt : p < ds.length := (List.getElem?_eq_some_iff.1 hd).1
    rw [List.getElem?_set_self (by simpa using hlt), List.getElem?_map, hd]
    rfl
  · rw [List.getElem?_set_ne hi]

theorem call_kinds {v v' : YVar V} {posn : Nat} {s : Setting} {m : Int} {b : Bool} (hc : callSetting v posn s m = (v', b)) :
    v'.g.dims.map DimG.kind = v.g.dims.map DimG.kind := by
  unfold callSetting at hc
  cases hp : v.g.dims[posn]? with
  | none => rw [hp] at hc; cases hc; rfl
  | some e =>
    rw [hp] at hc
    simp only at hc
    split at hc
    · cases hc; rfl
    · split at hc
      · split at hc
        · next g2 hg =>
          cases hc
          exact (resize_kinds hg).trans (set_kinds hp s m)
        · cases hc; exact set_kinds hp s m
      · cases hc; exact set_kinds hp s m

theorem validStep_kinds (g : Geom) (t : Int) : (g.updateValidStep t).dims.map DimG.kind = g.dims.map DimG.kind := by
  unfold Geom.updateValidStep
  split
  · next d ds hg =>
    split_ifs <;> simp [hg]
  · rfl

theorem runCalls_kinds {calls : List (Nat × Setting × Int)} : ∀ {v v' : YVar V} {b : Bool}, runCalls v calls = (v', b) →
    v'.g.dims.map DimG.kind = v.g.dims.map DimG.kind := by
  induction calls with
  | nil => intro v v' b h; cases h; rfl
  | cons x calls ih =>
    intro v v' b h
    unfold runCalls at h
    rcases hc : callSetting v x.1 x.2.1 x.2.2 with ⟨v1, _ | _⟩
    · rw [hc] at h; exact (ih h).trans (call_kinds hc)
    · rw [hc] at h; cases h; exact call_kinds hc

/-! ### Generated vars -/

theorem kinds_at {ds : List DimG} {vs : List (String × IndexType)} (h : ds.map DimG.kind = vs.map (fun d => kindOf d.2)) {i : Nat}
    {d : String} {ty : IndexType} (hi : vs[i]? = some (d, ty)) : ∃ e, ds[i]? = some e ∧ e.kind = kindOf ty := by
  have : (ds.map DimG.kind)[i]? = some (kindOf ty) := by rw [h]; simp [hi]
  rw [List.getElem?_map] at this
  cases he : ds[i]? with
  | none => rw [he] at this; cases this
  | some e => rw [he] at this; exact ⟨e, rfl, Option.some.inj this⟩

theorem constructed_misc {g : Geom} (hc : g.Constructed) {i : Nat} {e : DimG} (he : g.dims[i]? = some e) (hk : e.kind = .misc) : MiscGeo 0 0 e := by
  have hm := List.mem_of_getElem? he
  obtain ⟨k, sv, vv, inn, hf⟩ := hc.fresh e hm
  have hv := hc.vlVar e hm
  have hs := hc.vlDomain e hm (by rw [hk]; decide)
  subst hf
  refine ⟨hk, rfl, rfl, rfl, rfl, rfl, rfl, rfl, rfl, ?_⟩
  rw [hv]
  split_ifs
  · exact hs
  · rfl

theorem generated_misc {c : GenSizes} {r : ConstRange} {v : EqVar} {yv : YVar V} (h : Generated c r v yv) :
    yv.g.dims.map DimG.kind = v.dims.map (fun d => kindOf d.2) ∧ ∀ (i : Nat) (d : String), v.dims[i]? = some (d, .misc) → ∃ n o e,
      genMisc r d = .ok (n, o) ∧ yv.g.dims[i]? = some e ∧ MiscFull n o e := by
  obtain ⟨g, g', calls, hc, hk, hr, hg, hrun⟩ := h
  refine ⟨(runCalls_kinds hrun).trans ((resize_kinds hr).trans hk), fun i d hi => ?_⟩
  have := genCalls_misc v.dims hg hrun (fun j d hj => by
    obtain ⟨e, he, hke⟩ := kinds_at hk hj
    obtain ⟨e', he', hm⟩ := resize_misc hr he (constructed_misc hc he hke)
    exact ⟨0, e', by simpa using he', hm⟩) i d hi
  simpa using this

theorem solnStep_misc {inner : Bool} {need : Nat → Int} {v v' : YVar V} (h : SolnStep inner need v v') {i : Nat} {n o : Int} {e : DimG}
    (he : v.g.dims[i]? = some e) (hm : MiscFull n o e) (hn : need i ≤ n) :
    ∃ n' e', v'.g.dims[i]? = some e' ∧ MiscFull n' o e' ∧ need i ≤ n' ∧ (inner = true → n' = n) := by
  cases h with
  | storage m => exact ⟨n, e, he, hm, hn, fun _ => rfl⟩
  | validStep t => exact ⟨n, e, validStep_misc t he hm, hm, hn, fun _ => rfl⟩
  | setting _ posn s m hc ha =>
    by_cases hi : i = posn
    · subst hi
      obtain ⟨h1, rfl, h3⟩ := ha e he hm.kind
      obtain ⟨e', he', hm'⟩ := call_size hc he hm
      exact ⟨m, e', he', hm', h3, fun hh => by rw [h1] at hh; cases hh⟩
    · obtain ⟨e', he', hm'⟩ := call_other hc hi he hm
      exact ⟨n, e', he', hm', hn, fun _ => rfl⟩

theorem solnStep_kinds {inner : Bool} {need : Nat → Int} {v v' : YVar V} (h : SolnStep inner need v v') :
    v'.g.dims.map DimG.kind = v.g.dims.map DimG.kind := by
  cases h with
  | storage m => rfl
  | validStep t => exact validStep_kinds _ t
  | setting _ posn s m hc ha => exact call_kinds hc

theorem hist_misc {inner : Bool} {need : Nat → Int} {v v' : YVar V} (h : Relation.ReflTransGen (SolnStep inner need) v v') {i : Nat}
    {n o : Int} {e : DimG} (he : v.g.dims[i]? = some e) (hm : MiscFull n o e) (hn : need i ≤ n) :
    ∃ n' e', v'.g.dims[i]? = some e' ∧ MiscFull n' o e' ∧ need i ≤ n' ∧ (inner = true → n' = n) := by
  induction h with
  | refl => exact ⟨n, e, he, hm, hn, fun _ => rfl⟩
  | tail _ hs ih =>
    obtain ⟨n1, e1, h1, h2, h3, h4⟩ := ih
    obtain ⟨n2, e2, g1, g2, g3, g4⟩ := solnStep_misc hs h1 h2 h3
    exact ⟨n2, e2, g1, g2, g3, fun hh => (g4 hh).trans (h4 hh)⟩

theorem hist_kinds {inner : Bool} {need : Nat → Int} {v v' : YVar V} (h : Relation.ReflTransGen (SolnStep inner need) v v') :
    v'.g.dims.map DimG.kind = v.g.dims.map DimG.kind := by
  induction h with
  | refl => rfl
  | tail _ hs ih => exact (solnStep_kinds hs).trans ih

/-! ### The calls of the generated code do not throw -/

theorem resize_total {g : Geom} (h : ∀ d ∈ g.dims, d.settingsOk = true) : ∃ g', g.resize false = some g' ∧ ∀ d ∈ g'.dims, d.settingsOk = true := by
  have hs : ∀ d ∈ g.dims.map (DimG.resized g.vlenGt1 g.allowAddlPad false), d.settingsOk = true := by
    intro d hd
    obtain ⟨e, he, rfl⟩ := List.mem_map.1 hd
    exact h e he
  have hi : ∀ ds : List DimG, (∀ d ∈ ds, d.settingsOk = true) → ∀ d ∈ initValidSteps ds, d.settingsOk = true := by
    intro ds hds
    cases ds with
    | nil => simp [initValidSteps]
    | cons e es =>
      intro d hd
      unfold initValidSteps at hd
      rcases List.mem_cons.1 hd with rfl | hd
      · split_ifs
        · exact hds e (by simp)
        · exact hds e (by simp)
      · exact hds d (List.mem_cons_of_mem _ hd)
  unfold Geom.resize
  rw [if_neg (by simp only [Bool.not_eq_true, Bool.not_eq_true', List.all_eq_false, not_exists, not_and]; simpa using h)]
  simp only [Bool.false_and, Bool.false_eq_true, if_false]
  split_ifs
  · exact ⟨_, rfl, hi _ hs⟩
  · exact ⟨_, rfl, hs⟩

/-- A call of the generated code: which kinds of dims it is made for, and its value. -/
def GenCall (ks : List DimKind) (x : Nat × Setting × Int) : Prop :=
  (ks[x.1]? = some .domain ∧ (x.2.1 = .leftHalo ∨ x.2.1 = .rightHalo) ∧ 0 ≤ x.2.2) ∨ (x.1 < ks.length ∧ x.2.1 = .size) ∨
    (ks[x.1]? = some .misc ∧ x.2.1 = .localOfs)

theorem call_total {v : YVar V} (hmem : v.mem = none) (hs : ∀ d ∈ v.g.dims, d.settingsOk = true) {x : Nat × Setting × Int}
    (hx : GenCall (v.g.dims.map DimG.kind) x) : ∃ v', callSetting v x.1 x.2.1 x.2.2 = (v', false) ∧ v'.mem = none ∧
      ∀ d ∈ v'.g.dims, d.settingsOk = true := by
  obtain ⟨p, s, n⟩ := x
  have hlt : p < v.g.dims.length := by
    rcases hx with h | h | h
    · have := (List.getElem?_eq_some_iff.1 h.1).1; simpa using this
    · simpa using h.1
    · have := (List.getElem?_eq_some_iff.1 h.1).1; simpa using this
  have hd : v.g.dims[p]? = some v.g.dims[p] := List.getElem?_eq_getElem hlt
  generalize hdd : v.g.dims[p] = d at hd
  have hdm := List.mem_of_getElem? hd
  have hso := (settingsOk_iff d).1 (hs d hdm)
  have hall : s.allowed n d = true := by
    rcases hx with h | h | h
    · have hk : d.kind = .domain := by have := h.1; rw [List.getElem?_map, hd] at this; simpa using this
      rcases h.2.1 with e | e <;> simp only at e <;> subst e <;> simp [Setting.allowed, hk]
    · have := h.2; simp only at this; subst this; rfl
    · have hk : d.kind = .misc := by have := h.1; rw [List.getElem?_map, hd] at this; simpa using this
      have := h.2; simp only at this; subst this; simp [Setting.allowed, hk]
  have hmod : (s.modify n d).settingsOk = true := by
    rw [settingsOk_iff]
    rcases hx with h | h | h
    · have hn := h.2.2
      simp only at hn
      rcases h.2.1 with e | e <;> simp only at e <;> subst e <;> simp only [Setting.modify] <;> omega
    · have := h.2; simp only at this; subst this; exact hso
    · have := h.2; simp only at this; subst this; exact hso
  have hs1 : ∀ e ∈ v.g.dims.set p (s.modify n d), e.settingsOk = true := by
    intro e he
    rcases List.mem_or_eq_of_mem_set he with h | h
    · exact hs e h
    · rw [h]; exact hmod
  obtain ⟨g2, hg, hg2⟩ := resize_total (g := { v.g with dims := v.g.dims.set p (s.modify n d) }) hs1
  by_cases hnr : s.needResize = true
  · refine ⟨{ v with g := g2 }, ?_, hmem, hg2⟩
    unfold callSetting
    simp only [hd, hall, Bool.not_true, Bool.false_eq_true, if_false, hnr, if_true, hmem, Option.isSome_none, hg]
  · refine ⟨{ v with g := { v.g with dims := v.g.dims.set p (s.modify n d) } }, ?_, hmem, hs1⟩
    unfold callSetting
    simp only [hd, hall, Bool.not_true, Bool.false_eq_true, if_false, hnr]

theorem runCalls_total {calls : List (Nat × Setting × Int)} : ∀ {v : YVar V}, v.mem = none → (∀ d ∈ v.g.dims, d.settingsOk = true) →
    (∀ x ∈ calls, GenCall (v.g.dims.map DimG.kind) x) → ∃ v', runCalls v calls = (v', false) := by
  induction calls with
  | nil => intro v _ _ _; exact ⟨v, rfl⟩
  | cons x calls ih =>
    intro v hm hs hx
    obtain ⟨v1, h1, h2, h3⟩ := call_total hm hs (hx x (by simp))
    obtain ⟨v', h4⟩ := ih h2 h3 (fun y hy => by rw [call_kinds h1]; exact hx y (List.mem_cons_of_mem _ hy))
    refine ⟨v', ?_⟩
    unfold runCalls
    rw [h1]
    exact h4

theorem genCalls_total {c : GenSizes} {r : ConstRange} (hc : ∀ d, 0 ≤ c.left d ∧ 0 ≤ c.right d) (ks : List DimKind)
    (ds : List (String × IndexType)) : ∀ (i : Nat), (∀ d, (∃ j : Nat, ds[j]? = some (d, .misc)) → ∃ x, genMisc r d = .ok x) →
    (∀ (j : Nat) d ty, ds[j]? = some (d, ty) → ks[i + j]? = some (kindOf ty) ∧ (ty = .step ∨ ty = .domain ∨ ty = .misc)) →
    ∃ calls, genCalls c r i ds = .ok calls ∧ ∀ x ∈ calls, GenCall ks x := by
  induction ds with
  | nil => intro i _ _; exact ⟨[], rfl, by simp⟩
  | cons y ds ih =>
    intro i hg hk
    obtain ⟨d, ty⟩ := y
    obtain ⟨l, hl, hl'⟩ := ih (i + 1) (fun d' ⟨j, hj⟩ => hg d' ⟨j + 1, by simpa using hj⟩) (fun j d' ty' hj => by
      have := hk (j + 1) d' ty' (by simpa using hj)
      rw [show i + 1 + j = i + (j + 1) by omega]; exact this)
    obtain ⟨k1, k2⟩ := hk 0 d ty (by simp)
    simp only [Nat.add_zero] at k1
    have : ∃ a, genDim c r i d ty = .ok a ∧ ∀ x ∈ a, GenCall ks x := by
      have hlt := (List.getElem?_eq_some_iff.1 k1).1
      rcases k2 with rfl | rfl | rfl
      · refine ⟨_, rfl, fun x hx => ?_⟩
        rw [List.mem_singleton.1 hx]
        exact Or.inr (Or.inl ⟨hlt, rfl⟩)
      · refine ⟨_, rfl, fun x hx => ?_⟩
        rcases List.mem_cons.1 hx with rfl | hx
        · exact Or.inl ⟨k1, Or.inl rfl, (hc d).1⟩
        · rw [List.mem_singleton.1 hx]
          exact Or.inl ⟨k1, Or.inr rfl, (hc d).2⟩
      · obtain ⟨⟨n, o⟩, hx⟩ := hg d ⟨0, by simp⟩
        refine ⟨_, by unfold genDim; rw [hx]; rfl, fun x hx => ?_⟩
        rcases List.mem_cons.1 hx with rfl | hx
        · exact Or.inr (Or.inl ⟨hlt, rfl⟩)
        · split_ifs at hx
          · rw [List.mem_singleton.1 hx]
            exact Or.inr (Or.inr ⟨k1, rfl⟩)
          · cases hx
    obtain ⟨a, ha, ha'⟩ := this
    refine ⟨a ++ l, ?_, fun x hx => (List.mem_append.1 hx).elim (ha' x) (hl' x)⟩
    unfold genCalls
    rw [ha, hl]
    rfl

theorem constructed_settings {g : Geom} (hc : g.Constructed) : ∀ d ∈ g.dims, d.settingsOk = true := by
  intro d hd
  obtain ⟨k, sv, vv, inn, rfl⟩ := hc.fresh d hd
  rfl

end Yask.Comp
