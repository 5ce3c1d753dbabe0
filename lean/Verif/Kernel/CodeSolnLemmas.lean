import Verif.Spec.CodeSolnSpec
import Verif.Kernel.SolnRunOrder
import Verif.Compiler.SolnLemmas

/-! Helper lemmas: elements in which the vars of a solution are stored; what the generated code of a solution accesses. -/

namespace Yask.Nano
open Spec Var Comp Spec.Cpp

/-! ### Elements -/

theorem sameElem_iff_getD : ∀ {ds : List ApiDim} {a b : List Int}, SameElem ds a b ↔ a.length = ds.length ∧ b.length = ds.length ∧
    ∀ (k : Nat) (d : ApiDim), ds[k]? = some d → if d.isStep then a.getD k 0 % d.alloc = b.getD k 0 % d.alloc else a.getD k 0 = b.getD k 0
  | [], [], [] => by simp [SameElem]
  | [], _ :: _, _ => by simp [SameElem]
  | [], [], _ :: _ => by simp [SameElem]
  | _ :: _, [], _ => by simp [SameElem]
  | _ :: _, _ :: _, [] => by simp [SameElem]
  | d :: ds, i :: is, j :: js => by
    unfold SameElem
    rw [sameElem_iff_getD]
    constructor
    · rintro ⟨h0, h1, h2, h3⟩
      refine ⟨by simp [h1], by simp [h2], fun k d' hd => ?_⟩
      match k with
      | 0 =>
        simp only [List.getElem?_cons_zero, Option.some.injEq] at hd
        subst hd
        simpa using h0
      | k + 1 => simpa using h3 k d' (by simpa using hd)
    · rintro ⟨h1, h2, h3⟩
      refine ⟨by simpa using h3 0 d rfl, by simpa using h1, by simpa using h2, fun k d' hd => ?_⟩
      simpa using h3 (k + 1) d' (by simpa using hd)

theorem inRange_iff_getD : ∀ {ds : List ApiDim} {a : List Int}, InRangeButStep ds a ↔ a.length = ds.length ∧
    ∀ (k : Nat) (d : ApiDim), ds[k]? = some d → d.isStep = true ∨ (d.first ≤ a.getD k 0 ∧ a.getD k 0 ≤ d.last)
  | [], [] => by simp [InRangeButStep]
  | [], _ :: _ => by simp [InRangeButStep]
  | _ :: _, [] => by simp [InRangeButStep]
  | d :: ds, i :: is => by
    have ih := inRange_iff_getD (ds := ds) (a := is)
    unfold InRangeButStep at ih ⊢
    rw [List.forall₂_cons, ih]
    constructor
    · rintro ⟨h0, h1, h2⟩
      refine ⟨by simp [h1], fun k d' hd => ?_⟩
      match k with
      | 0 =>
        simp only [List.getElem?_cons_zero, Option.some.injEq] at hd
        subst hd
        simpa using h0
      | k + 1 => simpa using h2 k d' (by simpa using hd)
    · rintro ⟨h1, h2⟩
      exact ⟨by simpa using h2 0 d rfl, by simpa using h1, fun k d' hd => by simpa using h2 (k + 1) d' (by simpa using hd)⟩

theorem inRange_same {ds : List ApiDim} {a b : List Int} (h : SameElem ds a b) (ha : InRangeButStep ds a) : InRangeButStep ds b := by
  rw [sameElem_iff_getD] at h
  rw [inRange_iff_getD] at ha ⊢
  refine ⟨h.2.1, fun k d hd => ?_⟩
  have h1 := h.2.2 k d hd
  rcases ha.2 k d hd with h2 | h2
  · exact .inl h2
  · by_cases hs : d.isStep = true
    · exact .inl hs
    · rw [if_neg hs] at h1
      rw [h1] at h2
      exact .inr h2

section
variable {V : Type} {R : SolnCode} {U : USoln V} {L : List (List (List (Fin U.eqs.length)))} {S : Slices} {sz : Nat → Nat} {A : Arith V}

theorem elem_getD (S : Slices) (dims : List String) (v : Nat) (t : Int) (x : List Int) {k : Nat} (hk : k < (S.geo (S.var v)).dims.length) :
    (S.elem dims v t x).getD k 0 = match S.kind v k with
      | some .step => t
      | some .domain => x.getD (dims.idxOf (S.name v k)) 0
      | _ => (S.misc v).getD k 0 := by
  unfold Slices.elem
  rw [List.getD_eq_getElem?_getD, List.getElem?_map, List.getElem?_range hk]
  rfl

theorem elem_length (S : Slices) (dims : List String) (v : Nat) (t : Int) (x : List Int) :
    (S.elem dims v t x).length = (S.geo (S.var v)).api.length := by
  simp [Slices.elem, Geom.api]

theorem api_kind {v k : Nat} {d : ApiDim} (h : (S.geo (S.var v)).api[k]? = some d) :
    ∃ kd, S.kind v k = some kd ∧ (d.isStep = true ↔ kd = .step) ∧ k < (S.geo (S.var v)).dims.length := by
  unfold Geom.api at h
  rw [List.getElem?_map, Option.map_eq_some_iff] at h
  obtain ⟨g, h1, rfl⟩ := h
  refine ⟨g.kind, by unfold Slices.kind; rw [h1]; rfl, by simp, ?_⟩
  exact (List.getElem?_eq_some_iff.1 h1).1

theorem kind_api {v k : Nat} {kd : DimKind} (h : S.kind v k = some kd) :
    ∃ d : ApiDim, (S.geo (S.var v)).api[k]? = some d ∧ (d.isStep = true ↔ kd = .step) ∧ k < (S.geo (S.var v)).dims.length := by
  unfold Slices.kind at h
  rw [Option.map_eq_some_iff] at h
  obtain ⟨g, h1, rfl⟩ := h
  refine ⟨_, by unfold Geom.api; rw [List.getElem?_map, h1]; rfl, by simp, ?_⟩
  exact (List.getElem?_eq_some_iff.1 h1).1

variable (hc : CodeOf R U L S sz A)
include hc

theorem geo_ok {v : Nat} (hv : v < S.nv) : (S.geo (S.var v)).Ok := by
  obtain ⟨yv, h1, h2⟩ := hc.reach v hv
  rw [← h2]
  exact h1.ok

theorem geo_steps (hpos : ∀ v, 0 < sz v) {v : Nat} (hv : v < S.nv) : StepsAlloc (S.geo (S.var v)).api := by
  intro d hd hs
  rw [hc.alloc v hv d hd hs]
  have := hpos v
  omega

/-- The same element of a var: the same slot of the steps. -/
theorem same_step {v : Nat} (hv : v < S.nv) {s s' : Int} {x : List Int} (h : U.hasStep v = true → s % (sz v : Int) = s' % (sz v : Int)) :
    SameElem (S.geo (S.var v)).api (S.elem U.dims v s x) (S.elem U.dims v s' x) := by
  rw [sameElem_iff_getD]
  refine ⟨elem_length .., elem_length .., fun k d hd => ?_⟩
  obtain ⟨kd, h1, h2, h3⟩ := api_kind hd
  rw [elem_getD _ _ _ _ _ h3, elem_getD _ _ _ _ _ h3, h1]
  cases kd with
  | step =>
    rw [if_pos (h2.2 rfl), hc.alloc v hv d (List.mem_of_getElem? hd) (h2.2 rfl)]
    exact h ((hc.hasStep v hv).2 ⟨k, h1⟩)
  | domain => rw [if_neg (by rw [h2]; simp)]
  | misc => rw [if_neg (by rw [h2]; simp)]

/-- What two vars have in common that are stored in the same element. -/
theorem of_same {v v' : Nat} (hv : v < S.nv) (hv' : v' < S.nv) (hvv : S.var v = S.var v') {s s' : Int} {x x' : List Int}
    (h : SameElem (S.geo (S.var v)).api (S.elem U.dims v s x) (S.elem U.dims v' s' x')) :
    v = v' ∧ (U.hasStep v = true → s % (sz v : Int) = s' % (sz v : Int)) ∧
    ∀ k, S.kind v k = some .domain → x.getD (U.dims.idxOf (S.name v k)) 0 = x'.getD (U.dims.idxOf (S.name v k)) 0 := by
  rw [sameElem_iff_getD] at h
  obtain ⟨_, _, h⟩ := h
  have hkind : ∀ k, S.kind v k = S.kind v' k := fun k => by unfold Slices.kind; rw [hvv]
  have hname : ∀ k, S.name v k = S.name v' k := fun k => by unfold Slices.name; rw [hvv]
  have hlen : (S.geo (S.var v)).dims.length = (S.geo (S.var v')).dims.length := by rw [hvv]
  refine ⟨?_, ?_, ?_⟩
  · refine hc.distinct v hv v' hv' hvv fun k hk => ?_
    obtain ⟨d, h1, h2, h3⟩ := kind_api hk
    have := h k d h1
    rw [if_neg (by rw [h2]; simp), elem_getD _ _ _ _ _ h3, elem_getD _ _ _ _ _ (hlen ▸ h3), ← hkind, hk] at this
    exact this
  · intro hst
    obtain ⟨k, hk⟩ := (hc.hasStep v hv).1 hst
    obtain ⟨d, h1, h2, h3⟩ := kind_api hk
    have := h k d h1
    rw [if_pos (h2.2 rfl), elem_getD _ _ _ _ _ h3, elem_getD _ _ _ _ _ (hlen ▸ h3), ← hkind, hk,
      hc.alloc v hv d (List.mem_of_getElem? h1) (h2.2 rfl)] at this
    exact this
  · intro k hk
    obtain ⟨d, h1, h2, h3⟩ := kind_api hk
    have := h k d h1
    rw [if_neg (by rw [h2]; simp), elem_getD _ _ _ _ _ h3, elem_getD _ _ _ _ _ (hlen ▸ h3), ← hkind, hk, ← hname] at this
    exact this

/-- The element that a point of an equation means. -/
theorem elemAt_point (hst : R.step ∉ R.dims) {st p : Nat} (hp : p < R.cfg.nparts st) {b : Pt} (hb : b.var < S.nv)
    (hbs : b.step.isSome = U.hasStep b.var) (t : Int) {x : List Int} (hx : x.length = U.dims.length) :
    (R.partAt st p t).elemAt (S.point b) x = S.elem U.dims b.var (stepAt b t) (shiftPt U.dims x b) := by
  obtain ⟨hg, hn⟩ := hc.vars st p hp b.var hb
  have hnl := hc.nameLen b.var hb
  unfold PartAt.elemAt
  show gridElem (gridIndex R.step t R.dims x) ((R.code st p).vars (S.var b.var)).names
    (((R.code st p).vars (S.var b.var)).g.dims.map accessDim) (S.point b).2 = _
  rw [hg, hn]
  unfold gridElem
  apply List.ext_getElem?
  intro k
  by_cases hk : k < (S.geo (S.var b.var)).dims.length
  · have e1 : (S.names (S.var b.var))[k]? = some (S.name b.var k) := by
      unfold Slices.name
      rw [List.getD_eq_getElem?_getD, List.getElem?_eq_getElem (by omega)]
      rfl
    have e2 : (S.geo (S.var b.var)).dims[k]? = some (S.geo (S.var b.var)).dims[k] := List.getElem?_eq_getElem hk
    have e3 : S.kind b.var k = some (S.geo (S.var b.var)).dims[k].kind := by unfold Slices.kind; rw [e2]; rfl
    have e4 : ((S.geo (S.var b.var)).dims.map accessDim)[k]? = some (accessDim (S.geo (S.var b.var)).dims[k]) := by
      rw [List.getElem?_map, e2]; rfl
    obtain ⟨o, ho⟩ : ∃ o : Int, o = (match S.kind b.var k with
        | some .step => b.step.getD 0
        | some .domain => b.at (S.name b.var k)
        | _ => (S.misc b.var).getD k 0) := ⟨_, rfl⟩
    have e5 : (S.point b).2[k]? = some o := by
      unfold Slices.point
      simp only
      rw [List.getElem?_map, List.getElem?_range hk, ho]
      rfl
    have hz : (((S.geo (S.var b.var)).dims.map accessDim).zip ((S.names (S.var b.var)).zip (S.point b).2))[k]? =
        some (accessDim (S.geo (S.var b.var)).dims[k], S.name b.var k, o) :=
      List.getElem?_zip_eq_some.2 ⟨e4, List.getElem?_zip_eq_some.2 ⟨e1, e5⟩⟩
    have hlhs : ∀ (l : List (AccessDim × String × Int)) (f : AccessDim × String × Int → Int) z, l[k]? = some z → (l.map f)[k]? = some (f z) := by
      intro l f z h
      rw [List.getElem?_map, h]; rfl
    rw [hlhs _ _ _ hz]
    unfold Slices.elem
    rw [List.getElem?_map, List.getElem?_range hk]
    simp only [Option.map_some, Option.some.injEq]
    subst ho
    cases hkd : (S.geo (S.var b.var)).dims[k].kind with
    | step =>
      rw [hkd] at e3
      rw [show accessDim (S.geo (S.var b.var)).dims[k] = .step by unfold accessDim; rw [hkd], e3]
      simp only
      have hs := (hc.hasStep b.var hb).2 ⟨k, e3⟩
      rw [← hbs, Option.isSome_iff_exists] at hs
      obtain ⟨o, ho⟩ := hs
      rw [hc.stepName b.var hb k e3]
      unfold gridIndex stepAt
      rw [ho, if_pos rfl]
      rfl
    | domain =>
      rw [hkd] at e3
      rw [show accessDim (S.geo (S.var b.var)).dims[k] = .domain (S.geo (S.var b.var)).dims[k].varVL (S.geo (S.var b.var)).dims[k].rankOfs by
        unfold accessDim; rw [hkd], e3]
      simp only
      have hmem := hc.domName b.var hb k e3
      have hidx := List.idxOf_lt_length_of_mem hmem
      rw [getD_shiftPt _ _ _ hidx]
      unfold gridIndex
      rw [if_neg (by rintro h; rw [← h, hc.dims] at hst; exact hst hmem), hc.dims, lookup_zip U.dims x hx]
      rw [List.getD_eq_getElem?_getD, List.getD_eq_getElem?_getD, List.getElem?_eq_getElem hidx, List.getElem_idxOf hidx]
      rfl
    | misc =>
      rw [hkd] at e3
      rw [show accessDim (S.geo (S.var b.var)).dims[k] = .misc by unfold accessDim; rw [hkd], e3]
  · rw [List.getElem?_eq_none, List.getElem?_eq_none]
    · simp [Slices.elem]; omega
    · simp [Slices.point]; omega

end
end Yask.Nano
