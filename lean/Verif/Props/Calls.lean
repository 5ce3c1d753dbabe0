import Verif.Var.CallsLemmas
import Verif.Props.Ptr

/-!
# C90: the sizes of a var depend on the last values that were set, not on the order of the calls
-/

namespace Yask
open Var Spec

variable {V : Type} {g g0 : Geom}

/-- A setting has the value that was set last, also if calls have thrown. -/
theorem C90_last (hc : g.Constructed) (h0 : g.resize false = some g0) (cs : List (Nat × Setting × Int)) (j : Nat) (d : DimG)
    (hd : (callAll (⟨g0, none⟩ : YVar V) cs).g.dims[j]? = some d) (f : SizeField) : f.get d = lastValue d.kind f j cs :=
  (callsInv_all (callsInv_new hc h0) cs).vals j d hd f

/-- Two sequences of calls on a new var that has no storage, some of which may throw. If each setting of each dim gets the same
value last, and no halo or padding is negative at the end, then the var reports the same sizes, halos, pads and allocated sizes. -/
theorem C90_sizes_partial (hc : g.Constructed) (h0 : g.resize false = some g0) (cs cs' : List (Nat × Setting × Int))
    (same : ∀ (j : Nat) (d : DimG), g.dims[j]? = some d → ∀ f : SizeField, lastValue d.kind f j cs = lastValue d.kind f j cs')
    (nonneg : ∀ (j : Nat) (d : DimG), g.dims[j]? = some d → ∀ f : SizeField, f ≠ .size → 0 ≤ lastValue d.kind f j cs) :
    (callAll (⟨g0, none⟩ : YVar V) cs).g.dims.map reported = (callAll (⟨g0, none⟩ : YVar V) cs').g.dims.map reported := by
  have h := (callsInv_all (callsInv_new (V := V) hc h0) cs).eq (callsInv_all (callsInv_new hc h0) cs') same nonneg
  have h1 := congrArg (List.map reported) h.1
  rw [List.map_map, List.map_map] at h1
  exact h1

/-- More than what is reported: the whole meta-data is the same, except for the offsets of the dims. -/
theorem C90_meta_partial (hc : g.Constructed) (h0 : g.resize false = some g0) (cs cs' : List (Nat × Setting × Int))
    (same : ∀ (j : Nat) (d : DimG), g.dims[j]? = some d → ∀ f : SizeField, lastValue d.kind f j cs = lastValue d.kind f j cs')
    (nonneg : ∀ (j : Nat) (d : DimG), g.dims[j]? = some d → ∀ f : SizeField, f ≠ .size → 0 ≤ lastValue d.kind f j cs) :
    noOffsets (callAll (⟨g0, none⟩ : YVar V) cs).g = noOffsets (callAll (⟨g0, none⟩ : YVar V) cs').g := by
  obtain ⟨h1, h2, h3⟩ := (callsInv_all (callsInv_new (V := V) hc h0) cs).eq (callsInv_all (callsInv_new hc h0) cs') same nonneg
  generalize (callAll (⟨g0, none⟩ : YVar V) cs).g = a at *
  generalize (callAll (⟨g0, none⟩ : YVar V) cs').g = b at *
  obtain ⟨⟩ := a
  obtain ⟨⟩ := b
  simp only [Geom.rest, noOffsets, Geom.mk.injEq] at h2 h3 ⊢
  exact ⟨h1, h3.2.1, h3.2.2.1, h3.2.2.2.1, h3.2.2.2.2.1, h3.2.2.2.2.2.1, h3.2.2.2.2.2.2.1, h3.2.2.2.2.2.2.2.1, h3.2.2.2.2.2.2.2.2.1, h2⟩

/-- When a call for a halo, padding or size throws: there is no such dim, the setting is not for dims of this kind, or there is then a
negative halo or padding in some dim of the var; never because of what was set before and has been replaced. -/
theorem C90_throws (hc : g.Constructed) (h0 : g.resize false = some g0) (cs : List (Nat × Setting × Int)) (j : Nat) (s : Setting) (n : Int)
    (hs : s.needResize = true) :
    (callSetting (callAll (⟨g0, none⟩ : YVar V) cs) j s n).2 = true ↔
      (∀ d, g.dims[j]? = some d → d.kind ≠ .domain ∧ s ≠ .size) ∨
      ∃ (i : Nat) (d : DimG) (f : SizeField), g.dims[i]? = some d ∧ f ≠ .size ∧ lastValue d.kind f i (cs ++ [(j, s, n)]) < 0 := by
  have hI := callsInv_all (callsInv_new (V := V) hc h0) cs
  obtain ⟨hI', hiff⟩ := hI.call (j, s, n)
  simp only at hI' hiff
  rw [hiff]
  have hall : ∀ d : DimG, s.allowed n d = false ↔ d.kind ≠ .domain ∧ s ≠ .size := by
    intro d
    cases s <;> first | (simp [Setting.allowed]; done) | cases hs
  have e1 : (∀ d, (callAll (⟨g0, none⟩ : YVar V) cs).g.dims[j]? = some d → s.allowed n d = false) ↔
      (∀ d, g.dims[j]? = some d → d.kind ≠ .domain ∧ s ≠ .size) := by
    constructor
    · intro h d hd
      obtain ⟨e, he, hee⟩ := getElem?_of_map_eq hI.static.symm hd
      have hk : d.kind = e.kind := congrArg Prod.fst hee
      rw [hk]
      exact (hall e).1 (h e he)
    · intro h d hd
      obtain ⟨e, he, hee⟩ := getElem?_of_map_eq hI.static hd
      have hk : d.kind = e.kind := congrArg Prod.fst hee
      refine (hall d).2 ?_
      rw [hk]
      exact h e he
  have e2 : (∃ d ∈ (callSetting (callAll (⟨g0, none⟩ : YVar V) cs) j s n).1.g.dims, d.settingsOk = false) ↔
      ∃ (i : Nat) (d : DimG) (f : SizeField), g.dims[i]? = some d ∧ f ≠ .size ∧ lastValue d.kind f i (cs ++ [(j, s, n)]) < 0 := by
    constructor
    · rintro ⟨d, hd, hok⟩
      obtain ⟨i, hi⟩ := List.mem_iff_getElem?.1 hd
      obtain ⟨e, he, hee⟩ := getElem?_of_map_eq hI'.static hi
      have hk : d.kind = e.kind := congrArg Prod.fst hee
      have : ∃ f : SizeField, f ≠ .size ∧ f.get d < 0 := by
        by_contra hcon
        have : d.settingsOk = true := settingsOk_of_get.2 fun f hf => by
          by_contra hlt
          exact hcon ⟨f, hf, by omega⟩
        rw [hok] at this; cases this
      obtain ⟨f, hf, hlt⟩ := this
      rw [hI'.vals i d hi f, hk] at hlt
      exact ⟨i, e, f, he, hf, hlt⟩
    · rintro ⟨i, d, f, hd, hf, hlt⟩
      obtain ⟨e, he, hee⟩ := getElem?_of_map_eq hI'.static.symm hd
      have hk : d.kind = e.kind := congrArg Prod.fst hee
      refine ⟨e, List.mem_of_getElem? he, ?_⟩
      by_contra hne
      rw [Bool.not_eq_false] at hne
      have := settingsOk_of_get.1 hne f hf
      rw [hI'.vals i e he f, ← hk] at this
      omega
  rw [e1, e2, hs]
  simp

namespace CallsExample

/-- A var with dims x (folded by 4) and y. -/
def geom : Geom :=
  { dims := [{ kind := .domain, solnVL := 4, varVL := 4 }, { kind := .domain, isInner := true }], isVec := true, layout := [0, 1],
    foldPosns := [0], foldLens := [4], vlenGt1 := true }

theorem constructed : geom.Constructed where
  stepFirst := by decide
  fresh := by
    intro d hd
    simp only [geom, List.mem_cons, List.not_mem_nil, or_false] at hd
    rcases hd with rfl | rfl
    · exact ⟨.domain, 4, 4, false, rfl⟩
    · exact ⟨.domain, 1, 1, true, rfl⟩
  vlPos := by decide
  vlDomain := by decide
  vlVar := by decide
  noDirty := rfl
  layoutPerm := by decide
  foldNodup := by decide
  foldLens := by decide
  foldAll := by
    intro _ j
    match j with
    | 0 => decide
    | 1 => decide
    | j + 2 => simp [geom]
  foldNone := by decide

/-- The var after its construction. -/
def geom0 : Geom := (geom.resize false).getD geom

theorem resized : geom.resize false = some geom0 := by decide +kernel

/-- Two sequences with the same last values; in the first one the third call throws, because of the negative halo. -/
def calls1 : List (Nat × Setting × Int) := [(0, .size, 30), (0, .leftHalo, 9), (1, .rightHalo, -1), (1, .halo, 2), (0, .leftHalo, 3), (1, .size, 7)]
def calls2 : List (Nat × Setting × Int) := [(1, .size, 7), (0, .leftHalo, 3), (1, .rightHalo, 2), (1, .leftHalo, 2), (0, .size, 30)]

theorem same (j : Nat) (d : DimG) (hd : geom.dims[j]? = some d) (f : SizeField) : lastValue d.kind f j calls1 = lastValue d.kind f j calls2 := by
  match j, hd with
  | 0, hd => cases hd; cases f <;> decide
  | 1, hd => cases hd; cases f <;> decide
  | j + 2, hd => simp [geom] at hd

theorem nonneg (j : Nat) (d : DimG) (hd : geom.dims[j]? = some d) (f : SizeField) (_ : f ≠ .size) : 0 ≤ lastValue d.kind f j calls1 := by
  match j, hd with
  | 0, hd => cases hd; cases f <;> decide
  | 1, hd => cases hd; cases f <;> decide
  | j + 2, hd => simp [geom] at hd

example : (callAll (⟨geom0, none⟩ : YVar Int) calls1).g.dims.map reported = (callAll (⟨geom0, none⟩ : YVar Int) calls2).g.dims.map reported :=
  C90_sizes_partial constructed resized calls1 calls2 same nonneg

example : (callAll (⟨geom0, none⟩ : YVar Int) calls1).g.dims.map reported = [[30, 3, 0, 8, 6, 5, 6, 44], [7, 2, 2, 3, 3, 1, 1, 13]] := by decide +kernel

end CallsExample

/-- A halo that was refused stays in force: a later call with a legal value, for another dim, is refused, too. -/
theorem C90_refused_stays : ∃ (g g0 : Geom), g.Constructed ∧ g.resize false = some g0 ∧
    (callSetting (⟨g0, none⟩ : YVar Int) 1 .leftHalo (-1)).2 = true ∧
    (callSetting (⟨g0, none⟩ : YVar Int) 0 .leftHalo 2).2 = false ∧
    (callSetting (callAll (⟨g0, none⟩ : YVar Int) [(1, .leftHalo, -1)]) 0 .leftHalo 2).2 = true :=
  ⟨CallsExample.geom, CallsExample.geom0, CallsExample.constructed, CallsExample.resized, by decide +kernel⟩

/-- With storage the order matters: the size of a dim of a fixed-size var can be reduced by one, but then the old size is refused, because
padding that has been used for it never shrinks. -/
theorem C90_storage_false : ∃ (g g0 : Geom) (v v1 v2 : YVar Int), g.Constructed ∧ g.resize false = some g0 ∧
    callSetting (⟨g0, none⟩ : YVar Int) 0 .size 16 = (v, false) ∧
    v1 = { v with mem := some fun _ => 0 } ∧
    (callSetting v1 0 .size 16).2 = false ∧
    callSetting v1 0 .size 15 = (v2, false) ∧
    (callSetting v2 0 .size 16).2 = true := by
  refine ⟨CallsExample.geom, CallsExample.geom0, (callSetting (⟨CallsExample.geom0, none⟩ : YVar Int) 0 .size 16).1, _,
    (callSetting ({ (callSetting (⟨CallsExample.geom0, none⟩ : YVar Int) 0 .size 16).1 with mem := some fun _ => 0 } : YVar Int) 0 .size 15).1,
    CallsExample.constructed, CallsExample.resized, ?_, rfl, ?_, ?_, ?_⟩
  · exact Prod.ext rfl (by decide +kernel)
  · decide +kernel
  · exact Prod.ext rfl (by decide +kernel)
  · decide +kernel

end Yask
