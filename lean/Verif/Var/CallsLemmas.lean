import Verif.Var.CallsModel
import Verif.Spec.CallsSpec

/-! Helper lemmas: what sequences of setting calls leave in a var without storage. -/

namespace Yask.Var
open Spec
variable {V : Type}

/-- A dim without its offsets. -/
def DimG.sizePart (d : DimG) : DimG := { d with rankOfs := 0, localOfs := 0, vecLocalOfs := 0 }

/-- A dim without its offsets and what `resize` computes. -/
def DimG.reqs (d : DimG) : DimG :=
  { d with rankOfs := 0, localOfs := 0, vecLocalOfs := 0, lPad := 0, rPad := 0, alloc := 0, vecLPad := 0, vecAlloc := 0 }

/-- The part of a dim that no call changes. -/
def DimG.static (d : DimG) : DimKind × Int × Int × Bool := (d.kind, d.solnVL, d.varVL, d.isInner)

theorem reqs_ext {d d' : DimG} (hs : d.static = d'.static) (hf : ∀ f : SizeField, f.get d = f.get d') : d.reqs = d'.reqs := by
  have h1 := hf .size
  have h2 := hf .leftHalo
  have h3 := hf .rightHalo
  have h4 := hf .leftMinPad
  have h5 := hf .rightMinPad
  have h6 := hf .leftExtraPad
  have h7 := hf .rightExtraPad
  have h8 := hf .leftExt
  have h9 := hf .rightExt
  obtain ⟨⟩ := d
  obtain ⟨⟩ := d'
  simp only [SizeField.get, DimG.static, Prod.mk.injEq] at *
  obtain ⟨k1, k2, k3, k4⟩ := hs
  subst_vars
  rfl

theorem sizePart_resized (a b : Bool) (d : DimG) : (d.resized a b false).sizePart = (d.reqs.resized a b false).sizePart := by
  rfl

theorem settingsOk_reqs (d : DimG) : d.settingsOk = d.reqs.settingsOk := rfl

theorem reqs_resized (a b c : Bool) (d : DimG) : (d.resized a b c).reqs = d.reqs := rfl

theorem static_reqs (d : DimG) : d.reqs.static = d.static := rfl

theorem get_reqs (f : SizeField) (d : DimG) : f.get d.reqs = f.get d := by cases f <;> rfl

theorem settingsOk_of_get {d : DimG} : d.settingsOk = true ↔ ∀ f : SizeField, f ≠ .size → 0 ≤ f.get d := by
  constructor
  · intro h f hf
    simp only [DimG.settingsOk, Bool.and_eq_true, decide_eq_true_eq] at h
    cases f <;> first | exact absurd rfl hf | (simp only [SizeField.get]; omega)
  · intro h
    simp only [DimG.settingsOk, Bool.and_eq_true, decide_eq_true_eq]
    exact ⟨⟨⟨⟨⟨⟨⟨h .leftHalo (by decide), h .rightHalo (by decide)⟩, h .leftExt (by decide)⟩, h .rightExt (by decide)⟩,
      h .leftMinPad (by decide)⟩, h .rightMinPad (by decide)⟩, h .leftExtraPad (by decide)⟩, h .rightExtraPad (by decide)⟩

theorem initValidSteps_core (ds : List DimG) : (initValidSteps ds).map DimG.sizePart = ds.map DimG.sizePart := by
  cases ds with
  | nil => rfl
  | cons d ds =>
    simp only [initValidSteps]
    by_cases h : d.kind = .step
    · rw [if_pos h]; rfl
    · rw [if_neg h]

theorem reqs_core (d : DimG) : d.sizePart.reqs = d.reqs := rfl

theorem map_reqs_of_core {ds ds' : List DimG} (h : ds.map DimG.sizePart = ds'.map DimG.sizePart) : ds.map DimG.reqs = ds'.map DimG.reqs := by
  have := congrArg (List.map DimG.reqs) h
  simpa only [List.map_map, Function.comp_def, reqs_core] using this

/-- `newDirty` does not depend on offsets. -/
theorem newDirty_core {ds ds' : List DimG} (h : ds.map DimG.sizePart = ds'.map DimG.sizePart) : newDirty ds = newDirty ds' := by
  have key : ∀ l : List DimG, newDirty l = newDirty (l.map DimG.sizePart) := by
    intro l
    unfold newDirty
    induction l with
    | nil => rfl
    | cons d l ih =>
      rw [List.map_cons, List.find?_cons, List.find?_cons]
      cases hk : (d.kind == DimKind.step) with
      | true =>
        have : (d.sizePart.kind == DimKind.step) = true := hk
        rw [this]; rfl
      | false =>
        have : (d.sizePart.kind == DimKind.step) = false := hk
        rw [this]; exact ih
  rw [key, key ds', h]

/-- The sizes are those that follow from the settings. -/
structure Geom.Synced (g : Geom) : Prop where
  dims : g.dims.map DimG.sizePart = g.dims.map fun d => (d.reqs.resized g.vlenGt1 g.allowAddlPad false).sizePart
  dirty : g.numDirty = newDirty g.dims

/-- The part of the meta-data that is not in the dims. -/
def Geom.rest (g : Geom) : Geom := { g with dims := [], numDirty := 0 }

theorem resize_none {g : Geom} : g.resize false = none ↔ ¬ ∀ d ∈ g.dims, d.settingsOk = true := by
  unfold Geom.resize
  by_cases h : g.dims.all DimG.settingsOk = true
  · have h' : ∀ d ∈ g.dims, d.settingsOk = true := List.all_eq_true.1 h
    simp only [h, Bool.not_true, Bool.false_eq_true, if_false, Bool.false_and]
    constructor
    · intro h2; split at h2 <;> cases h2
    · intro h2; exact absurd h' h2
  · have h' : ¬ ∀ d ∈ g.dims, d.settingsOk = true := fun hh => h (List.all_eq_true.2 hh)
    rw [Bool.not_eq_true] at h
    simp only [h, Bool.not_false, if_true, true_iff]
    exact h'

theorem resize_some {g g2 : Geom} (h : g.resize false = some g2) :
    g2.rest = g.rest ∧ g2.dims.map DimG.reqs = g.dims.map DimG.reqs ∧ g2.Synced := by
  unfold Geom.resize at h
  by_cases h1 : g.dims.all DimG.settingsOk = true
  · simp only [h1, Bool.not_true, Bool.false_eq_true, if_false, Bool.false_and] at h
    have hc : g2.dims.map DimG.sizePart = (g.dims.map (DimG.resized g.vlenGt1 g.allowAddlPad false)).map DimG.sizePart ∧
        g2.rest = g.rest ∧ g2.numDirty = newDirty (g.dims.map (DimG.resized g.vlenGt1 g.allowAddlPad false)) ∧
        g2.vlenGt1 = g.vlenGt1 ∧ g2.allowAddlPad = g.allowAddlPad := by
      split at h
      · cases h
        exact ⟨initValidSteps_core _, rfl, rfl, rfl, rfl⟩
      next hd =>
        cases h
        exact ⟨rfl, rfl, not_not.1 hd, rfl, rfl⟩
    obtain ⟨c1, c2, c3, c4, c5⟩ := hc
    have hr : g2.dims.map DimG.reqs = g.dims.map DimG.reqs := by
      rw [map_reqs_of_core c1, List.map_map]
      rfl
    refine ⟨c2, hr, ⟨?_, ?_⟩⟩
    · have e1 : (g2.dims.map fun d => (d.reqs.resized g2.vlenGt1 g2.allowAddlPad false).sizePart)
          = (g2.dims.map DimG.reqs).map fun d => (d.resized g2.vlenGt1 g2.allowAddlPad false).sizePart := by
        rw [List.map_map]; rfl
      rw [e1, hr, c1, c4, c5, List.map_map, List.map_map]
      rfl
    · rw [c3]
      exact (newDirty_core c1).symm
  · rw [Bool.not_eq_true] at h1
    simp only [h1, Bool.not_false, if_true] at h
    cases h

/-- What a single call does to the settings of a dim of a var, if it is made for this dim. -/
theorem modify_get {k : DimKind} (s : Setting) (n : Int) (d : DimG) (hk : d.kind = k) (ha : s.allowed n d = true) (f : SizeField) :
    f.get (s.modify n d) = valueAfter k f s n (f.get d) := by
  subst hk
  unfold valueAfter
  cases s <;> simp only [Setting.allowed, beq_iff_eq] at ha <;>
    first
    | (rw [if_pos (Or.inl ha)]; cases f <;> rfl)
    | (rw [if_pos (Or.inr rfl)]; cases f <;> rfl)
    | (cases f <;> simp [callSets, Setting.modify, SizeField.get])

theorem not_allowed_get {k : DimKind} (s : Setting) (n x : Int) (d : DimG) (hk : d.kind = k) (ha : s.allowed n d = false) (f : SizeField) :
    valueAfter k f s n x = x := by
  subst hk
  unfold valueAfter
  cases s <;> simp only [Setting.allowed, beq_eq_false_iff_ne, ne_eq] at ha <;>
    first
    | (cases ha)
    | (cases f <;> simp [callSets]; done)
    | exact if_neg (fun h => Or.elim h ha (fun h => by cases h))

theorem modify_static (s : Setting) (n : Int) (d : DimG) : (s.modify n d).static = d.static := by cases s <;> rfl

/-- The state of a var without storage after some calls. -/
structure CallsInv (g : Geom) (cs : List (Nat × Setting × Int)) (v : YVar V) : Prop where
  mem : v.mem = none
  rest : v.g.rest = g.rest
  static : v.g.dims.map DimG.static = g.dims.map DimG.static
  vals : ∀ (j : Nat) (d : DimG), v.g.dims[j]? = some d → ∀ f : SizeField, f.get d = lastValue d.kind f j cs
  synced : (∀ d ∈ v.g.dims, d.settingsOk = true) → v.g.Synced

theorem lastValue_append (k : DimKind) (f : SizeField) (j : Nat) (cs : List (Nat × Setting × Int)) (c : Nat × Setting × Int) :
    lastValue k f j (cs ++ [c]) = if c.1 = j then valueAfter k f c.2.1 c.2.2 (lastValue k f j cs) else lastValue k f j cs := by
  unfold lastValue
  rw [List.foldl_append]
  rfl

theorem getElem?_of_map_eq {α β : Type} {f : α → β} {l l' : List α} (h : l.map f = l'.map f) {j : Nat} {x : α} (hx : l[j]? = some x) :
    ∃ y, l'[j]? = some y ∧ f x = f y := by
  have h1 : (l.map f)[j]? = some (f x) := by rw [List.getElem?_map, hx]; rfl
  rw [h, List.getElem?_map] at h1
  cases h2 : l'[j]? with
  | none => rw [h2] at h1; cases h1
  | some y =>
    rw [h2] at h1
    exact ⟨y, rfl, (Option.some.inj h1).symm⟩

theorem map_set_static {l : List DimG} {j : Nat} {d : DimG} (s : Setting) (n : Int) (h : l[j]? = some d) :
    (l.set j (s.modify n d)).map DimG.static = l.map DimG.static := by
  rw [List.map_set, modify_static]
  apply List.ext_getElem?
  intro i
  by_cases hi : j = i
  · subst hi
    have hl := (List.getElem?_eq_some_iff.1 h).1
    rw [List.getElem?_set_self (by rw [List.length_map]; exact hl), List.getElem?_map, h]
    rfl
  · rw [List.getElem?_set_ne hi]

theorem static_of_reqs {ds ds' : List DimG} (h : ds.map DimG.reqs = ds'.map DimG.reqs) : ds.map DimG.static = ds'.map DimG.static := by
  have := congrArg (List.map DimG.static) h
  simpa only [List.map_map, Function.comp_def, static_reqs] using this

theorem ok_of_reqs {ds ds' : List DimG} (h : ds.map DimG.reqs = ds'.map DimG.reqs) (hs : ∀ d ∈ ds, d.settingsOk = true) :
    ∀ d ∈ ds', d.settingsOk = true := by
  intro d hd
  have h1 : d.reqs ∈ ds.map DimG.reqs := by rw [h]; exact List.mem_map_of_mem hd
  obtain ⟨e, he, h2⟩ := List.mem_map.1 h1
  rw [settingsOk_reqs, ← h2, ← settingsOk_reqs]
  exact hs e he

/-- One more call. -/
theorem CallsInv.call {g : Geom} {cs : List (Nat × Setting × Int)} {v : YVar V} (h : CallsInv g cs v) (c : Nat × Setting × Int) :
    CallsInv g (cs ++ [c]) (callSetting v c.1 c.2.1 c.2.2).1 ∧
      ((callSetting v c.1 c.2.1 c.2.2).2 = true ↔
        (∀ d, v.g.dims[c.1]? = some d → c.2.1.allowed c.2.2 d = false) ∨
        (c.2.1.needResize = true ∧ ∃ d ∈ (callSetting v c.1 c.2.1 c.2.2).1.g.dims, d.settingsOk = false)) := by
  obtain ⟨posn, s, n⟩ := c
  simp only
  have hsame : ∀ (hn : ∀ d, v.g.dims[posn]? = some d → s.allowed n d = false), CallsInv g (cs ++ [(posn, s, n)]) v := by
    intro hn
    refine ⟨h.mem, h.rest, h.static, ?_, h.synced⟩
    intro j d hd f
    rw [lastValue_append]
    simp only
    by_cases hj : posn = j
    · subst hj
      rw [if_pos rfl, not_allowed_get s n _ d rfl (hn d hd) f]
      exact h.vals posn d hd f
    · rw [if_neg hj]
      exact h.vals j d hd f
  unfold callSetting
  cases hd : v.g.dims[posn]? with
  | none =>
    simp only
    exact ⟨hsame (fun d hd' => by rw [hd] at hd'; cases hd'), iff_of_true trivial (Or.inl fun d hd' => by cases hd')⟩
  | some d =>
    simp only
    cases ha : s.allowed n d with
    | false =>
      simp only [Bool.not_false, if_true]
      exact ⟨hsame (fun d' hd' => by rw [hd] at hd'; cases hd'; exact ha),
        iff_of_true trivial (Or.inl fun d' hd' => by cases hd'; exact ha)⟩
    | true =>
      simp only [Bool.not_true, Bool.false_eq_true, if_false]
      have hlen := (List.getElem?_eq_some_iff.1 hd).1
      -- the var with the changed setting
      have hst : (v.g.dims.set posn (s.modify n d)).map DimG.static = g.dims.map DimG.static := by
        rw [map_set_static s n hd]; exact h.static
      have hvals : ∀ (j : Nat) (e : DimG), (v.g.dims.set posn (s.modify n d))[j]? = some e → ∀ f : SizeField,
          f.get e = lastValue e.kind f j (cs ++ [(posn, s, n)]) := by
        intro j e he f
        rw [lastValue_append]
        simp only
        by_cases hj : posn = j
        · subst hj
          rw [List.getElem?_set_self hlen] at he
          cases he
          have hk : (s.modify n d).kind = d.kind := congrArg Prod.fst (modify_static s n d)
          rw [if_pos rfl, hk, modify_get s n d rfl ha f, h.vals posn d hd f]
        · rw [if_neg hj]
          rw [List.getElem?_set_ne hj] at he
          exact h.vals j e he f
      have hno : ¬ ∀ d', some d = some d' → s.allowed n d' = false := fun hh => by
        have := hh d rfl
        rw [ha] at this; cases this
      cases hn : s.needResize with
      | false =>
        simp only [Bool.false_eq_true, if_false]
        have hreq : (v.g.dims.set posn (s.modify n d)).map DimG.sizePart = v.g.dims.map DimG.sizePart := by
          have hc : (s.modify n d).sizePart = d.sizePart := by cases s <;> first | rfl | cases hn
          rw [List.map_set, hc]
          apply List.ext_getElem?
          intro i
          by_cases hi : posn = i
          · subst hi
            rw [List.getElem?_set_self (by rw [List.length_map]; exact hlen), List.getElem?_map, hd]
            rfl
          · rw [List.getElem?_set_ne hi]
        refine ⟨⟨h.mem, h.rest, hst, hvals, ?_⟩, ?_⟩
        · intro hok
          have h1 := h.synced (ok_of_reqs (map_reqs_of_core hreq) hok)
          refine ⟨?_, ?_⟩
          · change (v.g.dims.set posn (s.modify n d)).map DimG.sizePart
              = (v.g.dims.set posn (s.modify n d)).map fun d => (d.reqs.resized v.g.vlenGt1 v.g.allowAddlPad false).sizePart
            have e1 : ∀ ds : List DimG, (ds.map fun d => (d.reqs.resized v.g.vlenGt1 v.g.allowAddlPad false).sizePart)
                = (ds.map DimG.reqs).map fun d => (d.resized v.g.vlenGt1 v.g.allowAddlPad false).sizePart := by
              intro ds; rw [List.map_map]; rfl
            rw [hreq, e1, map_reqs_of_core hreq, ← e1]
            exact h1.dims
          · change v.g.numDirty = newDirty (v.g.dims.set posn (s.modify n d))
            rw [newDirty_core hreq]
            exact h1.dirty
        · constructor
          · intro hh; cases hh
          · rintro (hh | ⟨hh, -⟩)
            · exact absurd hh hno
            · cases hh
      | true =>
        simp only [if_true]
        have hm : v.mem.isSome = false := by rw [h.mem]; rfl
        rw [hm]
        cases hr : ({ v.g with dims := v.g.dims.set posn (s.modify n d) } : Geom).resize false with
        | none =>
          have hbad := resize_none.1 hr
          simp only
          refine ⟨⟨h.mem, h.rest, hst, hvals, fun hok => absurd hok hbad⟩, iff_of_true trivial (Or.inr ⟨trivial, ?_⟩)⟩
          by_contra hcon
          apply hbad
          intro e he
          by_contra hne
          exact hcon ⟨e, he, by rwa [Bool.not_eq_true] at hne⟩
        | some g2 =>
          obtain ⟨r1, r2, r3⟩ := resize_some hr
          simp only
          have hgood : ∀ e ∈ g2.dims, e.settingsOk = true := by
            refine ok_of_reqs r2.symm ?_
            by_contra hne
            have := resize_none.2 hne
            rw [hr] at this; cases this
          refine ⟨⟨h.mem, r1.trans h.rest, (static_of_reqs r2).trans hst, ?_, fun _ => r3⟩, ?_⟩
          · intro j e he f
            obtain ⟨e', he', hee⟩ := getElem?_of_map_eq r2 he
            have hk : e.kind = e'.kind := by
              have : e.reqs.kind = e'.reqs.kind := by rw [hee]
              exact this
            rw [hk, ← get_reqs, hee, get_reqs]
            exact hvals j e' he' f
          · constructor
            · intro hh; cases hh
            · rintro (hh | ⟨-, e, he, hh⟩)
              · exact absurd hh hno
              · rw [hgood e he] at hh; cases hh

theorem callsInv_all {g : Geom} {v : YVar V} (h : CallsInv g [] v) (cs : List (Nat × Setting × Int)) : CallsInv g cs (callAll v cs) := by
  suffices hh : ∀ (cs done : List (Nat × Setting × Int)) (v : YVar V), CallsInv g done v → CallsInv g (done ++ cs) (callAll v cs) from
    hh cs [] v h
  intro cs
  induction cs with
  | nil => intro done v h; rw [List.append_nil]; exact h
  | cons c cs ih =>
    intro done v h
    have := ih (done ++ [c]) _ (h.call c).1
    rw [List.append_assoc] at this
    exact this

theorem callsInv_new {g g0 : Geom} (hc : g.Constructed) (h0 : g.resize false = some g0) : CallsInv g [] (⟨g0, none⟩ : YVar V) := by
  obtain ⟨r1, r2, r3⟩ := resize_some h0
  refine ⟨rfl, r1, static_of_reqs r2, ?_, fun _ => r3⟩
  intro j d hd f
  obtain ⟨e, he, hee⟩ := getElem?_of_map_eq r2 hd
  rw [← get_reqs, hee, get_reqs]
  obtain ⟨k, sv, vv, inn, rfl⟩ := hc.fresh e (List.mem_of_getElem? he)
  cases f <;> rfl

/-- Two vars with the same settings. -/
theorem CallsInv.eq {g : Geom} {cs cs' : List (Nat × Setting × Int)} {v v' : YVar V} (h : CallsInv g cs v) (h' : CallsInv g cs' v')
    (same : ∀ (j : Nat) (d : DimG), g.dims[j]? = some d → ∀ f : SizeField, lastValue d.kind f j cs = lastValue d.kind f j cs')
    (nonneg : ∀ (j : Nat) (d : DimG), g.dims[j]? = some d → ∀ f : SizeField, f ≠ .size → 0 ≤ lastValue d.kind f j cs) :
    v.g.dims.map DimG.sizePart = v'.g.dims.map DimG.sizePart ∧ v.g.numDirty = v'.g.numDirty ∧ v.g.rest = v'.g.rest := by
  have hreq : v.g.dims.map DimG.reqs = v'.g.dims.map DimG.reqs := by
    have hst := h.static.trans h'.static.symm
    have hl : v.g.dims.length = v'.g.dims.length := by
      have := congrArg List.length hst
      simpa only [List.length_map] using this
    apply List.ext_getElem?
    intro j
    rw [List.getElem?_map, List.getElem?_map]
    cases hd : v.g.dims[j]? with
    | none =>
      have : v'.g.dims[j]? = none := by
        rw [List.getElem?_eq_none_iff] at hd ⊢; omega
      rw [this]
    | some d =>
      obtain ⟨d', hd', hdd⟩ := getElem?_of_map_eq hst hd
      obtain ⟨e, he, hee⟩ := getElem?_of_map_eq h.static hd
      rw [hd']
      simp only [Option.map_some]
      congr 1
      refine reqs_ext hdd fun f => ?_
      have hk : d.kind = e.kind := congrArg Prod.fst hee
      have hk' : d'.kind = e.kind := (congrArg Prod.fst hdd).symm.trans hk
      rw [h.vals j d hd f, h'.vals j d' hd' f, hk, hk']
      exact same j e he f
  have hok : ∀ d ∈ v.g.dims, d.settingsOk = true := by
    intro d hd
    obtain ⟨j, hj⟩ := List.mem_iff_getElem?.1 hd
    obtain ⟨e, he, hee⟩ := getElem?_of_map_eq h.static hj
    have hk : d.kind = e.kind := congrArg Prod.fst hee
    refine settingsOk_of_get.2 fun f hf => ?_
    rw [h.vals j d hj f, hk]
    exact nonneg j e he f hf
  have s1 := h.synced hok
  have s2 := h'.synced (ok_of_reqs hreq hok)
  have hrest : v.g.rest = v'.g.rest := h.rest.trans h'.rest.symm
  have e1 : v.g.vlenGt1 = v'.g.vlenGt1 := by
    have : v.g.rest.vlenGt1 = v'.g.rest.vlenGt1 := by rw [hrest]
    exact this
  have e2 : v.g.allowAddlPad = v'.g.allowAddlPad := by
    have : v.g.rest.allowAddlPad = v'.g.rest.allowAddlPad := by rw [hrest]
    exact this
  have hcore : v.g.dims.map DimG.sizePart = v'.g.dims.map DimG.sizePart := by
    rw [s1.dims, s2.dims, e1, e2]
    have e3 : ∀ ds : List DimG, (ds.map fun d => (d.reqs.resized v'.g.vlenGt1 v'.g.allowAddlPad false).sizePart)
        = (ds.map DimG.reqs).map fun d => (d.resized v'.g.vlenGt1 v'.g.allowAddlPad false).sizePart := by
      intro ds; rw [List.map_map]; rfl
    rw [e3, hreq, ← e3]
  refine ⟨hcore, ?_, hrest⟩
  rw [s1.dirty, s2.dirty, newDirty_core hcore]

end Yask.Var
