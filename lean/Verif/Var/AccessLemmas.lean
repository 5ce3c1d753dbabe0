import Verif.Var.AddrLemmas

/-! Helper lemmas: index checks, reading and writing elements. -/

namespace Yask.Var
open Spec

variable {V : Type}

theorem _root_.Yask.Spec.InRange.butStep {ds : List ApiDim} {idx : List Int} (h : InRange ds idx) :
    InRangeButStep ds idx :=
  h.imp fun _ _ h => Or.inr h

theorem _root_.Yask.Spec.Readable.butStep {w : Bool} {ds : List ApiDim} {idx : List Int} (h : Readable w ds idx) :
    InRangeButStep ds idx := by
  unfold Readable at h
  split at h
  · exact h
  · exact InRange.butStep h

/-- Which indices `check_indices` accepts. -/
theorem checkIndices_all (g : Geom) (cs : Bool) (idx : List Int) (hl : idx.length = g.dims.length) :
    (List.zipWith (checkDim g.stepWrap cs) g.dims idx).all Prod.fst = true ↔
      Readable (!cs || g.stepWrap) g.api idx := by
  have key : ∀ (w : Bool), ((!cs || g.stepWrap) = w) → ∀ (ds : List DimG) (idx : List Int),
      idx.length = ds.length →
      ((List.zipWith (checkDim g.stepWrap cs) ds idx).all Prod.fst = true ↔
        Readable w (ds.map fun d => ⟨d.kind == .step, d.firstLocal, d.lastLocal, d.alloc⟩) idx) := by
    intro w hw ds
    induction ds with
    | nil =>
      intro idx hl
      cases idx with
      | nil => cases w <;> simp [Readable, InRange, InRangeButStep]
      | cons _ _ => simp at hl
    | cons d ds ih =>
      intro idx hl
      cases idx with
      | nil => simp at hl
      | cons i is =>
        have := ih is (by simpa using hl)
        simp only [List.zipWith_cons_cons, List.all_cons, Bool.and_eq_true, List.map_cons]
        rw [this]
        have hc : (checkDim g.stepWrap cs d i).1 = true ↔
            ((d.kind = .step ∧ w = true) ∨ (d.firstLocal ≤ i ∧ i ≤ d.lastLocal)) := by
          unfold checkDim
          rw [hw]
          split
          · next h => simp [h]
          · next h =>
            split
            · next h2 => simp [h2]
            · next h2 => simp only [Bool.false_eq_true, false_iff, not_or]; exact ⟨h, h2⟩
        rw [hc]
        cases w <;> simp [Readable, InRange, InRangeButStep]
  exact key _ rfl g.dims idx hl

theorem checkIndices_clip (w cs : Bool) (ds : List DimG) (idx : List Int) (hl : idx.length = ds.length)
    (h : (List.zipWith (checkDim w cs) ds idx).all Prod.fst = true) :
    (List.zipWith (checkDim w cs) ds idx).map Prod.snd = idx := by
  induction ds generalizing idx with
  | nil => cases idx <;> simp_all
  | cons d ds ih =>
    cases idx with
    | nil => simp at hl
    | cons i is =>
      simp only [List.zipWith_cons_cons, List.all_cons, Bool.and_eq_true, List.map_cons] at h ⊢
      rw [ih is (by simpa using hl) h.2]
      congr 1
      have h1 := h.1
      unfold checkDim at h1 ⊢
      split
      · rfl
      · next hn =>
        rw [if_neg hn] at h1
        split
        · rfl
        · next hn2 => rw [if_neg hn2] at h1; simp at h1

theorem checkIndices_ok (g : Geom) (idx : List Int) (strict cs : Bool)
    (h : Readable (!cs || g.stepWrap) g.api idx) :
    g.checkIndices idx strict cs false = .ok (true, idx) := by
  have hl := inRangeButStep_length h.butStep
  have ha := (checkIndices_all g cs idx hl).2 h
  unfold Geom.checkIndices
  rw [if_neg (by omega)]
  simp only [ha, Bool.not_true, Bool.and_false, Bool.false_eq_true, if_false,
    checkIndices_clip _ _ _ _ hl ha]

theorem checkIndices_strict (g : Geom) (idx : List Int) (cs norm : Bool)
    (h : ¬ Readable (!cs || g.stepWrap) g.api idx) : g.checkIndices idx true cs norm = .throws := by
  unfold Geom.checkIndices
  by_cases hl : idx.length = g.dims.length
  · have ha := mt (checkIndices_all g cs idx hl).1 h
    rw [Bool.not_eq_true] at ha
    rw [if_neg (by omega)]
    simp [ha]
  · rw [if_pos hl]

theorem checkIndices_loose (g : Geom) (idx : List Int) (cs : Bool) (hl : idx.length = g.dims.length)
    (h : ¬ Readable (!cs || g.stepWrap) g.api idx) :
    ∃ c, g.checkIndices idx false cs false = .ok (false, c) := by
  have ha := mt (checkIndices_all g cs idx hl).1 h
  rw [Bool.not_eq_true] at ha
  unfold Geom.checkIndices
  rw [if_neg (by omega)]
  exact ⟨_, by simp only [ha, Bool.false_and, Bool.false_eq_true, if_false]; rfl⟩

theorem checkIndices_length (g : Geom) (idx : List Int) (strict cs norm : Bool)
    (hl : idx.length ≠ g.dims.length) : g.checkIndices idx strict cs norm = .throws := by
  unfold Geom.checkIndices
  rw [if_pos hl]

/-- Indices in range imply a non-empty step allocation. -/
theorem stepsAlloc_of_inRange {g : Geom} (hok : g.Ok) {idx : List Int} (h : InRange g.api idx) :
    StepsAlloc g.api := by
  have hok' := hok.dims
  unfold Geom.api at *
  generalize g.dims = ds at *
  induction ds generalizing idx with
  | nil => intro d hd; simp at hd
  | cons d ds ih =>
    cases idx with
    | nil => simp [InRange] at h
    | cons i is =>
      simp only [InRange, List.map_cons, List.forall₂_cons] at h
      intro x hx hs
      simp only [List.map_cons, List.mem_cons] at hx
      rcases hx with rfl | hx
      · have hd := hok' d List.mem_cons_self
        have hk : d.kind = .step := by simpa using hs
        have := (hd.nd_pad (by rw [hk]; decide))
        have := hd.alloc_eq
        unfold DimG.firstLocal DimG.lastLocal at h
        simp only
        omega
      · exact ih h.2 (fun y hy => hok' y (List.mem_cons_of_mem _ hy)) x hx hs

theorem readElem_eq {g : Geom} (hok : g.Ok) (m : Int → V) {idx : List Int}
    (hv : InRangeButStep g.api idx) (hs : StepsAlloc g.api) :
    (g.allocStepIndex idx >>= fun asi => readElem g m idx asi) =
      .ok (m (g.addrOfSlots (slots g.dims idx))) := by
  have ha := addrOf_eq hok hv hs
  unfold Geom.addrOf at ha
  unfold readElem
  rw [← bind_assoc, ha]
  simp only [Outcome.bind_ok, rdMem]
  rw [if_pos (addrOfSlots_range hok (slots_inSpace hok hv hs))]

/-- The storage after one write. -/
def poke (m : Int → V) (a : Int) (val : V) : Int → V := fun b => if b = a then val else m b

theorem writeElem_eq {g : Geom} (hok : g.Ok) (m : Int → V) (val : V) {idx : List Int}
    (hv : InRangeButStep g.api idx) (hs : StepsAlloc g.api) :
    (g.allocStepIndex idx >>= fun asi => writeElem g m val idx asi) =
      .ok (poke m (g.addrOfSlots (slots g.dims idx)) val) := by
  have ha := addrOf_eq hok hv hs
  unfold Geom.addrOf at ha
  unfold writeElem
  rw [← bind_assoc, ha]
  simp only [Outcome.bind_ok, wrMem]
  rw [if_pos (addrOfSlots_range hok (slots_inSpace hok hv hs))]
  rfl

/-- Two addresses are equal exactly for the same element. -/
theorem addr_eq_iff {g : Geom} (hok : g.Ok) {a b : List Int} (ha : InRangeButStep g.api a)
    (hb : InRangeButStep g.api b) (hs : StepsAlloc g.api) :
    g.addrOfSlots (slots g.dims a) = g.addrOfSlots (slots g.dims b) ↔ SameElem g.api a b := by
  rw [sameElem_iff_slots hok (inRangeButStep_length ha) (inRangeButStep_length hb)]
  constructor
  · exact addrOfSlots_injective hok (slots_inSpace hok ha hs) (slots_inSpace hok hb hs)
  · intro h; rw [h]

theorem getElement_eq {g : Geom} (hok : g.Ok) (m : Int → V) {idx : List Int}
    (h : Readable g.stepWrap g.api idx) (hs : g.stepWrap = true → StepsAlloc g.api) :
    getElement ⟨g, some m⟩ idx = .ok (m (g.addrOfSlots (slots g.dims idx))) := by
  unfold getElement
  simp only
  rw [checkIndices_ok g idx true true (by simpa using h)]
  simp only [Outcome.bind_ok]
  apply readElem_eq hok m h.butStep
  cases hw : g.stepWrap with
  | true => exact hs hw
  | false =>
    rw [hw] at h
    exact stepsAlloc_of_inRange hok h

theorem getElement_throws (v : YVar V) {idx : List Int}
    (h : v.mem = none ∨ ¬ Readable v.g.stepWrap v.g.api idx) : getElement v idx = .throws := by
  obtain ⟨g, m⟩ := v
  unfold getElement
  cases m with
  | none => rfl
  | some m =>
    rcases h with h | h
    · simp at h
    · simp only
      rw [checkIndices_strict g idx true false (by simpa using h)]
      rfl

theorem setElement_eq {g : Geom} (hok : g.Ok) (m : Int → V) (val : V) {idx : List Int} (strict : Bool)
    (hv : InRangeButStep g.api idx) (hs : StepsAlloc g.api) :
    setElement ⟨g, some m⟩ val idx strict =
      .ok (⟨g, some (poke m (g.addrOfSlots (slots g.dims idx)) val)⟩, 1) := by
  unfold setElement
  simp only
  rw [checkIndices_ok g idx strict false (by simpa [Readable] using hv)]
  simp only [Outcome.bind_ok, if_true]
  rw [← bind_assoc, writeElem_eq hok m val hv hs]
  rfl

theorem setElement_no {g : Geom} (m : Int → V) (val : V) {idx : List Int} (strict : Bool)
    (hv : ¬ InRangeButStep g.api idx) :
    setElement ⟨g, some m⟩ val idx strict = .throws ∨
      setElement ⟨g, some m⟩ val idx strict = .ok (⟨g, some m⟩, 0) := by
  unfold setElement
  simp only
  have hv' : ¬ Readable (!false || g.stepWrap) g.api idx := by simpa [Readable] using hv
  by_cases hl : idx.length = g.dims.length
  · cases strict with
    | true => rw [checkIndices_strict g idx false false hv']; exact Or.inl rfl
    | false =>
      obtain ⟨c, hc⟩ := checkIndices_loose g idx false hl hv'
      rw [hc]; exact Or.inr rfl
  · rw [checkIndices_length g idx _ _ _ hl]; exact Or.inl rfl

theorem addToElement_eq [Add V] {g : Geom} (hok : g.Ok) (m : Int → V) (val : V) {idx : List Int}
    (strict : Bool) (hv : Readable g.stepWrap g.api idx) (hs : StepsAlloc g.api) :
    addToElement ⟨g, some m⟩ val idx strict =
      .ok (⟨g, some (poke m (g.addrOfSlots (slots g.dims idx))
        (m (g.addrOfSlots (slots g.dims idx)) + val))⟩, 1) := by
  unfold addToElement
  simp only
  rw [checkIndices_ok g idx strict true (by simpa using hv)]
  simp only [Outcome.bind_ok, if_true]
  have h1 := readElem_eq hok m hv.butStep hs
  have h2 := writeElem_eq hok m (m (g.addrOfSlots (slots g.dims idx)) + val) hv.butStep hs
  cases ha : g.allocStepIndex idx with
  | throws => rw [ha] at h1; simp at h1
  | undefined => rw [ha] at h1; simp at h1
  | ok asi =>
    rw [ha] at h1 h2
    simp only [Outcome.bind_ok] at h1 h2 ⊢
    rw [h1]
    simp only [Outcome.bind_ok]
    rw [h2]
    rfl

theorem addToElement_no [Add V] {g : Geom} (m : Int → V) (val : V) {idx : List Int} (strict : Bool)
    (hv : ¬ Readable g.stepWrap g.api idx) :
    addToElement ⟨g, some m⟩ val idx strict = .throws ∨
      addToElement ⟨g, some m⟩ val idx strict = .ok (⟨g, some m⟩, 0) := by
  unfold addToElement
  simp only
  have hv' : ¬ Readable (!true || g.stepWrap) g.api idx := by simpa using hv
  by_cases hl : idx.length = g.dims.length
  · cases strict with
    | true => rw [checkIndices_strict g idx true false hv']; exact Or.inl rfl
    | false =>
      obtain ⟨c, hc⟩ := checkIndices_loose g idx true hl hv'
      rw [hc]; exact Or.inr rfl
  · rw [checkIndices_length g idx _ _ _ hl]; exact Or.inl rfl

theorem setAllSame_at {g : Geom} (hok : g.Ok) (m : Int → V) (val : V) {idx : List Int}
    (hv : InRangeButStep g.api idx) (hs : StepsAlloc g.api) :
    ∃ m', setAllSame ⟨g, some m⟩ val = ⟨g, some m'⟩ ∧
      m' (g.addrOfSlots (slots g.dims idx)) = val :=
  ⟨_, rfl, by simp only; rw [if_pos (addrOfSlots_range hok (slots_inSpace hok hv hs))]⟩

end Yask.Var
