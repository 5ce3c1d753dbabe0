import Verif.Var.VisitSliceLemmas

/-! Helper lemmas: setting and getting slices. -/

namespace Yask.Var
open Spec

variable {V : Type}

/-! ### Points of a slice -/

theorem sliceRange_eq {f l : List Int} (h : SliceNonempty f l) : sliceRange f l = sliceSizes f l := by
  unfold SliceNonempty at h
  unfold sliceRange sliceSizes
  induction h with
  | nil => rfl
  | cons hab _ ih => simp only [List.zipWith_cons_cons, ih]; rw [max_eq_right (by omega)]

theorem sliceSizes_pos {f l : List Int} (h : SliceNonempty f l) : ∀ d ∈ sliceSizes f l, 0 < d := by
  unfold SliceNonempty at h
  unfold sliceSizes
  induction h with
  | nil => simp
  | cons hab _ ih =>
    intro d hd
    simp only [List.zipWith_cons_cons, List.mem_cons] at hd
    rcases hd with rfl | hd
    · omega
    · exact ih d hd

/-- A point of the slice is `first` plus a point of the space of its sizes. -/
theorem inSlice_iff {f l idx : List Int} (h : SliceNonempty f l) :
    InSlice f l idx ↔ InSpace (sliceSizes f l) (List.zipWith (fun i f => i - f) idx f) ∧
      idx.length = f.length := by
  unfold SliceNonempty at h
  unfold InSlice InSpace sliceSizes
  induction h generalizing idx with
  | nil =>
    cases idx with
    | nil => simp
    | cons _ _ => simp
  | @cons a b f l hab hfl ih =>
    cases idx with
    | nil => simp
    | cons i is =>
      simp only [List.zip_cons_cons, List.forall₂_cons, List.zipWith_cons_cons, List.length_cons,
        Nat.add_right_cancel_iff]
      rw [ih]
      constructor
      · rintro ⟨h1, h2, h3⟩; exact ⟨⟨by omega, h2⟩, h3⟩
      · rintro ⟨⟨h1, h2⟩, h3⟩; exact ⟨by omega, h2, h3⟩

theorem zipWith_sub_add {idx f : List Int} (h : idx.length = f.length) :
    List.zipWith (· + ·) f (List.zipWith (fun i f => i - f) idx f) = idx := by
  induction idx generalizing f with
  | nil => cases f <;> simp_all
  | cons i is ih =>
    cases f with
    | nil => simp at h
    | cons a f =>
      simp only [List.zipWith_cons_cons]
      rw [ih (by simpa using h)]
      congr 1
      omega

theorem zipWith_add_sub {p f : List Int} (h : p.length = f.length) :
    List.zipWith (fun i f => i - f) (List.zipWith (· + ·) f p) f = p := by
  induction p generalizing f with
  | nil => cases f <;> simp_all
  | cons i is ih =>
    cases f with
    | nil => simp at h
    | cons a f =>
      simp only [List.zipWith_cons_cons]
      rw [ih (by simpa using h)]
      congr 1
      omega

theorem sliceNonempty_length {f l : List Int} (h : SliceNonempty f l) : l.length = f.length :=
  (List.Forall₂.length_eq h).symm

theorem sliceSizes_length {f l : List Int} (h : SliceNonempty f l) :
    (sliceSizes f l).length = f.length := by
  unfold sliceSizes; rw [List.length_zipWith, sliceNonempty_length h, Nat.min_self]

/-- The `k`-th point of the slice. -/
def slicePt (f l : List Int) (k : Nat) : List Int :=
  List.zipWith (· + ·) f (unlayoutVals false (sliceSizes f l) k)

theorem slicePt_spec {f l : List Int} (h : SliceNonempty f l) {k : Nat}
    (hk : (k : Int) < prodVals (sliceSizes f l)) :
    InSlice f l (slicePt f l k) ∧ slicePos f l (slicePt f l k) = k := by
  have hin := unlayout_inSpace false _ (sliceSizes_pos h) k
  have hlen : (unlayoutVals false (sliceSizes f l) k).length = f.length := by
    rw [(inSpace_nonneg hin).2.2, sliceSizes_length h]
  unfold slicePt slicePos
  rw [inSlice_iff h, zipWith_add_sub hlen]
  refine ⟨⟨hin, ?_⟩, lin_of_unlayout (sliceSizes_pos h) hk⟩
  rw [List.length_zipWith, hlen, Nat.min_self]

theorem slicePt_surj {f l idx : List Int} (h : SliceNonempty f l) (hi : InSlice f l idx) :
    ∃ k : Nat, (k : Int) < prodVals (sliceSizes f l) ∧ slicePt f l k = idx ∧
      slicePos f l idx = k := by
  obtain ⟨h1, h2⟩ := (inSlice_iff h).1 hi
  have e1 := layout_lt false _ _ h1
  have e2 := unlayout_layout false _ _ h1
  have e3 := layoutVals_lin false _ _ h1
  refine ⟨_, e1, ?_, ?_⟩
  · unfold slicePt; rw [e2, zipWith_sub_add h2]
  · rw [e3]; rfl

/-! ### Slices of a var -/

/-- Between two valid tuples, all tuples are valid. -/
theorem inSlice_valid {g : Geom} {f l idx : List Int} (hf : InRangeButStep g.api f)
    (hl : InRangeButStep g.api l) (hi : InSlice f l idx) : InRangeButStep g.api idx := by
  unfold InRangeButStep InSlice at *
  generalize g.api = ds at *
  induction hf generalizing l idx with
  | nil =>
    cases hl
    cases hi
    exact List.Forall₂.nil
  | cons h1 _ ih =>
    cases hl with
    | cons h2 h3 =>
      simp only [List.zip_cons_cons] at hi
      cases hi with
      | cons h4 h5 =>
        refine List.Forall₂.cons ?_ (ih (hl := h3) (hi := h5))
        rcases h1 with h | h
        · exact Or.inl h
        · rcases h2 with h' | h'
          · exact Or.inl h'
          · right; simp only at h4; omega

theorem inSlice_inRange {g : Geom} {f l idx : List Int} (hf : InRange g.api f)
    (hl : InRange g.api l) (hi : InSlice f l idx) : InRange g.api idx := by
  unfold InRange InSlice at *
  generalize g.api = ds at *
  induction hf generalizing l idx with
  | nil =>
    cases hl
    cases hi
    exact List.Forall₂.nil
  | cons h1 _ ih =>
    cases hl with
    | cons h2 h3 =>
      simp only [List.zip_cons_cons] at hi
      cases hi with
      | cons h4 h5 =>
        refine List.Forall₂.cons ?_ (ih (hl := h3) (hi := h5))
        simp only at h4; omega

theorem inSlice_readable {g : Geom} {w : Bool} {f l idx : List Int} (hf : Readable w g.api f)
    (hl : Readable w g.api l) (hi : InSlice f l idx) : Readable w g.api idx := by
  unfold Readable at *
  split at hf
  · next h => rw [if_pos h] at hl ⊢; exact inSlice_valid hf hl hi
  · next h => rw [if_neg h] at hl ⊢; exact inSlice_inRange hf hl hi

theorem stepSize_pos {g : Geom} (hok : g.Ok) (hs : StepsAlloc g.api) (h : g.hasStep = true) :
    0 < g.stepSize := by
  unfold Geom.hasStep at h
  unfold Geom.stepSize
  cases hd : g.dims with
  | nil => rw [hd] at h; simp at h
  | cons d ds =>
    rw [hd] at h
    simp only [beq_iff_eq] at h
    have hdo := hok.dims d (by rw [hd]; exact List.mem_cons_self)
    simp only
    rw [← (hdo.nd_pad (by rw [h]; decide)).2.2]
    exact hs ⟨d.kind == .step, d.firstLocal, d.lastLocal, d.alloc⟩
      (List.mem_map.2 ⟨d, by rw [hd]; exact List.mem_cons_self, rfl⟩) (by simp [h])

theorem slots_zero {g : Geom} (h : g.hasStep = true) (idx : List Int)
    (hl : idx.length = g.dims.length) :
    (slots g.dims idx).getD 0 0 = idx.getD 0 0 % g.stepSize := by
  unfold Geom.hasStep at h
  unfold Geom.stepSize
  cases hd : g.dims with
  | nil => rw [hd] at h; simp at h
  | cons d ds =>
    rw [hd] at h hl
    simp only [beq_iff_eq] at h
    cases idx with
    | nil => simp at hl
    | cons i is => simp [slots, DimG.slot, h]

/-- Address of a visited point. -/
theorem elemAddr_visit {g : Geom} (hok : g.Ok) (hs : StepsAlloc g.api) {pt : List Int}
    (hv : InRangeButStep g.api pt) :
    g.elemAddr pt (if g.hasStep then pt.getD 0 0 % g.stepSize else 0) =
      .ok (g.addrOfSlots (slots g.dims pt)) := by
  have hl := inRangeButStep_length hv
  apply elemAddr_eq hok _ (slots_inSpace hok hv hs) hl
  intro h
  rw [if_pos h, slots_zero h pt hl]

/-- Two elements of a slice with not too many steps are the same only if their indices are. -/
theorem inSlice_sameElem {g : Geom} {f l a b : List Int} (hfit : StepsFit g.api f l)
    (ha : InSlice f l a) (hb : InSlice f l b) (hal : a.length = f.length)
    (h : SameElem g.api a b) : a = b := by
  unfold StepsFit InSlice sliceSizes at *
  generalize g.api = ds at *
  induction ds generalizing f l a b with
  | nil => cases a <;> cases b <;> simp_all [SameElem]
  | cons d ds ih =>
    cases a with
    | nil => cases b <;> simp_all [SameElem]
    | cons i a =>
      cases b with
      | nil => simp_all [SameElem]
      | cons j b =>
        cases f with
        | nil => simp at hal
        | cons f0 f =>
          cases l with
          | nil => simp at ha
          | cons l0 l =>
            simp only [List.zip_cons_cons, List.forall₂_cons] at ha hb
            simp only [SameElem] at h
            rw [ih (f := f) (l := l) ha.2 hb.2 (by simpa using hal)
              (fun x hx => hfit x (by
                simp only [List.zipWith_cons_cons, List.zip_cons_cons]
                exact List.mem_cons_of_mem _ hx)) h.2]
            congr 1
            by_cases hst : d.isStep = true
            · have := hfit (d, l0 + 1 - f0) (by simp) hst
              simp only at this
              simp only [hst, if_true] at h
              have hmod := h.1
              apply emod_window (n := d.alloc) (f := f0) _ _ hmod
              · omega
              · omega
            · simpa [hst] using h.1

/-- The visits of a slice, in terms of its points. -/
theorem mem_sliceVisits {g : Geom} {f l : List Int} (h : SliceNonempty f l)
    {x : List Int × Int × Int} :
    x ∈ sliceVisits g f (sliceRange f l) ↔
      ∃ k : Nat, (k : Int) < prodVals (sliceSizes f l) ∧
        x = (slicePt f l k, if g.hasStep then (slicePt f l k).getD 0 0 % g.stepSize else 0, (k : Int)) := by
  rw [sliceRange_eq h]
  unfold sliceVisits
  rw [List.mem_map]
  constructor
  · rintro ⟨k, hk, rfl⟩
    rw [List.mem_range] at hk
    exact ⟨k, by omega, rfl⟩
  · rintro ⟨k, hk, rfl⟩
    exact ⟨k, by rw [List.mem_range]; omega, rfl⟩

/-- A fold of calls that succeed is a pure fold. -/
theorem foldlM_ok {σ β : Type} (body : σ → β → Outcome σ) (step : σ → β → σ) (L : List β) (s : σ)
    (h : ∀ s, ∀ x ∈ L, body s x = .ok (step s x)) : L.foldlM body s = .ok (L.foldl step s) := by
  induction L generalizing s with
  | nil => rfl
  | cons x L ih =>
    rw [List.foldlM_cons, h s x List.mem_cons_self]
    simp only [Outcome.bind_ok, List.foldl_cons]
    exact ih _ fun s y hy => h s y (List.mem_cons_of_mem _ hy)

/-- Result of pokes at an address that all pokes to it agree on. -/
theorem foldl_poke_hit {β : Type} (a : β → Int) (val : β → V) (L : List β) (m : Int → V) (x : β)
    (hx : x ∈ L) (hag : ∀ y ∈ L, a y = a x → val y = val x) :
    L.foldl (fun m y => poke m (a y) (val y)) m (a x) = val x := by
  induction L generalizing m with
  | nil => simp at hx
  | cons y L ih =>
    rw [List.foldl_cons]
    by_cases hxl : x ∈ L
    · exact ih _ hxl fun z hz => hag z (List.mem_cons_of_mem _ hz)
    · have hxy : x = y := by
        rcases List.mem_cons.1 hx with h | h
        · exact h
        · exact absurd h hxl
      subst hxy
      have : ∀ (L : List β) (m : Int → V), (∀ y ∈ L, a y = a x → val y = val x) → m (a x) = val x →
          L.foldl (fun m y => poke m (a y) (val y)) m (a x) = val x := by
        intro L
        induction L with
        | nil => intro m _ h; exact h
        | cons z L ih2 =>
          intro m hz hm
          rw [List.foldl_cons]
          apply ih2 _ fun w hw => hz w (List.mem_cons_of_mem _ hw)
          unfold poke
          split
          · next h => exact hz z List.mem_cons_self h.symm
          · exact hm
      apply this L _ fun z hz => hag z (List.mem_cons_of_mem _ hz)
      simp [poke]

theorem foldl_poke_miss {β : Type} (a : β → Int) (val : β → V) (L : List β) (m : Int → V) (b : Int)
    (h : ∀ y ∈ L, a y ≠ b) : L.foldl (fun m y => poke m (a y) (val y)) m b = m b := by
  induction L generalizing m with
  | nil => rfl
  | cons y L ih =>
    rw [List.foldl_cons, ih _ fun z hz => h z (List.mem_cons_of_mem _ hz)]
    unfold poke
    rw [if_neg (Ne.symm (h y List.mem_cons_self))]

/-! ### The valid steps after a slice was set -/

/-- The two meta-data place elements alike. -/
structure SameStore (g g' : Geom) : Prop where
  ok : g'.Ok
  slots : ∀ idx, slots g'.dims idx = slots g.dims idx
  addr : ∀ s, g'.addrOfSlots s = g.addrOfSlots s
  wrap : g'.stepWrap = g.stepWrap
  range : ∀ idx, InRangeButStep g'.api idx ↔ InRangeButStep g.api idx
  steps : StepsAlloc g'.api ↔ StepsAlloc g.api

theorem SameStore.refl {g : Geom} (h : g.Ok) : SameStore g g :=
  ⟨h, fun _ => rfl, fun _ => rfl, rfl, fun _ => Iff.rfl, Iff.rfl⟩

theorem SameStore.step {g g' : Geom} (h : SameStore g g') (t : Int) :
    SameStore g (g'.updateValidStep t) := by
  have key : ∀ (d : DimG) (ds : List DimG) (n : Int), g'.dims = d :: ds → d.kind = .step →
      (∀ idx, InRangeButStep (Geom.api { g' with dims := { d with localOfs := n } :: ds }) idx ↔
        InRangeButStep g'.api idx) ∧
      (StepsAlloc (Geom.api { g' with dims := { d with localOfs := n } :: ds }) ↔
        StepsAlloc g'.api) := by
    intro d ds n hd hk
    constructor
    · intro idx
      unfold Geom.api InRangeButStep
      rw [hd]
      cases idx with
      | nil => simp
      | cons i is => simp [hk]
    · unfold Geom.api StepsAlloc
      rw [hd]
      simp
  refine ⟨updateValidStep_ok h.ok t, fun idx => by rw [slots_updateValidStep, h.slots],
    fun s => by rw [addrOfSlots_updateValidStep, h.addr], by rw [stepWrap_updateValidStep, h.wrap],
    fun idx => ?_, ?_⟩
  · rw [← h.range]
    unfold Geom.updateValidStep
    split
    · next d ds hd =>
      split
      · next hk =>
        split
        · exact (key d ds _ hd hk).1 idx
        · split
          · exact (key d ds _ hd hk).1 idx
          · rfl
      · rfl
    · rfl
  · rw [← h.steps]
    unfold Geom.updateValidStep
    split
    · next d ds hd =>
      split
      · next hk =>
        split
        · exact (key d ds _ hd hk).2
        · split
          · exact (key d ds _ hd hk).2
          · rfl
      · rfl
    · rfl

theorem setDirty_sameStore {g : Geom} (h : g.Ok) (first last : List Int) :
    SameStore g (g.setDirtyInSlice first last) := by
  unfold Geom.setDirtyInSlice
  split
  · have : ∀ (l : List Nat) (g' : Geom), SameStore g g' →
        SameStore g (l.foldl (fun g (k : Nat) => g.updateValidStep (first.getD 0 0 + k)) g') := by
      intro l
      induction l with
      | nil => intro g' h; exact h
      | cons k l ih => intro g' h; exact ih _ (h.step _)
    exact this _ _ (SameStore.refl h)
  · exact SameStore.refl h

/-- Steps that are valid already do not move the range. -/
theorem setDirty_inRange {g : Geom} {first last : List Int} (hf : InRange g.api first)
    (hl : InRange g.api last) : g.setDirtyInSlice first last = g := by
  unfold Geom.setDirtyInSlice
  split
  · next hs =>
    unfold Geom.hasStep at hs
    cases hd : g.dims with
    | nil => rw [hd] at hs; simp at hs
    | cons d ds =>
      rw [hd] at hs
      unfold InRange Geom.api at hf hl
      rw [hd, List.map_cons] at hf hl
      cases hf with
      | @cons f0 _ f _ hf0 _ =>
      cases hl with
      | @cons l0 _ l _ hl0 _ =>
        simp only at hf0 hl0
        simp only [List.getD_cons_zero]
        have : ∀ (l : List Nat), (∀ k ∈ l, (k : Int) < l0 + 1 - f0) →
            l.foldl (fun g (k : Nat) => g.updateValidStep (f0 + k)) g = g := by
          intro l
          induction l with
          | nil => intro _; rfl
          | cons k l ih =>
            intro h
            rw [List.foldl_cons]
            have hk := h k List.mem_cons_self
            have e : g.updateValidStep (f0 + k) = g := by
              unfold Geom.updateValidStep
              rw [hd]
              simp only
              split
              · rw [if_neg (by omega), if_neg (by omega)]
              · rfl
            rw [e]
            exact ih fun x hx => h x (List.mem_cons_of_mem _ hx)
        exact this _ fun k hk => by rw [List.mem_range] at hk; omega
  · rfl

end Yask.Var
