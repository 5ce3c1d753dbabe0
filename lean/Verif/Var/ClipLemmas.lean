import Verif.Var.SliceCore

/-! Helper lemmas: clipping of non-strict slices. -/

namespace Yask.Var
open Spec

variable {V : Type}

/-- The clipped indices of a non-strict check. -/
def clipIdx (g : Geom) (idx : List Int) : List Int :=
  (List.zipWith (checkDim g.stepWrap true) g.dims idx).map Prod.snd

theorem checkIndices_clipIdx (g : Geom) (idx : List Int) (hl : idx.length = g.dims.length) :
    ∃ b, g.checkIndices idx false true false = .ok (b, clipIdx g idx) := by
  unfold Geom.checkIndices
  rw [if_neg (by omega)]
  simp only [Bool.false_and, Bool.false_eq_true, if_false]
  exact ⟨_, rfl⟩

/-- Clipping a slice that has a point in range: the clipped slice has exactly the points in range. -/
theorem clip_slice {g : Geom} {first last p : List Int} (hp : InSlice first last p)
    (hr : Readable g.stepWrap g.api p) (hfl : first.length = g.dims.length)
    (hll : last.length = g.dims.length) :
    SliceNonempty (clipIdx g first) (clipIdx g last) ∧
    InRangeButStep g.api (clipIdx g first) ∧ InRangeButStep g.api (clipIdx g last) ∧
    ∀ x, InSlice (clipIdx g first) (clipIdx g last) x ↔
      InSlice first last x ∧ Readable g.stepWrap g.api x := by
  unfold Readable InRangeButStep InRange Geom.api InSlice SliceNonempty clipIdx at *
  generalize g.dims = ds at *
  generalize g.stepWrap = w at *
  induction ds generalizing first last p with
  | nil =>
    have h1 : first = [] := List.length_eq_zero_iff.1 (by simpa using hfl)
    have h2 : last = [] := List.length_eq_zero_iff.1 (by simpa using hll)
    subst h1 h2
    refine ⟨List.Forall₂.nil, List.Forall₂.nil, List.Forall₂.nil, fun x => ?_⟩
    cases x with
    | nil => simp
    | cons _ _ => simp
  | cons d ds ih =>
    cases first with
    | nil => simp at hfl
    | cons f0 first =>
    cases last with
    | nil => simp at hll
    | cons l0 last =>
    cases p with
    | nil => simp at hp
    | cons p0 p =>
      simp only [List.zip_cons_cons, List.forall₂_cons] at hp
      simp only [List.map_cons, List.forall₂_cons] at hr
      have hr' : (d.kind = .step ∧ w = true ∨ d.firstLocal ≤ p0 ∧ p0 ≤ d.lastLocal) ∧
          (if w = true then List.Forall₂ (fun i (d : ApiDim) => d.isStep = true ∨ d.first ≤ i ∧ i ≤ d.last) p
            (ds.map fun d => ⟨d.kind == .step, d.firstLocal, d.lastLocal, d.alloc⟩)
          else List.Forall₂ (fun i (d : ApiDim) => d.first ≤ i ∧ i ≤ d.last) p
            (ds.map fun d => ⟨d.kind == .step, d.firstLocal, d.lastLocal, d.alloc⟩)) := by
        cases w with
        | true => simpa using hr
        | false => simpa using hr
      obtain ⟨i1, i2, i3, i4⟩ := ih hp.2 (hr := hr'.2) (hfl := by simpa using hfl) (hll := by simpa using hll)
      simp only [List.zipWith_cons_cons, List.map_cons, List.forall₂_cons, List.zip_cons_cons]
      by_cases hst : d.kind = .step ∧ w = true
      · have e : ∀ i, (checkDim w true d i).2 = i := by
          intro i; unfold checkDim; rw [if_pos (by simpa using hst)]
        rw [e, e]
        refine ⟨⟨by omega, i1⟩, ⟨Or.inl (by simp [hst.1]), i2⟩, ⟨Or.inl (by simp [hst.1]), i3⟩, ?_⟩
        intro x
        cases x with
        | nil => simp
        | cons x0 x =>
          simp only [List.forall₂_cons]
          rw [i4 x]
          simp [hst.1, hst.2]
          tauto
      · have hp0 : d.firstLocal ≤ p0 ∧ p0 ≤ d.lastLocal := by tauto
        have e : ∀ i, (checkDim w true d i).2 =
            if i > d.lastLocal then d.lastLocal else if i < d.firstLocal then d.firstLocal else i := by
          intro i; unfold checkDim; rw [if_neg (by simpa using hst)]
          by_cases h : d.firstLocal ≤ i ∧ i ≤ d.lastLocal
          · rw [if_pos h]; simp only
            rw [if_neg (by omega), if_neg (by omega)]
          · rw [if_neg h]
        have b1 : (checkDim w true d f0).2 = max f0 d.firstLocal := by
          rw [e]; split <;> (try split) <;> omega
        have b2 : (checkDim w true d l0).2 = min l0 d.lastLocal := by
          rw [e]; split <;> (try split) <;> omega
        rw [b1, b2]
        refine ⟨⟨by omega, i1⟩, ⟨Or.inr (by omega), i2⟩, ⟨Or.inr (by omega), i3⟩, ?_⟩
        intro x
        cases x with
        | nil => simp
        | cons x0 x =>
          simp only [List.forall₂_cons]
          rw [i4 x]
          have hx : ∀ (A B : Prop), (max f0 d.firstLocal ≤ x0 ∧ x0 ≤ min l0 d.lastLocal) ∧ A ∧ B ↔
              ((f0 ≤ x0 ∧ x0 ≤ l0) ∧ A) ∧ ((d.firstLocal ≤ x0 ∧ x0 ≤ d.lastLocal) ∧ B) := by
            intro A B
            constructor
            · rintro ⟨h1, h2, h3⟩; exact ⟨⟨by omega, h2⟩, by omega, h3⟩
            · rintro ⟨⟨h1, h2⟩, h3, h4⟩; exact ⟨by omega, h2, h4⟩
          rw [hx]
          cases w with
          | false => simp
          | true =>
            have : d.kind ≠ .step := fun h => hst ⟨h, rfl⟩
            simp [this]

/-- Valid steps do not move the range. -/
theorem setDirty_stepsValid {g : Geom} {first last : List Int}
    (hfl : first.length = g.dims.length) (hll : last.length = g.dims.length)
    (h : StepsValid false g.api first last) : g.setDirtyInSlice first last = g := by
  unfold Geom.setDirtyInSlice
  split
  · next hs =>
    unfold Geom.hasStep at hs
    cases hd : g.dims with
    | nil => rw [hd] at hs; simp at hs
    | cons d ds =>
      rw [hd] at hs hfl hll
      simp only [beq_iff_eq] at hs
      unfold StepsValid Geom.api at h
      rw [hd, List.map_cons] at h
      cases first with
      | nil => simp at hfl
      | cons f0 f =>
      cases last with
      | nil => simp at hll
      | cons l0 l =>
        have h0 := h.resolve_left (by decide)
          (⟨d.kind == .step, d.firstLocal, d.lastLocal, d.alloc⟩, (f0, l0)) (by simp) (by simp [hs])
        simp only at h0
        simp only [List.getD_cons_zero]
        have : ∀ (l : List Nat), (∀ k ∈ l, (k : Int) < l0 + 1 - f0) →
            l.foldl (fun g (k : Nat) => g.updateValidStep (f0 + k)) g = g := by
          intro l
          induction l with
          | nil => intro _; rfl
          | cons k l ih =>
            intro h
            rw [List.foldl_cons]
            have hk := h k List.mem_cons_self
            have e : g.updateValidStep (f0 + k) = g := by
              unfold Geom.updateValidStep
              rw [hd]
              simp only
              rw [if_pos hs, if_neg (by omega), if_neg (by omega)]
            rw [e]
            exact ih fun x hx => h x (List.mem_cons_of_mem _ hx)
        exact this _ fun k hk => by rw [List.mem_range] at hk; omega
  · rfl

end Yask.Var
