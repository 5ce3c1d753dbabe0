import Verif.Var.SliceLemmas

/-! Helper lemmas: `_visit_elements_in_slice`. -/

namespace Yask.Var
open Spec

variable {V : Type}

/-- The visits of a whole slice: point, slot of its step, position in the buffer. -/
def sliceVisits (g : Geom) (f range : List Int) : List (List Int × Int × Int) :=
  (List.range (prodVals range).toNat).map fun (k : Nat) =>
    let pt := List.zipWith (· + ·) f (unlayoutVals false range k)
    (pt, if g.hasStep then pt.getD 0 0 % g.stepSize else 0, (k : Int))

theorem foldlM_flatMap {σ β : Type} (body : σ → β → Outcome σ) (F : Nat → List β) (l : List Nat)
    (s : σ) (step : σ → Nat → Outcome σ) (hstep : ∀ s, ∀ k ∈ l, step s k = (F k).foldlM body s) :
    l.foldlM step s = (l.flatMap F).foldlM body s := by
  induction l generalizing s with
  | nil => rfl
  | cons k l ih =>
    rw [List.foldlM_cons, List.flatMap_cons, List.foldlM_append, hstep s k List.mem_cons_self]
    congr 1
    funext s'
    exact ih s' fun s k hk => hstep s k (List.mem_cons_of_mem _ hk)

theorem perm_flatMap_of {α β : Type} (l : List α) (F G : α → List β) (h : ∀ a ∈ l, (F a).Perm (G a)) :
    (l.flatMap F).Perm (l.flatMap G) := by
  induction l with
  | nil => exact List.Perm.refl _
  | cons a l ih =>
    rw [List.flatMap_cons, List.flatMap_cons]
    exact (h a List.mem_cons_self).append (ih fun x hx => h x (List.mem_cons_of_mem _ hx))

theorem visitSlice_eq {σ : Type} (v : YVar V) (hmem : v.mem.isSome) (env : SliceEnv)
    (hn : 0 < env.nthr) (hord : ∀ l, (env.order l).Perm l) (strict : Bool) (bufSize : Int)
    (first last f l : List Int) (b1 b2 : Bool)
    (hf : v.g.checkIndices first strict true false = .ok (b1, f))
    (hl : v.g.checkIndices last strict true false = .ok (b2, l))
    (hfl : f.length = v.g.dims.length) (hll : l.length = v.g.dims.length)
    (hpos : ∀ d ∈ sliceRange f l, 0 < d) (hbuf : prodVals (sliceRange f l) ≤ bufSize)
    (hst : v.g.hasStep = true → 0 < v.g.stepSize)
    (body : σ → List Int × Int × Int → Outcome σ) (s : σ) :
    ∃ L : List (List Int × Int × Int), L.Perm (sliceVisits v.g f (sliceRange f l)) ∧
      visitSlice v env strict bufSize first last body s =
        (L.foldlM body s >>= fun s => pure (s, prodVals (sliceRange f l))) := by
  have hne := prodVals_pos _ hpos
  have hnone : v.mem.isNone = false := by
    cases h : v.mem with
    | none => rw [h] at hmem; simp at hmem
    | some _ => rfl
  have hrl : (sliceRange f l).length = v.g.dims.length := by
    unfold sliceRange; rw [List.length_zipWith]; omega
  unfold visitSlice
  rw [hnone, hf, hl]
  simp only [Bool.false_eq_true, if_false, Outcome.bind_ok]
  rw [if_neg (by omega), if_neg (by omega)]
  cases hstep : v.g.hasStep with
  | false =>
    simp only [Bool.false_eq_true, if_false]
    refine ⟨_, ?_, rfl⟩
    refine (hord _).trans ?_
    have := stepVisits_perm env hn v.g.dims.length f (sliceRange f l) (by omega) hpos (by omega) 0 0
    refine this.trans (List.Perm.of_eq ?_)
    unfold sliceVisits
    simp [hstep]
  | true =>
    simp only [if_true]
    have hwrap := hst hstep
    have hdl : 0 < v.g.dims.length := by
      unfold Geom.hasStep at hstep
      cases hd : v.g.dims with
      | nil => rw [hd] at hstep; simp at hstep
      | cons _ _ => simp
    obtain ⟨f0, fs, rfl⟩ : ∃ a b, f = a :: b := by
      cases f with
      | nil => simp at hfl; omega
      | cons a b => exact ⟨a, b, rfl⟩
    obtain ⟨l0, ls, rfl⟩ : ∃ a b, l = a :: b := by
      cases l with
      | nil => simp at hll; omega
      | cons a b => exact ⟨a, b, rfl⟩
    have hrange : sliceRange (f0 :: fs) (l0 :: ls) = max 0 (l0 + 1 - f0) :: sliceRange fs ls := rfl
    rw [hrange] at hpos hne hbuf hrl ⊢
    have hn0 : 0 < l0 + 1 - f0 := by
      have := hpos (max 0 (l0 + 1 - f0)) List.mem_cons_self
      omega
    rw [max_eq_right hn0.le] at *
    have hpr : ∀ d ∈ sliceRange fs ls, 0 < d := fun d hd => hpos d (List.mem_cons_of_mem _ hd)
    have hpt := prodVals_pos _ hpr
    simp only [List.set_cons_zero, List.getD_cons_zero]
    have hpr1 : ∀ d ∈ (1 : Int) :: sliceRange fs ls, 0 < d := by
      intro d hd
      rcases List.mem_cons.1 hd with h | h
      · omega
      · exact hpr d h
    have htsz : prodVals ((1 : Int) :: sliceRange fs ls) = prodVals (sliceRange fs ls) := by
      rw [prodVals_cons, Int.one_mul]
    -- the list of all visits
    rw [foldlM_flatMap body (fun k => env.order (stepVisits env ((f0 + (k : Int)) :: fs)
      (innerSplit env.nthr (v.g.dims.length - 1) (1 :: sliceRange fs ls)
        (prodVals ((1 : Int) :: sliceRange fs ls))).2
      (innerSplit env.nthr (v.g.dims.length - 1) (1 :: sliceRange fs ls)
        (prodVals ((1 : Int) :: sliceRange fs ls))).1
      ((f0 + (k : Int)) % v.g.stepSize) ((k : Int) * prodVals ((1 : Int) :: sliceRange fs ls))))]
    · refine ⟨_, ?_, rfl⟩
      have hlfs : fs.length = (sliceRange fs ls).length := by
        simp only [List.length_cons] at hfl hrl; omega
      have hstepk : ∀ k ∈ List.range (l0 + 1 - f0).toNat,
          (env.order (stepVisits env ((f0 + (k : Int)) :: fs)
            (innerSplit env.nthr (v.g.dims.length - 1) (1 :: sliceRange fs ls)
              (prodVals ((1 : Int) :: sliceRange fs ls))).2
            (innerSplit env.nthr (v.g.dims.length - 1) (1 :: sliceRange fs ls)
              (prodVals ((1 : Int) :: sliceRange fs ls))).1
            ((f0 + (k : Int)) % v.g.stepSize)
            ((k : Int) * prodVals ((1 : Int) :: sliceRange fs ls)))).Perm
          ((List.range (prodVals (sliceRange fs ls)).toNat).map fun (j : Nat) =>
            (fun (kk : Nat) =>
              let pt := List.zipWith (· + ·) (f0 :: fs)
                (unlayoutVals false ((l0 + 1 - f0) :: sliceRange fs ls) kk)
              (pt, (if v.g.hasStep then pt.getD 0 0 % v.g.stepSize else 0), (kk : Int)))
              (k * (prodVals (sliceRange fs ls)).toNat + j)) := by
        intro k hk
        rw [List.mem_range] at hk
        refine (hord _).trans ?_
        have h1 := stepVisits_perm env hn (v.g.dims.length - 1) ((f0 + (k : Int)) :: fs)
          (1 :: sliceRange fs ls) (by simp [hlfs]) hpr1 (by simp only [List.length_cons] at hrl ⊢; omega)
          ((f0 + (k : Int)) % v.g.stepSize) ((k : Int) * prodVals ((1 : Int) :: sliceRange fs ls))
        refine h1.trans (List.Perm.of_eq ?_)
        rw [htsz]
        apply List.map_congr_left
        intro j hj
        rw [List.mem_range] at hj
        have u1 := unlayout_cons hpr 0 j (n := 1) (by decide) (by omega)
        simp only [Nat.zero_mul, Nat.zero_add] at u1
        have u2 := unlayout_cons hpr k j (n := l0 + 1 - f0) (by omega) (by omega)
        simp only [u1, u2, List.zipWith_cons_cons, List.getD_cons_zero, hstep, if_true]
        push_cast
        rw [Int.toNat_of_nonneg hpt.le, Int.add_zero]
      refine (perm_flatMap_of _ _ _ hstepk).trans (List.Perm.of_eq ?_)
      rw [flatMap_range_mul (fun (kk : Nat) =>
              let pt := List.zipWith (· + ·) (f0 :: fs)
                (unlayoutVals false ((l0 + 1 - f0) :: sliceRange fs ls) kk)
              (pt, (if v.g.hasStep then pt.getD 0 0 % v.g.stepSize else 0), (kk : Int)))]
      unfold sliceVisits
      rw [prodVals_cons, Int.toNat_mul hn0.le hpt.le]
    · intro s k _
      unfold Geom.wrapStep
      rw [if_neg (by omega)]
      simp only [Outcome.bind_ok]
      rw [imodFlr_eq _ _ hwrap]

end Yask.Var
