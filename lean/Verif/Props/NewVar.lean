import Verif.Setup.NewVarLemmas

/-!
# C26: creating vars

`newVar s name dims sizes` is `new_var(name, dims)` for `sizes = none` and `new_fixed_size_var(name, dims, sizes)` otherwise.
-/

namespace Yask
open Setup

/-- What is known of a solution made by the compiler: the dims of the stencil vars have different names, with the step dim in
the first place, and are not too many. -/
structure Setup.Soln.Ok (s : Soln) : Prop where
  nodup : ∀ l ∈ s.stencilDims, l.Nodup
  step : ∀ l ∈ s.stencilDims, StepFirst s l
  len : ∀ l ∈ s.stencilDims, l.length ≤ s.maxDims

/-- C26: a list of different dim names with the step dim at most in the first place is accepted: the new var has exactly the
given dims in the given order and the given sizes, is found by its name, and all other vars are unchanged. -/
theorem C26_accepted (s : Soln) (name : String) (gdims : List String) (sizes : Option (List Int))
    (hn : gdims.Nodup) (hstep : s.stepDim ∉ gdims.tail) (hlen : gdims.length ≤ s.maxDims)
    (hsz : ∀ z, sizes = some z → z.length = gdims.length) (hnew : ∀ v ∈ s.vars, v.name ≠ name) :
    ∃ v, (newVar s name gdims sizes).2 = .ok v ∧ (newVar s name gdims sizes).1.vars = s.vars ++ [v] ∧
      v.name = name ∧ v.dims = gdims ∧ v.rank = gdims.length ∧ v.wrap = gdims.contains s.stepDim ∧ v.sizes = sizes ∧
      v.fixed = sizes.isSome ∧ v.user = true ∧
      getVar (newVar s name gdims sizes).1 name = some v := by
  have hz : badSizes gdims sizes = false := by
    cases sizes with
    | none => rfl
    | some z => simp [badSizes, hsz z rfl]
  have hadd : ∀ (s' : Soln) (v : SVar), s'.vars = s.vars → v.name = name →
      addVar s' v = ({ s' with vars := s'.vars ++ [v] }, .ok v) ∧ getVar { s' with vars := s'.vars ++ [v] } name = some v := by
    intro s' v h1 h2
    have hno : ∀ x ∈ s'.vars, (x.name == v.name) = false := by
      intro x hx
      rw [h1] at hx
      rw [h2]
      simpa using hnew x hx
    constructor
    · unfold addVar
      rw [if_neg]
      rw [List.any_eq_true]
      rintro ⟨x, hx, he⟩
      rw [hno x hx] at he
      cases he
    · unfold getVar
      simp only
      rw [List.find?_append]
      have : s'.vars.find? (fun x => x.name == name) = none := by
        rw [List.find?_eq_none]
        intro x hx
        rw [← h2, hno x hx]
        simp
      rw [this]
      simp [h2]
  unfold newVar
  rw [hz]
  simp only [Bool.false_eq_true, if_false, tupleDims_of_nodup hn]
  by_cases hs : gdims ∈ s.stencilDims
  · rw [if_pos hs]
    obtain ⟨h1, h2⟩ := hadd s { name := name, dims := gdims, rank := gdims.length, wrap := gdims.contains s.stepDim
                                sizes := sizes, fixed := sizes.isSome, user := true } rfl rfl
    rw [h1]
    exact ⟨_, rfl, rfl, rfl, rfl, rfl, rfl, rfl, rfl, rfl, h2⟩
  · rw [if_neg hs]
    have hnone : (checkDims s 0 gdims s.misc false).2 ≠ none := fun h =>
      (checkDims_none s gdims s.misc false).1 h hstep
    obtain ⟨-, -, h3⟩ := checkDims_spec s gdims 0 s.misc false
    obtain ⟨h3, -⟩ := h3.resolve_left hnone
    cases hc : checkDims s 0 gdims s.misc false with
    | mk misc r =>
      rw [hc] at h3
      simp only at h3
      subst h3
      simp only [Bool.false_or]
      rw [if_pos hlen]
      obtain ⟨h1, h2⟩ := hadd { s with misc := misc }
        { name := name, dims := gdims, rank := gdims.length, wrap := gdims.contains s.stepDim
          sizes := sizes, fixed := sizes.isSome, user := true } rfl rfl
      rw [h1]
      exact ⟨_, rfl, rfl, rfl, rfl, rfl, rfl, rfl, rfl, rfl, h2⟩

/-- C26, as far as true: a call throws, and leaves all vars as they are, if the number of sizes differs from the number of
dims, if the step dim is not in the first place, if there are too many dims, or if there is a var of that name. The
missing part is the case of a dim named twice, see `C26_duplicate_accepted`. -/
theorem C26_rejected_partial (s : Soln) (h : s.Ok) (name : String) (gdims : List String) (sizes : Option (List Int))
    (hbad : (∃ z, sizes = some z ∧ z.length ≠ gdims.length) ∨ s.stepDim ∈ gdims.tail ∨ s.maxDims < gdims.length ∨
      ∃ v ∈ s.vars, v.name = name) :
    (newVar s name gdims sizes).2 = .throws ∧ (newVar s name gdims sizes).1.vars = s.vars := by
  have hadd : ∀ (s' : Soln) (v : SVar), s'.vars = s.vars → v.name = name → (∃ v ∈ s.vars, v.name = name) →
      addVar s' v = (s', .throws) := by
    rintro s' v h1 h2 ⟨x, hx, hx'⟩
    unfold addVar
    rw [if_pos]
    rw [List.any_eq_true]
    exact ⟨x, h1 ▸ hx, by simp [hx', h2]⟩
  unfold newVar
  by_cases hz : badSizes gdims sizes = true
  · rw [if_pos hz]
    exact ⟨rfl, rfl⟩
  · rw [if_neg hz]
    have hbad : s.stepDim ∈ gdims.tail ∨ s.maxDims < gdims.length ∨ ∃ v ∈ s.vars, v.name = name := by
      rcases hbad with ⟨z, rfl, hl⟩ | hb
      · exfalso
        apply hz
        simpa [badSizes] using fun h => hl h.symm
      · exact hb
    simp only
    by_cases hs : gdims ∈ s.stencilDims
    · rw [if_pos hs]
      rcases hbad with hb | hb | hb
      · exact absurd hb (h.step _ hs)
      · have := h.len _ hs
        omega
      · rw [hadd s _ rfl rfl hb]
        exact ⟨rfl, rfl⟩
    · rw [if_neg hs]
      cases hc : checkDims s 0 gdims s.misc false with
      | mk misc r =>
        cases r with
        | none => exact ⟨rfl, rfl⟩
        | some used =>
          simp only
          have hsf : ¬ s.stepDim ∈ gdims.tail := by
            intro hb
            have := (checkDims_none s gdims s.misc false).2 (not_not.2 hb)
            rw [hc] at this
            cases this
          split
          · rename_i hl
            rcases hbad with hb | hb | hb
            · exact absurd hb hsf
            · exact absurd hl (Nat.not_le.2 hb)
            · rw [hadd { s with misc := misc } _ rfl rfl hb]
              exact ⟨rfl, rfl⟩
          · exact ⟨rfl, rfl⟩

/-- C26: after any sequence of calls, successful or not, no two vars have the same name, no var has a dim twice, the vars
that were there first are still there, and the domain dims, the step dim and the known misc dims remain. -/
theorem C26_history (s : Soln) (h1 : (s.vars.map SVar.name).Nodup) (h2 : ∀ v ∈ s.vars, v.dims.Nodup)
    (calls : List (String × List String × Option (List Int))) :
    let s' := newVars s calls
    (s'.vars.map SVar.name).Nodup ∧ (∀ v ∈ s'.vars, v.dims.Nodup) ∧ s.vars <+: s'.vars ∧ s'.domain = s.domain ∧
      s'.stepDim = s.stepDim ∧ s.misc <+: s'.misc := by
  have hadd : ∀ (t : Soln) (v : SVar), (t.vars.map SVar.name).Nodup → (∀ v ∈ t.vars, v.dims.Nodup) → v.dims.Nodup →
      ((addVar t v).1.vars.map SVar.name).Nodup ∧ (∀ w ∈ (addVar t v).1.vars, w.dims.Nodup) ∧
      t.vars <+: (addVar t v).1.vars ∧ (addVar t v).1.domain = t.domain ∧ (addVar t v).1.stepDim = t.stepDim ∧
      (addVar t v).1.misc = t.misc := by
    intro t v a1 a2 a3
    unfold addVar
    by_cases hno : (t.vars.any fun x => x.name == v.name) = true
    · rw [if_pos hno]
      exact ⟨a1, a2, List.prefix_refl _, rfl, rfl, rfl⟩
    · rw [if_neg hno]
      refine ⟨?_, ?_, List.prefix_append _ _, rfl, rfl, rfl⟩
      · simp only [List.map_append, List.map_cons, List.map_nil]
        refine List.nodup_append'.2 ⟨a1, by simp, ?_⟩
        intro x hx hx'
        rw [List.mem_singleton] at hx'
        subst hx'
        obtain ⟨w, hw, he⟩ := List.mem_map.1 hx
        apply hno
        rw [List.any_eq_true]
        exact ⟨w, hw, by simp [he]⟩
      · intro w hw
        rcases List.mem_append.1 hw with hw | hw
        · exact a2 w hw
        · rw [List.mem_singleton] at hw
          exact hw ▸ a3
  have hone : ∀ (t : Soln) (c : String × List String × Option (List Int)), (t.vars.map SVar.name).Nodup →
      (∀ v ∈ t.vars, v.dims.Nodup) →
      let t' := (newVar t c.1 c.2.1 c.2.2).1
      (t'.vars.map SVar.name).Nodup ∧ (∀ v ∈ t'.vars, v.dims.Nodup) ∧ t.vars <+: t'.vars ∧ t'.domain = t.domain ∧
        t'.stepDim = t.stepDim ∧ t.misc <+: t'.misc := by
    rintro t ⟨name, gdims, sizes⟩ a1 a2
    have hself : (t.vars.map SVar.name).Nodup ∧ (∀ v ∈ t.vars, v.dims.Nodup) ∧ t.vars <+: t.vars ∧ t.domain = t.domain ∧
        t.stepDim = t.stepDim ∧ t.misc <+: t.misc := ⟨a1, a2, List.prefix_refl _, rfl, rfl, List.prefix_refl _⟩
    unfold newVar
    simp only
    generalize hzz : badSizes gdims sizes = zz
    cases zz with
    | true => exact hself
    | false =>
      rw [if_neg (by simp)]
      by_cases hs : gdims ∈ t.stencilDims
      · rw [if_pos hs]
        obtain ⟨b1, b2, b3, b4, b5, b6⟩ := hadd t { name := name, dims := tupleDims gdims, rank := gdims.length
                                                    wrap := gdims.contains t.stepDim, sizes := sizes
                                                    fixed := sizes.isSome, user := true } a1 a2 (tupleDims_nodup _)
        exact ⟨b1, b2, b3, b4, b5, b6 ▸ List.prefix_refl _⟩
      · rw [if_neg hs]
        obtain ⟨⟨new, hm, -⟩, -, -⟩ := checkDims_spec t gdims 0 t.misc false
        cases hc : checkDims t 0 gdims t.misc false with
        | mk misc r =>
          rw [hc] at hm
          simp only at hm
          have hp : t.misc <+: misc := by rw [hm]; exact List.prefix_append _ _
          cases r with
          | none => exact ⟨a1, a2, List.prefix_refl _, rfl, rfl, hp⟩
          | some used =>
            simp only
            split
            · obtain ⟨b1, b2, b3, b4, b5, b6⟩ := hadd { t with misc := misc }
                { name := name, dims := tupleDims gdims, rank := gdims.length, wrap := used, sizes := sizes
                  fixed := sizes.isSome, user := true } a1 a2 (tupleDims_nodup _)
              exact ⟨b1, b2, b3, b4, b5, b6 ▸ hp⟩
            · exact ⟨a1, a2, List.prefix_refl _, rfl, rfl, hp⟩
  induction calls generalizing s with
  | nil => exact ⟨h1, h2, List.prefix_refl _, rfl, rfl, List.prefix_refl _⟩
  | cons c cs ih =>
    obtain ⟨a1, a2, a3, a4, a5, a6⟩ := hone s c h1 h2
    obtain ⟨b1, b2, b3, b4, b5, b6⟩ := ih _ a1 a2
    exact ⟨b1, b2, a3.trans b3, b4.trans a4, b5.trans a5, a6.trans b6⟩

/-- A solution with step dim `t`, domain dims `x`, `y`, and one var `A(t, x, y)`. -/
def newVarDemo : Soln :=
  { stepDim := "t", domain := ["x", "y"], misc := [], stencilDims := [["t", "x", "y"]], maxDims := 5
    vars := [{ name := "A", dims := ["t", "x", "y"], rank := 3, wrap := true, sizes := none, fixed := false, user := false }] }

theorem newVarDemo_ok : newVarDemo.Ok := ⟨by decide, by unfold StepFirst; decide, by decide⟩

/-- The hypotheses of `C26_accepted`, for a list of dims of its own and for that of a stencil var. -/
example : ["x", "m"].Nodup ∧ newVarDemo.stepDim ∉ ["x", "m"].tail ∧ ["x", "m"].length ≤ newVarDemo.maxDims ∧
    (∀ v ∈ newVarDemo.vars, v.name ≠ "B") := by decide

example : ((newVar newVarDemo "B" ["x", "m"] (some [10, 3])).2 =
      .ok { name := "B", dims := ["x", "m"], rank := 2, wrap := false, sizes := some [10, 3], fixed := true, user := true }) ∧
    (newVar newVarDemo "B" ["x", "m"] (some [10, 3])).1.misc = ["m"] := by decide +kernel

example : (newVar newVarDemo "B" ["x", "t"] none).2 = .throws ∧ (newVar newVarDemo "B" ["x"] (some [])).2 = .throws ∧
    (newVar newVarDemo "A" ["x"] none).2 = .throws ∧
    (newVar newVarDemo "B" ["x", "y", "a", "b", "c", "d"] none).2 = .throws := by decide +kernel

/-- C26 fails for names that occur twice: whatever the solution, a list of dims with repeated names (other than the step dim)
is accepted, as nothing is ever added to the set of names seen. The var has each dim once only, so fewer dims than asked
for, and than its layout. -/
theorem C26_duplicate_accepted (s : Soln) (h : s.Ok) (name : String) (gdims : List String) (sizes : Option (List Int))
    (hdup : ¬ gdims.Nodup) (hstep : s.stepDim ∉ gdims.tail) (hlen : gdims.length ≤ s.maxDims)
    (hsz : ∀ z, sizes = some z → z.length = gdims.length) (hnew : ∀ v ∈ s.vars, v.name ≠ name) :
    ∃ v, (newVar s name gdims sizes).2 = .ok v ∧ v.dims.Nodup ∧ v.dims ≠ gdims ∧ v.rank = gdims.length ∧
      ∀ x, x ∈ v.dims ↔ x ∈ gdims := by
  have hz : badSizes gdims sizes = false := by
    cases sizes with
    | none => rfl
    | some z => simp [badSizes, hsz z rfl]
  have hs : gdims ∉ s.stencilDims := fun hs => hdup (h.nodup _ hs)
  unfold newVar
  rw [hz]
  simp only [Bool.false_eq_true, if_false, hs]
  have hnone : (checkDims s 0 gdims s.misc false).2 ≠ none := fun hh =>
    (checkDims_none s gdims s.misc false).1 hh hstep
  cases hc : checkDims s 0 gdims s.misc false with
  | mk misc r =>
    cases r with
    | none => rw [hc] at hnone; exact absurd rfl hnone
    | some used =>
      simp only
      rw [if_pos hlen]
      unfold addVar
      rw [if_neg]
      · refine ⟨_, rfl, tupleDims_nodup _, ?_, rfl, fun x => mem_tupleDims _ _⟩
        intro he
        exact hdup (he ▸ tupleDims_nodup gdims)
      · rw [List.any_eq_true]
        rintro ⟨x, hx, he⟩
        exact hnew x hx (by simpa using he)

/-- A var with dims `x`, `x`. -/
theorem C26_duplicate_wrong :
    newVarDemo.Ok ∧ (newVar newVarDemo "B" ["x", "x"] (some [10, 20])).2 =
      .ok { name := "B", dims := ["x"], rank := 2, wrap := false, sizes := some [10, 20], fixed := true, user := true } :=
  ⟨newVarDemo_ok, by decide +kernel⟩

/-- A call that fails can still add misc dims to the solution, as seen by `get_misc_dim_names()`. -/
theorem C26_failed_call_leaves_dims :
    newVarDemo.Ok ∧ (newVar newVarDemo "B" ["m", "t"] none).2 = .throws ∧
    newVarDemo.misc = [] ∧ (newVar newVarDemo "B" ["m", "t"] none).1.misc = ["m"] :=
  ⟨newVarDemo_ok, by decide +kernel⟩

end Yask
