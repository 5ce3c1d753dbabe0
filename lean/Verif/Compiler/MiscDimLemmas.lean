import Verif.Compiler.MiscLemmas

/-!
# Lemmas about misc dims under setting calls
-/

namespace Yask.Comp
open Var

variable {V : Type}

/-- A misc dim of size `n` that begins at index `o`. -/
structure MiscGeo (n o : Int) (d : DimG) : Prop where
  kind : d.kind = .misc
  domain : d.domain = n
  localOfs : d.localOfs = o
  vecLocalOfs : d.vecLocalOfs = o
  rankOfs : d.rankOfs = 0
  lHalo : d.lHalo = 0
  rHalo : d.rHalo = 0
  lExt : d.lExt = 0
  rExt : d.rExt = 0
  varVL : d.varVL = 1

/-- The same with the sizes computed by `resize`. -/
structure MiscFull (n o : Int) (d : DimG) : Prop extends MiscGeo n o d where
  lPad : d.lPad = 0
  rPad : d.rPad = 0
  alloc : d.alloc = n
  vecAlloc : d.vecAlloc = n

theorem MiscFull.first {n o : Int} {d : DimG} (h : MiscFull n o d) : d.firstLocal = o := by
  unfold DimG.firstLocal; rw [h.rankOfs, h.localOfs, h.lPad]; omega

theorem MiscFull.last {n o : Int} {d : DimG} (h : MiscFull n o d) : d.lastLocal = o + n - 1 := by
  unfold DimG.lastLocal; rw [h.rankOfs, h.localOfs, h.rPad, h.domain]; omega

theorem MiscGeo.resized {n o : Int} {d : DimG} (h : MiscGeo n o d) (a b c : Bool) : MiscFull n o (d.resized a b c) := by
  have hk : d.kind ≠ .domain := by rw [h.kind]; decide
  refine ⟨⟨h.kind, h.domain, h.localOfs, h.vecLocalOfs, h.rankOfs, h.lHalo, h.rHalo, h.lExt, h.rExt, h.varVL⟩, ?_, ?_, ?_, ?_⟩ <;>
    simp [DimG.resized, hk, h.lHalo, h.rHalo, h.lExt, h.rExt, h.domain, h.varVL]

theorem initValidSteps_misc {n o : Int} {ds : List DimG} {i : Nat} {d : DimG} (hd : ds[i]? = some d) (h : MiscFull n o d) :
    (initValidSteps ds)[i]? = some d := by
  cases ds with
  | nil => cases hd
  | cons e es =>
    unfold initValidSteps
    cases i with
    | zero =>
      simp only [List.getElem?_cons_zero, Option.some.injEq] at hd ⊢
      subst hd
      rw [if_neg (by rw [h.kind]; decide)]
    | succ j => simpa using hd

theorem resize_misc {n o : Int} {g g' : Geom} {al : Bool} (hr : g.resize al = some g') {i : Nat} {d : DimG} (hd : g.dims[i]? = some d)
    (h : MiscGeo n o d) : ∃ d', g'.dims[i]? = some d' ∧ MiscFull n o d' := by
  unfold Geom.resize at hr
  have hm : (g.dims.map (DimG.resized g.vlenGt1 g.allowAddlPad al))[i]? = some (d.resized g.vlenGt1 g.allowAddlPad al) := by
    simp [hd]
  have hf := h.resized g.vlenGt1 g.allowAddlPad al
  split at hr
  · cases hr
  · dsimp only at hr
    split at hr
    · cases hr
    · split at hr
      · cases hr
        exact ⟨_, initValidSteps_misc hm hf, hf⟩
      · cases hr
        exact ⟨_, hm, hf⟩

theorem call_other {v v' : YVar V} {posn : Nat} {s : Setting} {m : Int} (hc : callSetting v posn s m = (v', false)) {i : Nat} (hi : i ≠ posn)
    {n o : Int} {d : DimG} (hd : v.g.dims[i]? = some d) (h : MiscFull n o d) : ∃ d', v'.g.dims[i]? = some d' ∧ MiscFull n o d' := by
  unfold callSetting at hc
  cases hp : v.g.dims[posn]? with
  | none => rw [hp] at hc; cases hc
  | some e =>
    rw [hp] at hc
    simp only at hc
    have hset : (v.g.dims.set posn (s.modify m e))[i]? = some d := by rw [List.getElem?_set_ne (Ne.symm hi)]; exact hd
    split at hc
    · cases hc
    · split at hc
      · split at hc
        · next g2 hg =>
          cases hc
          exact resize_misc hg hset h.toMiscGeo
        · cases hc
      · cases hc
        exact ⟨d, hset, h⟩

theorem call_size {v v' : YVar V} {i : Nat} {m : Int} (hc : callSetting v i .size m = (v', false))
    {n o : Int} {d : DimG} (hd : v.g.dims[i]? = some d) (h : MiscFull n o d) : ∃ d', v'.g.dims[i]? = some d' ∧ MiscFull m o d' := by
  unfold callSetting at hc
  rw [hd] at hc
  have hlt : i < v.g.dims.length := (List.getElem?_eq_some_iff.1 hd).1
  simp only [Setting.allowed, Setting.needResize, if_true, Bool.not_true, Bool.false_eq_true, if_false] at hc
  split at hc
  · next g2 hg =>
    cases hc
    refine resize_misc hg (d := Setting.size.modify m d) (by simp [hlt]) ?_
    exact ⟨h.kind, rfl, h.localOfs, h.vecLocalOfs, h.rankOfs, h.lHalo, h.rHalo, h.lExt, h.rExt, h.varVL⟩
  · cases hc

theorem call_ofs {v v' : YVar V} {i : Nat} {m : Int} (hc : callSetting v i .localOfs m = (v', false))
    {n o : Int} {d : DimG} (hd : v.g.dims[i]? = some d) (h : MiscFull n o d) : ∃ d', v'.g.dims[i]? = some d' ∧ MiscFull n m d' := by
  unfold callSetting at hc
  rw [hd] at hc
  have hlt : i < v.g.dims.length := (List.getElem?_eq_some_iff.1 hd).1
  simp only [Setting.needResize, Bool.false_eq_true, if_false] at hc
  split at hc
  · cases hc
  · cases hc
    refine ⟨Setting.localOfs.modify m d, by simp [hlt], ⟨⟨h.kind, h.domain, rfl, ?_, h.rankOfs, h.lHalo, h.rHalo, h.lExt, h.rExt, h.varVL⟩,
      h.lPad, h.rPad, h.alloc, h.vecAlloc⟩⟩
    simp [Setting.modify, h.varVL]

theorem validStep_misc {g : Geom} (t : Int) {i : Nat} {n o : Int} {d : DimG} (hd : g.dims[i]? = some d) (h : MiscFull n o d) :
    (g.updateValidStep t).dims[i]? = some d := by
  unfold Geom.updateValidStep
  cases hg : g.dims with
  | nil => rw [hg] at hd; cases hd
  | cons e es =>
    rw [hg] at hd
    dsimp only
    by_cases hk : e.kind = .step
    · rw [if_pos hk]
      have hi : i ≠ 0 := by
        rintro rfl
        simp only [List.getElem?_cons_zero, Option.some.injEq] at hd
        subst hd
        rw [h.kind] at hk
        cases hk
      obtain ⟨j, rfl⟩ := Nat.exists_eq_succ_of_ne_zero hi
      split_ifs
      · simpa using hd
      · simpa using hd
      · rw [hg]; exact hd
    · rw [if_neg hk, hg]; exact hd

/-! ### Sequences of calls -/

theorem runCalls_append (v : YVar V) (a b : List (Nat × Setting × Int)) :
    runCalls v (a ++ b) = if (runCalls v a).2 then runCalls v a else runCalls (runCalls v a).1 b := by
  induction a generalizing v with
  | nil => simp [runCalls]
  | cons x a ih =>
    have hcons : ∀ l, runCalls v (x :: l) = match callSetting v x.1 x.2.1 x.2.2 with
        | (v', true) => (v', true)
        | (v', false) => runCalls v' l := fun l => rfl
    rw [List.cons_append, hcons, hcons]
    rcases hc : callSetting v x.1 x.2.1 x.2.2 with ⟨v1, _ | _⟩
    · exact ih v1
    · simp

theorem runCalls_other {calls : List (Nat × Setting × Int)} : ∀ {v v' : YVar V}, runCalls v calls = (v', false) → ∀ {i : Nat}, (∀ x ∈ calls, i ≠ x.1) →
    ∀ {n o : Int} {d : DimG}, v.g.dims[i]? = some d → MiscFull n o d → ∃ d', v'.g.dims[i]? = some d' ∧ MiscFull n o d' := by
  induction calls with
  | nil => intro v v' h i _ n o d hd hm; cases h; exact ⟨d, hd, hm⟩
  | cons x calls ih =>
    intro v v' h i hi n o d hd hm
    unfold runCalls at h
    rcases hc : callSetting v x.1 x.2.1 x.2.2 with ⟨v1, _ | _⟩
    · rw [hc] at h
      obtain ⟨d1, h1, h2⟩ := call_other hc (hi x (by simp)) hd hm
      exact ih h (fun y hy => hi y (List.mem_cons_of_mem _ hy)) h1 h2
    · rw [hc] at h; cases h

theorem genDim_posn {c : GenSizes} {r : ConstRange} {i : Nat} {d : String} {ty : IndexType} {a : List (Nat × Setting × Int)}
    (h : genDim c r i d ty = .ok a) : ∀ x ∈ a, x.1 = i := by
  have misc : ∀ a, (do let x ← genMisc r d; Outcome.ok ((i, Setting.size, x.1) :: if x.2 ≠ 0 then [(i, Setting.localOfs, x.2)] else [])) = .ok a →
      ∀ x ∈ a, x.1 = i := by
    intro a h
    cases hg : genMisc r d with
    | throws => rw [hg] at h; cases h
    | undefined => rw [hg] at h; cases h
    | ok y =>
      rw [hg] at h
      simp only [Outcome.bind_ok, Outcome.ok.injEq] at h
      subst h
      intro x hx
      rcases List.mem_cons.1 hx with rfl | hx
      · rfl
      · split_ifs at hx
        · rw [List.mem_singleton.1 hx]
        · cases hx
  cases ty with
  | domain => cases h; simp
  | step => cases h; simp
  | misc => exact misc a h
  | first => exact misc a h
  | last => exact misc a h

theorem genCalls_posn {c : GenSizes} {r : ConstRange} (ds : List (String × IndexType)) : ∀ {i : Nat} {calls : List (Nat × Setting × Int)},
    genCalls c r i ds = .ok calls → ∀ x ∈ calls, i ≤ x.1 := by
  induction ds with
  | nil => intro i calls h; cases h; simp
  | cons y ds ih =>
    intro i calls h
    obtain ⟨d, ty⟩ := y
    unfold genCalls at h
    cases hg : genDim c r i d ty with
    | throws => rw [hg] at h; cases h
    | undefined => rw [hg] at h; cases h
    | ok a =>
      rw [hg] at h
      simp only [Outcome.bind_ok] at h
      cases hl : genCalls c r (i + 1) ds with
      | throws => rw [hl] at h; cases h
      | undefined => rw [hl] at h; cases h
      | ok l =>
        rw [hl] at h
        cases h
        intro x hx
        rcases List.mem_append.1 hx with hx | hx
        · exact le_of_eq (genDim_posn hg x hx).symm
        · have := ih hl x hx; omega

theorem genCalls_cons {c : GenSizes} {r : ConstRange} {i : Nat} {d : String} {ty : IndexType} {ds : List (String × IndexType)}
    {calls : List (Nat × Setting × Int)} (h : genCalls c r i ((d, ty) :: ds) = .ok calls) :
    ∃ a l, genDim c r i d ty = .ok a ∧ genCalls c r (i + 1) ds = .ok l ∧ calls = a ++ l := by
  unfold genCalls at h
  cases hg : genDim c r i d ty with
  | throws => rw [hg] at h; cases h
  | undefined => rw [hg] at h; cases h
  | ok a =>
    rw [hg] at h
    simp only [Outcome.bind_ok] at h
    cases hl : genCalls c r (i + 1) ds with
    | throws => rw [hl] at h; cases h
    | undefined => rw [hl] at h; cases h
    | ok l => rw [hl] at h; cases h; exact ⟨a, l, rfl, rfl, rfl⟩

theorem runCalls_split {v v' : YVar V} {a b : List (Nat × Setting × Int)} (h : runCalls v (a ++ b) = (v', false)) :
    ∃ v1, runCalls v a = (v1, false) ∧ runCalls v1 b = (v', false) := by
  rw [runCalls_append] at h
  rcases hr : runCalls v a with ⟨v1, _ | _⟩
  · rw [hr] at h; exact ⟨v1, rfl, h⟩
  · rw [hr] at h; cases h

/-- The calls for a misc dim. -/
theorem genDim_misc {c : GenSizes} {r : ConstRange} {i : Nat} {d : String} {a : List (Nat × Setting × Int)} (h : genDim c r i d .misc = .ok a)
    {v v' : YVar V} (hr : runCalls v a = (v', false)) {n : Int} {e : DimG} (he : v.g.dims[i]? = some e) (hm : MiscFull n 0 e) :
    ∃ n' o' e', genMisc r d = .ok (n', o') ∧ v'.g.dims[i]? = some e' ∧ MiscFull n' o' e' := by
  unfold genDim at h
  cases hg : genMisc r d with
  | throws => rw [hg] at h; cases h
  | undefined => rw [hg] at h; cases h
  | ok y =>
    obtain ⟨n', o'⟩ := y
    rw [hg] at h
    simp only [Outcome.bind_ok, Outcome.ok.injEq] at h
    subst h
    unfold runCalls at hr
    rcases hc : callSetting v i .size n' with ⟨v1, _ | _⟩
    · rw [hc] at hr
      obtain ⟨e1, h1, h2⟩ := call_size hc he hm
      by_cases ho : o' = 0
      · subst ho
        simp only [ne_eq, not_true_eq_false, if_false, runCalls] at hr
        cases hr
        exact ⟨n', 0, e1, rfl, h1, h2⟩
      · simp only [ne_eq, ho, not_false_eq_true, if_true] at hr
        unfold runCalls at hr
        rcases hc2 : callSetting v1 i .localOfs o' with ⟨v2, _ | _⟩
        · simp only [hc2] at hr
          obtain ⟨e2, h3, h4⟩ := call_ofs hc2 h1 h2
          unfold runCalls at hr
          cases hr
          exact ⟨n', o', e2, rfl, h3, h4⟩
        · simp only [hc2] at hr; cases hr
    · rw [hc] at hr; cases hr

theorem genCalls_misc {c : GenSizes} {r : ConstRange} (ds : List (String × IndexType)) : ∀ {i : Nat} {calls : List (Nat × Setting × Int)},
    genCalls c r i ds = .ok calls → ∀ {v v' : YVar V}, runCalls v calls = (v', false) →
    (∀ (j : Nat) (d : String), ds[j]? = some (d, .misc) → ∃ n e, v.g.dims[i + j]? = some e ∧ MiscFull n 0 e) →
    ∀ (j : Nat) (d : String), ds[j]? = some (d, .misc) → ∃ n o e, genMisc r d = .ok (n, o) ∧ v'.g.dims[i + j]? = some e ∧ MiscFull n o e := by
  induction ds with
  | nil => intro i calls _ v v' _ _ j d hj; cases hj
  | cons y ds ih =>
    intro i calls h v v' hr h0 j d hj
    obtain ⟨dy, ty⟩ := y
    obtain ⟨a, l, ha, hl, rfl⟩ := genCalls_cons h
    obtain ⟨v1, r1, r2⟩ := runCalls_split hr
    cases j with
    | zero =>
      simp only [List.getElem?_cons_zero, Option.some.injEq, Prod.mk.injEq] at hj
      obtain ⟨rfl, rfl⟩ := hj
      obtain ⟨n, e, he, hm⟩ := h0 0 dy (by simp)
      obtain ⟨n', o', e', hg, he', hm'⟩ := genDim_misc ha r1 he hm
      obtain ⟨e2, he2, hm2⟩ := runCalls_other r2 (fun x hx hxi => by have := genCalls_posn ds hl x hx; omega) he' hm'
      exact ⟨n', o', e2, hg, he2, hm2⟩
    | succ j =>
      have hj' : ds[j]? = some (d, .misc) := by simpa using hj
      obtain ⟨n, o, e, h1, h2, h3⟩ := ih hl r2 (fun j' d' hj' => by
        obtain ⟨n, e, he, hm⟩ := h0 (j' + 1) d' (by simpa using hj')
        obtain ⟨e1, he1, hm1⟩ := runCalls_other r1 (fun x hx hxi => by have := genDim_posn ha x hx; omega) he hm
        exact ⟨n, e1, by rw [← he1]; congr 1; omega, hm1⟩) j d hj'
      exact ⟨n, o, e, h1, by rw [← h2]; congr 1; omega, h3⟩

end Yask.Comp
