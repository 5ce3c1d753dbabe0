import Verif.Kernel.CodeSolnLemmas

/-! Helper lemmas: the generated code of a solution accesses what `SolnCode.Indep` requires. -/

namespace Yask.Nano
open Spec Var Comp Spec.Cpp

/-- What is used of `Runs`: it holds for the configuration of each rank. -/
structure RunsIn {V : Type} (c : RunCfg) (U : USoln V) (L : List (List (List (Fin U.eqs.length)))) : Prop where
  nd : c.nd = U.dims.length
  dom : ∀ st < c.nst, ∀ p < c.nparts st, ∀ x, x.length = c.nd → c.dom st p x = true → ∀ e ∈ (L.getD st []).getD p [], U.eqs[e].domIf x = true
  stepOk : ∀ st < c.nst, ∀ p < c.nparts st, ∀ t, c.stepOk st p t = true → ∀ e ∈ (L.getD st []).getD p [], U.eqs[e].stepIf t = true
  halo : ∀ e ∈ U.eqs, ∀ p ∈ e.rhs, ∀ j < c.nd, -(c.dim j).maxHalo ≤ p.at (U.dims.getD j "") ∧ p.at (U.dims.getD j "") ≤ (c.dim j).maxHalo

theorem runsIn {V : Type} {c : RunCfg} {U : USoln V} {L : List (List (List (Fin U.eqs.length)))} (h : Runs c U L) : RunsIn c U L :=
  ⟨h.nd, fun st hs p hp x hl hx => ((h.dom st hs p hp x hl).1 hx).2, fun st hs p hp t ht => (h.stepOk st hs p hp t).1 ht, h.halo⟩

section
variable {V : Type} {R : SolnCode} {U : USoln V} {L : List (List (List (Fin U.eqs.length)))} {S : Slices} {sz : Nat → Nat} {A : Arith V}
  {vdims : Nat → List String}

theorem point_get {b : Pt} {k : Nat} (hk : k < (S.geo (S.var b.var)).dims.length) : (S.point b).2[k]? = some (match S.kind b.var k with
    | some .step => b.step.getD 0
    | some .domain => b.at (S.name b.var k)
    | _ => (S.misc b.var).getD k 0) := by
  unfold Slices.point
  simp only
  rw [List.getElem?_map, List.getElem?_range hk]
  rfl

variable (hc : CodeOf R U L S sz A)
include hc

theorem lhs_point {st p : Nat} (hp : p < R.cfg.nparts st) {q : LPt} (hq : q ∈ (R.code st p).eqs.map (·.1)) :
    ∃ e ∈ (L.getD st []).getD p [], q = S.point U.eqs[e].lhs := by
  obtain ⟨ce, h1, h2⟩ := hc.eqs st p hp
  rw [h1, List.map_map, List.mem_map] at hq
  obtain ⟨e, he, rfl⟩ := hq
  exact ⟨e, he, (h2 e he).1⟩

theorem read_point {st p : Nat} (hp : p < R.cfg.nparts st) {q : LPt} (hq : (R.code st p).IsRead q) :
    ∃ e ∈ (L.getD st []).getD p [], ∃ b ∈ U.eqs[e].rhs, q = S.point b := by
  obtain ⟨ce, h1, h2⟩ := hc.eqs st p hp
  obtain ⟨c, hc1, hc2⟩ := hq
  rw [h1, List.mem_map] at hc1
  obtain ⟨e, he, rfl⟩ := hc1
  exact ⟨e, he, ((h2 e he).2.1 q).1 hc2⟩

theorem domainDim_iff {st p : Nat} (hp : p < R.cfg.nparts st) {v : Nat} (hv : v < S.nv) {k : Nat} {d : String} :
    ((R.code st p).vars (S.var v)).DomainDim k d ↔ S.kind v k = some .domain ∧ S.name v k = d := by
  obtain ⟨h1, h2⟩ := hc.vars st p hp v hv
  have hn := hc.nameLen v hv
  unfold LoopVar.DomainDim
  rw [h1, h2]
  constructor
  · rintro ⟨a, g, b, c⟩
    refine ⟨by unfold Slices.kind; rw [b, ← c]; rfl, ?_⟩
    unfold Slices.name
    rw [List.getD_eq_getElem?_getD, a]
    rfl
  · rintro ⟨a, rfl⟩
    unfold Slices.kind at a
    rw [Option.map_eq_some_iff] at a
    obtain ⟨g, b, c⟩ := a
    refine ⟨?_, g, b, c⟩
    have hk := (List.getElem?_eq_some_iff.1 b).1
    unfold Slices.name
    rw [List.getD_eq_getElem?_getD, List.getElem?_eq_getElem (by omega)]
    rfl

theorem lhs_nv (e : Fin U.eqs.length) : U.eqs[e].lhs.var < S.nv := hc.used _ (List.getElem_mem _) _ List.mem_cons_self

theorem rhs_nv (e : Fin U.eqs.length) {b : Pt} (hb : b ∈ U.eqs[e].rhs) : b.var < S.nv :=
  hc.used _ (List.getElem_mem _) _ (List.mem_cons_of_mem _ hb)

/-- Points that agree in the dims of a var that is set. -/
theorem pt_eq (e : Fin U.eqs.length) (hnd : U.dims.Nodup) {x y : List Int} (hx : x.length = U.dims.length) (hy : y.length = U.dims.length)
    (h : ∀ k, S.kind U.eqs[e].lhs.var k = some .domain →
      x.getD (U.dims.idxOf (S.name U.eqs[e].lhs.var k)) 0 = y.getD (U.dims.idxOf (S.name U.eqs[e].lhs.var k)) 0) : x = y := by
  apply List.ext_getElem (by omega)
  intro j h1 h2
  have hj : j < U.dims.length := by omega
  obtain ⟨k, h3, h4⟩ := hc.full U.eqs[e] (List.getElem_mem _) U.dims[j] (List.getElem_mem hj)
  have := h k h3
  rw [h4, List.Nodup.idxOf_getElem hnd j hj, List.getD_eq_getElem?_getD, List.getD_eq_getElem?_getD,
    List.getElem?_eq_getElem h1, List.getElem?_eq_getElem h2] at this
  exact this

variable (hl : Legal U vdims) (hr : RunsIn R.cfg U L)

omit hc in
include hl in
theorem stepAt_lhs (e : Fin U.eqs.length) (t : Int) : stepAt U.eqs[e].lhs t = t + U.dir := by
  unfold stepAt
  rw [(hl.lhs U.eqs[e] (List.getElem_mem _)).1]

include hl hr

omit hl in
theorem at_cond {st p : Nat} {t : Int} {x : List Int} (h : R.At st p t x) {e : Fin U.eqs.length} (he : e ∈ (L.getD st []).getD p []) :
    x.length = U.dims.length ∧ U.eqs[e].domIf x = true ∧ U.eqs[e].stepIf t = true := by
  obtain ⟨h1, h2, h3, h4⟩ := h
  have hs := hc.parts st p h1
  exact ⟨h3.trans hr.nd, hr.dom st hs p h1 x h3 h4 e he, hr.stepOk st hs p h1 t h2 e he⟩

theorem elemAt_lhs (hst : R.step ∉ R.dims) {st p : Nat} {t : Int} {x : List Int} (h : R.At st p t x) {e : Fin U.eqs.length}
    (he : e ∈ (L.getD st []).getD p []) (p' : Nat) (hp' : p' < R.cfg.nparts st) :
    (R.partAt st p' t).elemAt (S.point U.eqs[e].lhs) x = S.elem U.dims U.eqs[e].lhs.var (t + U.dir) x := by
  obtain ⟨hx, _⟩ := at_cond hc hr h he
  rw [elemAt_point hc hst hp' (lhs_nv hc e) (hl.step _ (List.getElem_mem _) _ List.mem_cons_self) t hx, stepAt_lhs hl,
    shiftPt_zero hx (hl.lhs U.eqs[e] (List.getElem_mem _)).2]

theorem elemAt_rhs (hst : R.step ∉ R.dims) {st p : Nat} {t : Int} {x : List Int} (h : R.At st p t x) {e : Fin U.eqs.length}
    (he : e ∈ (L.getD st []).getD p []) {b : Pt} (hb : b ∈ U.eqs[e].rhs) :
    (R.partAt st p t).elemAt (S.point b) x = S.elem U.dims b.var (stepAt b t) (shiftPt U.dims x b) := by
  obtain ⟨hx, _⟩ := at_cond hc hr h he
  rw [elemAt_point hc hst h.1 (rhs_nv hc e hb) (hl.step _ (List.getElem_mem _) _ (List.mem_cons_of_mem _ hb)) t hx]

theorem indep_of_code {inner : String} {folds rofs : List Int} (hf : R.Fits V inner folds rofs) (ha : Arranged U L) (hn : Enough U L sz)
    (hrg : R.InRange) : R.Indep where
  range := hrg
  lhsDims st p hp q hq d hd := by
    obtain ⟨e, he, rfl⟩ := lhs_point hc hp hq
    rw [hc.dims] at hd
    obtain ⟨k, h1, h2⟩ := hc.full U.eqs[e] (List.getElem_mem _) d hd
    exact ⟨k, (domainDim_iff hc hp (lhs_nv hc e)).2 ⟨h1, h2⟩⟩
  lhsZero st p hp q hq k d hk := by
    obtain ⟨e, he, rfl⟩ := lhs_point hc hp hq
    obtain ⟨h1, h2⟩ := (domainDim_iff hc hp (lhs_nv hc e)).1 hk
    obtain ⟨_, _, _, h3⟩ := kind_api h1
    rw [point_get h3, h1]
    simp only
    rw [(hl.lhs U.eqs[e] (List.getElem_mem _)).2]
  halo st p hp q hq _ j k d hj hk := by
    obtain ⟨e, he, b, hb, rfl⟩ := read_point hc hp hq
    obtain ⟨h1, h2⟩ := (domainDim_iff hc hp (rhs_nv hc e hb)).1 hk
    obtain ⟨_, _, _, h3⟩ := kind_api h1
    refine ⟨_, point_get h3, ?_⟩
    rw [h1]
    simp only
    rw [hc.dims] at hj
    have hj2 := (List.getElem?_eq_some_iff.1 hj).1
    have hd : U.dims.getD j "" = d := by rw [List.getD_eq_getElem?_getD, hj]; rfl
    have := hr.halo U.eqs[e] (List.getElem_mem _) b hb j (by rw [hr.nd]; exact hj2)
    rw [hd] at this
    rw [h2, abs_le]
    exact this
  writes st p p' t x hx hx' q hq q' hq' hqq hs := by
    have hst : R.step ∉ R.dims := (hf.part st p t hx.1).step
    obtain ⟨e, he, rfl⟩ := lhs_point hc hx.1 hq
    obtain ⟨e', he', rfl⟩ := lhs_point hc hx'.1 hq'
    rw [elemAt_lhs hc hl hr hst hx he p hx.1, elemAt_lhs hc hl hr hst hx' he' p' hx'.1] at hs
    have hg := (hc.vars st p hx.1 _ (lhs_nv hc e)).1
    have hs2 : SameElem (S.geo (S.var U.eqs[e].lhs.var)).api (S.elem U.dims U.eqs[e].lhs.var (t + U.dir) x)
        (S.elem U.dims U.eqs[e'].lhs.var (t + U.dir) x) := by rw [← hg]; exact hs
    obtain ⟨h1, _⟩ := of_same hc (lhs_nv hc e) (lhs_nv hc e') hqq hs2
    obtain ⟨_, c1, c2⟩ := at_cond hc hr hx he
    obtain ⟨_, c3, c4⟩ := at_cond hc hr hx' he'
    have := eq_of_applies hl h1 c1 c2 c3 c4
    subst this
    exact ⟨(ha.uniq _ _ _ _ _ he he').2, rfl⟩
  reads st p p' t x y hx hy r hrr r' hrr' q hq hqq hs := by
    have hst : R.step ∉ R.dims := (hf.part st p t hx.1).step
    obtain ⟨ce, d1, d2⟩ := hc.eqs st p hx.1
    obtain ⟨ce', d1', d2'⟩ := hc.eqs st p' hy.1
    -- the equations
    have hr1 : r < ((L.getD st []).getD p []).length := by rw [d1, List.length_map] at hrr; exact hrr
    have hr1' : r' < ((L.getD st []).getD p' []).length := by rw [d1', List.length_map] at hrr'; exact hrr'
    obtain ⟨e, hee⟩ : ∃ e, ((L.getD st []).getD p [])[r] = e := ⟨_, rfl⟩
    obtain ⟨e', hee'⟩ : ∃ e', ((L.getD st []).getD p' [])[r'] = e' := ⟨_, rfl⟩
    have he : e ∈ (L.getD st []).getD p [] := hee ▸ List.getElem_mem hr1
    have he' : e' ∈ (L.getD st []).getD p' [] := hee' ▸ List.getElem_mem hr1'
    have g1 : (R.code st p).eqs[r] = ce e := by
      have : (R.code st p).eqs[r]? = some (ce e) := by rw [d1, List.getElem?_map, List.getElem?_eq_getElem hr1, hee]; rfl
      exact (List.getElem?_eq_some_iff.1 this).2
    have g1' : (R.code st p').eqs[r'] = ce' e' := by
      have : (R.code st p').eqs[r']? = some (ce' e') := by rw [d1', List.getElem?_map, List.getElem?_eq_getElem hr1', hee']; rfl
      exact (List.getElem?_eq_some_iff.1 this).2
    rw [g1] at hq
    rw [g1'] at hqq hs
    rw [(d2' e' he').1] at hqq hs
    obtain ⟨b, hb, rfl⟩ := ((d2 e he).2.1 q).1 hq
    rw [elemAt_rhs hc hl hr hst hx he hb, elemAt_lhs hc hl hr hst hy he' p' hy.1] at hs
    have hg := (hc.vars st p hx.1 _ (rhs_nv hc e hb)).1
    have hs2 : SameElem (S.geo (S.var b.var)).api (S.elem U.dims b.var (stepAt b t) (shiftPt U.dims x b))
        (S.elem U.dims U.eqs[e'].lhs.var (t + U.dir) y) := by rw [← hg]; exact hs
    obtain ⟨h1, h2, h3⟩ := of_same hc (rhs_nv hc e hb) (lhs_nv hc e') hqq hs2
    have hstep : U.hasStep b.var = true := by rw [h1]; exact lhs_hasStep hl e'
    have hbs := hl.step U.eqs[e] (List.getElem_mem _) b (List.mem_cons_of_mem _ hb)
    rw [hstep, Option.isSome_iff_exists] at hbs
    obtain ⟨k, hk⟩ := hbs
    have hmod := h2 hstep
    unfold stepAt at hmod
    rw [hk] at hmod
    simp only at hmod
    have hdvd : (sz b.var : Int) ∣ U.dir - k := by
      have h4 : ((t + k) - (t + U.dir)) % (sz b.var : Int) = 0 := Int.emod_eq_emod_iff_emod_sub_eq_zero.1 hmod
      have h5 : (sz b.var : Int) ∣ (t + k) - (t + U.dir) := Int.dvd_of_emod_eq_zero h4
      have h6 : U.dir - k = -((t + k) - (t + U.dir)) := by ring
      rw [h6]
      exact (Int.dvd_neg).2 h5
    rcases same_slot hl hn (List.getElem_mem e.2) hb hk hdvd with hk1 | hk1
    · exfalso
      have := ha.order e e' st p st p' he he' b hb h1 (by rw [hk, hk1, (hl.lhs U.eqs[e'] (List.getElem_mem _)).1])
      omega
    · obtain ⟨o1, o2⟩ := hn.oldest e e' st p st p' he he' (Nat.le_refl _) b hb h1 k hk hk1
      obtain ⟨hxl, c1, c2⟩ := at_cond hc hr hx he
      obtain ⟨hyl, c3, c4⟩ := at_cond hc hr hy he'
      rw [shiftPt_zero hxl o1] at h3
      have hxy : x = y := pt_eq hc e' hl.dims hxl hyl (by rw [← h1]; exact h3)
      subst hxy
      have hh := eq_of_applies hl (o2.trans h1) c1 c2 c3 c4
      subst hh
      have hpp := (ha.uniq _ _ _ _ _ he he').2
      subst hpp
      refine ⟨rfl, rfl, ?_⟩
      have hnod := hf.lhsNodup st p hx.1
      have hlen : ((R.code st p).eqs.map (·.1)).length = (R.code st p).eqs.length := List.length_map _
      have h7 := (hnod.getElem_inj_iff (i := r) (hi := by rw [hlen]; exact hrr) (j := r') (hj := by rw [hlen]; exact hrr')).1 (by
        rw [List.getElem_map, List.getElem_map, g1, g1', (d2 e he).1, (d2' e he').1])
      omega

end
end Yask.Nano
