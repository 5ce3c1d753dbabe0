import Verif.Mpi.CodeNetRun
import Verif.Compiler.SolnLink

/-! Helper lemmas: the elements that the equations access on a rank exist. -/

namespace Yask
open Spec Mpi Var Nano Comp Spec.Cpp RunCfg

section
variable {V : Type} {X : CodeNet} {U : USoln V} {L : List (List (List (Fin U.eqs.length)))} {S : Slices} {sz : Nat → Nat}
  {shape : Nat → VarShape} {A : Arith V} {G : RunCfg} {opts : List Setup.ROpts} {minSize : Nat → Nat → Nat} {vdims : Nat → List String}
  {outs : Nat → Int → Slot → Bool} {inner : Nat → String} {folds rofs : Nat → List Int}

/-- A point near the domain of the rank has an element. -/
theorem near_in_range (hp : Prepared G X.P opts minSize shape) (hfit : X.Fits U L S sz shape) (hnd : G.nd = U.dims.length)
    (hm : X.MiscStored S) {r : Nat} (hr : r < X.P.n) (hc : CodeOf (X.code r) U L (X.slices S r) sz A) {v : Nat} (hv : v < S.nv) (s : Int) {x y : List Int}
    (hx : ∀ j < G.nd, InIvl (x.getD j 0) ((X.P.cfg r).extBeg j, (X.P.cfg r).extEnd j))
    (hy : ∀ j < G.nd, (shape (S.var v)).used j = true →
      x.getD j 0 - (shape (S.var v)).lh j ≤ y.getD j 0 ∧ y.getD j 0 ≤ x.getD j 0 + (shape (S.var v)).rh j) :
    InRangeButStep (X.geo r (S.var v)).api ((X.slices S r).elem U.dims v s y) := by
  have hk := hfit.var v hv
  refine inRange_iff_getD.2 ⟨elem_length (X.slices S r) _ _ _ _, fun i d hd => ?_⟩
  have hd' : ((X.slices S r).geo ((X.slices S r).var v)).api[i]? = some d := hd
  unfold Geom.api at hd'
  rw [List.getElem?_map, Option.map_eq_some_iff] at hd'
  obtain ⟨g, h1, rfl⟩ := hd'
  have hi := (List.getElem?_eq_some_iff.1 h1).1
  have hkind : (X.slices S r).kind v i = some g.kind := by unfold Slices.kind; rw [h1]; rfl
  rw [elem_getD _ _ _ _ _ hi, hkind]
  have h1' : (X.geo r (S.var v)).dims[i]? = some g := h1
  cases hg : g.kind with
  | step => left; simp
  | misc =>
    right
    exact hm r hr v hv i g h1' hg
  | domain =>
    right
    have hname := hc.domName v hv i (by rw [hkind, hg])
    set j := U.dims.idxOf ((X.slices S r).name v i) with hj
    have hjl : j < U.dims.length := List.idxOf_lt_length_of_mem hname
    have hjg : j < G.nd := hnd ▸ hjl
    have hjp : j < X.P.nd := hp.nd ▸ hjg
    have hgd : U.dims.getD j "" = (X.names (S.var v)).getD i "" := by
      rw [List.getD_eq_getElem _ _ hjl]
      exact List.getElem_idxOf hjl
    have hu : (shape (S.var v)).used j = true := by
      refine (hfit.used _ hk j hjl).2 ?_
      have e := hfit.kinds r hr _ hk
      have e2 : ((X.geo 0 (S.var v)).dims.map DimG.kind)[i]? = some .domain := by
        rw [← e, List.getElem?_map, h1', Option.map_some, hg]
      rw [List.getElem?_map, Option.map_eq_some_iff] at e2
      obtain ⟨d0, f1, f2⟩ := e2
      exact ⟨i, d0, f1, f2, hgd.symm⟩
    have hdim := hfit.dom r hr _ hk i g h1' hg
    rw [← hgd, show U.dims.idxOf (U.dims.getD j "") = j by rw [hgd]; rfl] at hdim
    have hf := (hp.vars _ hk).facts hr hjp hu
    rw [← hdim] at hf
    have h2 := hx j hjg
    obtain ⟨_, _, a3, a4, _⟩ := hp.dims r hr j hjg
    unfold InIvl extBeg extEnd rankEnd at h2
    rw [prep_leftExt hp hr hjg, prep_rightExt hp hr hjg, a3, a4] at h2
    have h3 := hy j hjg hu
    have h4 := hf.first
    have h5 := hf.last
    have h6 := hf.vl_pos
    show g.firstLocal ≤ y.getD j 0 ∧ y.getD j 0 ≤ g.lastLocal
    omega

/-- All elements that the equations access exist. -/
theorem code_in_range (hp : Prepared G X.P opts minSize shape) (hfit : X.Fits U L S sz shape)
    (hc : ∀ r < X.P.n, CodeOf (X.code r) U L (X.slices S r) sz A) (hf : ∀ r < X.P.n, (X.code r).Fits V (inner r) (folds r) (rofs r)) (hl : Legal U vdims)
    (hr : Runs G U L) (han : Announced G U L vdims sz (X.P.sliced S) (fun v => shape (S.var v)) outs) (hm : X.MiscStored S) :
    ∀ r < X.P.n, (X.code r).InRange := by
  intro r hrn st p t x hat q hq
  have hcr := hc r hrn
  have hst : (X.code r).step ∉ (X.code r).dims := ((hf r hrn).part st p t hat.1).step
  have hdom : (X.P.cfg r).dom st p x = true := by
    have := hat.2.2.2
    rw [hfit.cfg r hrn] at this
    exact this
  have hx := ((hp.dom r hrn st p x).1 hdom).2
  have hxl : x.length = U.dims.length := by
    rw [hat.2.2.1, hfit.cfg r hrn]
    exact (hp.cfg_nd r hrn).trans hr.nd
  rcases hq with hq | hq
  · obtain ⟨e, he, rfl⟩ := lhs_point hcr hat.1 hq
    have hv := lhs_nv hcr e
    rw [elemAt_point hcr hst hat.1 hv (hl.step _ (List.getElem_mem _) _ List.mem_cons_self) t hxl,
      shiftPt_zero hxl (hl.lhs U.eqs[e] (List.getElem_mem _)).2]
    rw [show (((X.code r).code st p).vars ((X.slices S r).point U.eqs[e].lhs).1).g = X.geo r (S.var U.eqs[e].lhs.var) from
      (hcr.vars st p hat.1 _ hv).1]
    refine near_in_range hp hfit hr.nd hm hrn hcr hv _ hx fun j hj hu => ?_
    have hf := (hp.vars _ (hfit.var _ hv)).facts hrn (hp.nd ▸ hj) hu
    have := hf.lh0
    have := hf.rh0
    omega
  · obtain ⟨e, he, b, hb, rfl⟩ := read_point hcr hat.1 hq
    have hv := rhs_nv hcr e hb
    rw [elemAt_point hcr hst hat.1 hv (hl.step _ (List.getElem_mem _) _ (List.mem_cons_of_mem _ hb)) t hxl]
    rw [show (((X.code r).code st p).vars ((X.slices S r).point b).1).g = X.geo r (S.var b.var) from (hcr.vars st p hat.1 _ hv).1]
    refine near_in_range hp hfit hr.nd hm hrn hcr hv _ hx fun j hj hu => ?_
    rw [getD_shiftPt _ _ _ (hr.nd ▸ hj)]
    rw [han.used _ hv j hj] at hu
    have h1 := halo_covers hl he hb (of_decide_eq_true hu)
    have h2 := han.lh _ hv j hj
    have h3 := han.rh _ hv j hj
    omega

end
end Yask
