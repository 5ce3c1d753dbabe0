import Verif.Spec.ScrNetSpec
import Verif.Compiler.ScrLinkRuns
import Verif.Compiler.HaloL1Lemmas
import Verif.Mpi.ScrNetLemmas
import Verif.Mpi.PrepLemmas

/-!
# Lemmas: ranks that run equations with scratch vars
-/

namespace Yask
open Spec Comp Mpi RunCfg

theorem needed_via {eqs : List PEq} {scr : Nat → Bool} {v : Nat} {d : String → Int} (h : Needed eqs scr v d) : ∃ ps, NeededVia eqs scr v d ps := by
  induction h with
  | direct h1 h2 h3 => exact ⟨_, .direct h1 h2 h3⟩
  | scratch _ h2 h3 h4 h5 ih =>
    obtain ⟨ps, h⟩ := ih
    exact ⟨_, .scratch h h2 h3 h4 h5⟩

theorem Staged.dims_congr {S : HSys} {scr : Nat → Bool} {dims dims' : Nat → List String} (h : Staged S scr dims) (hd : ∀ v n, n ∈ dims' v ↔ n ∈ dims v) :
    Staged S scr dims' where
  ids := h.ids
  kind := h.kind
  closed := h.closed
  order := h.order
  self := h.self
  used e he p hp n := (h.used e he p hp n).trans (hd _ _).symm
  full v w hv n hn := (hd _ _).2 (h.full v w hv n ((hd _ _).1 hn))

section
variable {Val κ : Type} [Inhabited Val] {X : XSoln Val} {P : Lots X.Idx κ} {Q : Lots Nat Unit} {o : X.Opts κ} {vdims : Nat → List String} {sz : Nat → Nat}
  {G : RunCfg} {C : ScrCfg} {R : Prep} {Cr : Nat → ScrCfg} {opts : List Setup.ROpts} {minSize : Nat → Nat → Nat} {shape : Nat → VarShape}
  {outs : Nat → Int → Slot → Bool}

/-- What each rank has. -/
theorem has_on_rank (hl : X.Legal vdims) (hall : ∀ e, e ∈ o.order) (hC : Compiled (X.sys o) P Q) (hs : SetUp G C X P Q)
    (hp : Prepared G R opts minSize shape) (hR : SetUpRanks G R Cr X P Q) {r : Nat} (hr : r < R.n) :
    X.Has ((R.net outs).cfg r) (InWhole G) (Cr r) (X.mainL P Q) (X.scrK P Q) := by
  have hx := xruns_of_setUp hl hall hC hs
  have hd := prep_divided hp outs
  have hnd : ((R.net outs).cfg r).nd = G.nd := hd.nd r hr
  have hact : ∀ a, ((R.net outs).cfg r).Active a → G.Active a := by
    rintro a ⟨h1, h2, h3, h4⟩
    rw [hd.nparts r hr] at h1
    rw [hd.stepOk r hr] at h2
    rw [hnd] at h4
    exact ⟨h1, h2, ((hp.dom r hr _ _ _).1 h3).1, h4⟩
  refine ⟨hnd.trans hs.nd, fun a ha => (XSoln.has_of_runs hx).active a (hact a ha), hR.empty r hr,
    fun k y h e he => hR.sdom r hr k y h _ (mem_scrK.1 he), ?_, ?_, ?_⟩
  · intro a ha k y hy he
    refine hR.sbox r hr k y (fun j hj => ?_) fun e he' => ?_
    · have h1 := ((hp.dom r hr _ _ _).1 ha.2.2.1).2 j hj
      have h2 := hy j (hnd ▸ hj)
      unfold InIvl at h1 ⊢
      simp only at h1 ⊢
      omega
    · obtain ⟨e, rfl⟩ := scr_inr' hl hC he'
      exact he e (mem_scrK.2 he')
  · intro k t
    rw [hR.sstep r hr]
    refine ⟨fun h e he => h _ (mem_scrK.1 he), fun h e he => ?_⟩
    obtain ⟨e, rfl⟩ := scr_inr' hl hC he
    exact h e (mem_scrK.2 he)
  · intro e he p hp' k e' he' hv j hj
    have := hx.width e he p hp' k e' he' hv j (hnd ▸ hj)
    rw [hR.wl r hr, hR.wr r hr, ← hs.wl, ← hs.wr]
    exact this

omit [Inhabited Val] in
/-- Where the value comes from. -/
theorem dist_le (hl : X.Legal vdims) (hall : ∀ e, e ∈ o.order) (hC : Compiled (X.sys o) P Q) (hR : Reached X R)
    (hA : XAnnounced G X P Q vdims sz R shape outs) {e : UEq Val} (he : e ∈ X.eqs) {p : Pt} (hp : X.Leads e p) (hs : X.isScr p.var = false)
    (hv : p.var < R.nvars) : (rankDist (X.dims.filter fun n => decide (n ∈ vdims p.var)) p.at : Int) ≤ (R.var p.var).maxDist := by
  obtain ⟨ps, hN⟩ := needed_via (leads_needed hl hall hC he hp)
  have hS : Staged (X.hsys P Q) X.isScr fun v => X.dims.filter fun n => decide (n ∈ vdims v) :=
    Staged.dims_congr (xstaged_of_compile hl hall hC) fun v n => by
      rw [List.mem_filter, decide_eq_true_eq]
      exact ⟨And.right, fun h => ⟨hl.inDims _ _ h, h⟩⟩
  obtain ⟨⟨h1, h2⟩, -⟩ := needed_wide hS (fun v => hl.dims.filter _) hN
  have hd := hA.dist _ hv
  rcases hR e he p hp hs with h | h | h
  · refine le_trans (le_trans (le_of_eq ?_) h1) hd
    unfold rankDist
    rw [List.filter_congr fun n hn => ?_]
    have := h n
    rw [decide_eq_decide]; omega
  · refine le_trans (le_trans (le_of_eq ?_) h2) hd
    unfold rankDist
    rw [List.filter_congr fun n hn => ?_]
    have := h n
    rw [decide_eq_decide]; omega
  · refine le_trans (Int.ofNat_le.2 ?_) h
    unfold rankDist
    exact (List.filter_sublist.filter _).length_le

/-- The stencil with substituted scratch vars uses the vars as announced. -/
theorem xfits_announced (hl : X.Legal vdims) (hall : ∀ e, e ∈ o.order) (hC : Compiled (X.sys o) P Q) {ch : Nat → Nat → List Nat}
    (ha : X.Arranged (X.mainL P Q) (X.scrK P Q) ch) (hs : SetUp G C X P Q)
    (hr : XRuns G C X (X.mainL P Q) (X.scrK P Q)) (hn : X.Enough (X.mainL P Q) sz) (hR : Reached X R)
    (hA : XAnnounced G X P Q vdims sz R shape outs) (d : Nat → Nat) :
    FitsVars (XSoln.inlStencil hl ha hr hn d) R shape outs where
  writes := by
    rintro a β ⟨e', he', rfl, _⟩
    rw [XSoln.inl_get']
    let e : Fin X.eqs.length := Fin.cast (X.inl_length (X.fuel d)) e'
    have he : e ∈ _ := (XSoln.mem_inlL _ _ _ _ e').1 he'
    have hv := hA.vars X.eqs[e] (List.mem_append_left _ (List.getElem_mem _)) _ List.mem_cons_self (hl.lhs _ (List.getElem_mem _)).1
    refine ⟨hv, hA.outs _ _ e (mem_mainL.1 he) _, fun j hj => ?_⟩
    show (shape X.eqs[e].lhs.var).used j = true
    rw [hA.used _ hv j hj]
    have hj' : j < X.dims.length := hs.nd ▸ hj
    refine decide_eq_true (hA.full _ (List.getElem_mem _) _ ?_)
    rw [List.getD_eq_getElem _ _ hj']
    exact List.getElem_mem _
  reads := by
    rintro a γ x ⟨hlen, e', he', _, _, p, hp, rfl, rfl⟩
    rw [XSoln.inl_get'] at hp
    let e : Fin X.eqs.length := Fin.cast (X.inl_length (X.fuel d)) e'
    obtain ⟨hp, hns⟩ := XSoln.mem_expand hp
    have hem : X.eqs[e] ∈ X.eqs := List.getElem_mem _
    have hv : p.var < R.nvars := by
      obtain ⟨e0, he0, p0, hp0, h1, -, -⟩ := XSoln.leads_orig hem hp
      rw [h1]
      exact hA.vars e0 he0 p0 (List.mem_cons_of_mem _ hp0) (h1 ▸ hns)
    have hpos := hn.pos p.var
    show p.var < R.nvars ∧ (if X.hasStep p.var = true then (stepAt p a.step % (sz p.var : Int)).toNat else 0) < (R.var p.var).slots ∧
      (∀ j < G.nd, (shape p.var).used j = true → a.pt.getD j 0 - (shape p.var).lh j ≤ (shiftPt X.dims a.pt p).getD j 0 ∧
        (shiftPt X.dims a.pt p).getD j 0 ≤ a.pt.getD j 0 + (shape p.var).rh j) ∧
      (((List.range G.nd).filter fun j => decide ((shape p.var).used j = true ∧ (shiftPt X.dims a.pt p).getD j 0 ≠ a.pt.getD j 0)).length : Int) ≤
        (R.var p.var).maxDist
    refine ⟨hv, ?_, ?_, ?_⟩
    · rw [hA.slots _ hv]
      split_ifs
      · have := Int.emod_lt_of_pos (stepAt p a.step) (show (0 : Int) < sz p.var by omega)
        have := Int.emod_nonneg (stepAt p a.step) (show (sz p.var : Int) ≠ 0 by omega)
        omega
      · exact hpos
    · intro j hj hu
      rw [getD_shiftPt _ _ _ (hs.nd ▸ hj)]
      rw [hA.used _ hv j hj] at hu
      have h1 := needed_halo (xstaged_of_compile hl hall hC) (leads_needed hl hall hC hem hp) _ (of_decide_eq_true hu)
      have h2 := hA.lh _ hv j hj
      have h3 := hA.rh _ hv j hj
      omega
    · have h1 := dist_le hl hall hC hR hA hem hp hns hv
      have h3 : ((List.range G.nd).filter fun j => decide ((shape p.var).used j = true ∧ (shiftPt X.dims a.pt p).getD j 0 ≠ a.pt.getD j 0)).length =
          rankDist (X.dims.filter fun n => decide (n ∈ vdims p.var)) p.at := by
        unfold rankDist
        rw [List.filter_filter, ← length_filter_range, hs.nd]
        congr 1
        apply List.filter_congr
        intro j hj
        have hj' : j < X.dims.length := List.mem_range.1 hj
        rw [getD_shiftPt _ _ _ hj', hA.used _ hv j (hs.nd ▸ hj')]
        rw [← Bool.decide_and]
        apply decide_eq_decide.2
        simp only [decide_eq_true_eq]
        constructor
        · rintro ⟨g1, g2⟩
          exact ⟨by omega, g1⟩
        · rintro ⟨g1, g2⟩
          exact ⟨g2, by omega⟩
      omega

end
end Yask
