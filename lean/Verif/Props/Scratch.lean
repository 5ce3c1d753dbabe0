import Verif.Sched.AlignedLemmas
import Verif.Sched.MicroTrace
import Verif.Var.ScratchLemmas
import Verif.Props.VarAccess
import Verif.Props.CompHalo
import Verif.Props.InStorage

/-!
# C68: storage of scratch vars
-/

namespace Yask
open Spec Var

variable {V : Type}

/-- C68: a micro-block is not longer than the configured micro-block size and the allowance made for scratch vars. -/
theorem C68_micro_block_width {c : RunCfg} (h : c.Ok) (hz : c.Sized) (hs : c.ShiftsInRank) (first last : Int) :
    ∀ tr, c.microRuns first last tr → ∀ x ∈ tr, ∀ j < c.nd, (x.2.2.getD j (0, 0)).1 < (x.2.2.getD j (0, 0)).2 ∧
      (x.2.2.getD j (0, 0)).2 - (x.2.2.getD j (0, 0)).1 ≤ (c.dim j).microSize + scratchExt c j :=
  fun tr ht x hx => (RunCfg.narrow_run h hz hs first last tr ht x hx).2

/-- C68: moving a scratch var to a micro-block never fails. -/
theorem C68_moves {c : RunCfg} {wl wr : Nat → Int} {k k1 : KVar V} (hk : k.Ok c) (h : k.setScratch c wl wr = some k1)
    (m : Option (Int → V)) (mb : Box) : ∃ k', KVar.moveTo c mb { k1 with v := { k1.v with mem := m } } = some k' := by
  obtain ⟨a1, _⟩ := setScratch_spec hk h
  exact moveTo_some mb ⟨Reachable.storage _ _ a1.reach, a1.inj, a1.valid, a1.all, a1.vlen⟩

/-- Indices that are in range in the domain and misc dims. -/
theorem inRange_of_dims {c : RunCfg} {k : KVar V} (hk : k.Ok c) {idx : List Int} (hlen : idx.length = k.v.g.dims.length)
    (hdom : ∀ j < c.nd, ∀ p d, k.posn j = some p → k.v.g.dims[p]? = some d → d.firstLocal ≤ idx.getD p 0 ∧ idx.getD p 0 ≤ d.lastLocal)
    (hmisc : ∀ p d, k.v.g.dims[p]? = some d → d.kind = .misc → d.firstLocal ≤ idx.getD p 0 ∧ idx.getD p 0 ≤ d.lastLocal) :
    InRangeButStep k.v.g.api idx := by
  unfold InRangeButStep
  rw [List.forall₂_iff_get]
  refine ⟨by simp [Geom.api, hlen], fun p hp hp' => ?_⟩
  have hpd : p < k.v.g.dims.length := by rw [← hlen]; exact hp
  have hd : k.v.g.dims[p]? = some k.v.g.dims[p] := List.getElem?_eq_getElem hpd
  generalize hdd : k.v.g.dims[p] = d at hd
  have hx : idx.get ⟨p, hp⟩ = idx.getD p 0 := by simp [List.getD_eq_getElem?_getD, List.getElem?_eq_getElem hp]
  have hapi : k.v.g.api.get ⟨p, hp'⟩ = ⟨d.kind == .step, d.firstLocal, d.lastLocal, d.alloc⟩ := by
    simp only [Geom.api, List.get_eq_getElem, List.getElem_map, hdd]
  rw [hapi, hx]
  simp only [beq_iff_eq]
  rcases hkd : d.kind with _ | _ | _
  · exact Or.inl rfl
  · refine Or.inr ?_
    obtain ⟨j, hj, hp⟩ := hk.all p d hd hkd
    exact hdom j hj p d hp hd
  · exact Or.inr (hmisc p d hd hkd)

/-- C68: all points of a micro-block, extended by not more than the halos of a scratch var, are elements of its storage. -/
theorem C68_written {c : RunCfg} {wl wr : Nat → Int} {k k' : KVar V} (hk : k.Ok c) {mb : Box} (h : ScratchAt c wl wr mb k k')
    (hs : StepsAlloc k'.v.g.api)
    (hw : ∀ j < c.nd, (mb.getD j (0, 0)).2 - (mb.getD j (0, 0)).1 ≤ (c.dim j).microSize + scratchExt c j)
    {el er : Nat → Int} (he : ∀ j < c.nd, ∀ p d, k'.posn j = some p → k'.v.g.dims[p]? = some d → el j ≤ d.lHalo ∧ er j ≤ d.rHalo)
    {idx : List Int} (hi : PointOf c k' (adjustScratchSpan el er mb) idx) : InStorage k' idx := by
  obtain ⟨a1, a2, _, a4⟩ := scratchAt_spec hk h
  refine C14_address_in_storage k'.v a1.reach hs idx (inRange_of_dims a1 hi.len ?_ hi.misc)
  intro j hj p d hp hd
  have hmem := List.mem_of_getElem? hd
  obtain ⟨d', hd', hkd, hsv⟩ := a1.valid j hj p hp
  rw [hd] at hd'; cases hd'
  obtain ⟨b1, b2, b3, b4, b5⟩ := a4 j hj p d hp hd
  obtain ⟨p1, p2⟩ := pads_ge a1.reach.ok hmem hkd (a1.vlen d hmem)
  have hdo := a1.reach.ok.dims d hmem
  have hset := (settingsOk_iff d).1 hdo.set_ok
  have hvl := hdo.vvl_pos
  have hle : d.varVL ≤ d.solnVL := Int.le_of_dvd hdo.svl hdo.vvl_dvd
  have hr := roundDownFlr_spec ((mb.getD j (0, 0)).1 - (c.dim j).rankBeg) hvl
  obtain ⟨e1, e2⟩ := he j hj p d hp hd
  obtain ⟨i1, i2⟩ := hi.dom j hj p hp
  simp only [adjustScratchSpan] at i1 i2
  have hw' := hw j hj
  unfold DimG.firstLocal DimG.lastLocal
  rw [b4] at p1
  rw [b5] at p2
  omega

/-- C68: all elements that are touched when an equation is evaluated on a micro-block that begins on a vector, extended by `el` and `er`,
with an access whose offsets are covered by the halos of the scratch var, are in its storage. -/
theorem C68_touched {c : RunCfg} {wl wr : Nat → Int} {k k' : KVar V} (hk : k.Ok c) {mb : Box} (h : ScratchAt c wl wr mb k k')
    (hs : StepsAlloc k'.v.g.api) (ha : Aligned c mb)
    (hw : ∀ j < c.nd, (mb.getD j (0, 0)).2 - (mb.getD j (0, 0)).1 ≤ (c.dim j).microSize + scratchExt c j)
    {el er ofs : Nat → Int}
    (he : ∀ j < c.nd, ∀ p d, k'.posn j = some p → k'.v.g.dims[p]? = some d → el j - ofs j ≤ d.lHalo ∧ er j + ofs j ≤ d.rHalo)
    {idx : List Int} (hi : TouchesVar c k' (adjustScratchSpan el er mb) ofs idx) : InStorage k' idx := by
  obtain ⟨a1, a2, _, a4⟩ := scratchAt_spec hk h
  refine C14_address_in_storage k'.v a1.reach hs idx (inRange_of_dims a1 hi.len ?_ hi.misc)
  intro j hj p d hp hd
  have hmem := List.mem_of_getElem? hd
  obtain ⟨d', hd', hkd, hsv⟩ := a1.valid j hj p hp
  rw [hd] at hd'; cases hd'
  obtain ⟨b1, b2, b3, b4, b5⟩ := a4 j hj p d hp hd
  obtain ⟨p1, p2⟩ := pads_ge a1.reach.ok hmem hkd (a1.vlen d hmem)
  have hdo := a1.reach.ok.dims d hmem
  have hset := (settingsOk_iff d).1 hdo.set_ok
  have hvl := hdo.vvl_pos
  have hr : roundDownFlr ((mb.getD j (0, 0)).1 - (c.dim j).rankBeg) d.varVL = (mb.getD j (0, 0)).1 - (c.dim j).rankBeg := by
    rw [roundDownFlr_eq _ _ hvl]
    exact Int.ediv_mul_cancel (hdo.vvl_dvd.trans (by rw [hsv]; exact ha j hj))
  obtain ⟨e1, e2⟩ := he j hj p d hp hd
  obtain ⟨i, l, ⟨l0, t1, t2, t3, t4⟩, t5, t6⟩ := hi.dom j hj p hp
  simp only [adjustScratchSpan] at t3 t4
  have hw' := hw j hj
  unfold DimG.firstLocal DimG.lastLocal
  rw [b4] at p1
  rw [b5] at p2
  rw [hsv] at p1 p2
  rw [hr] at b2
  omega

/-- The halos of the var do not depend on where it is. -/
theorem scratchAt_halos {c : RunCfg} {wl wr : Nat → Int} {k k' : KVar V} (hk : k.Ok c) {mb : Box} (h : ScratchAt c wl wr mb k k')
    {S : Comp.HSys} {names : Nat → String} {dims : List String} {v : Nat} (hh : HasHalos c S names dims v k) :
    HasHalos c S names dims v k' := by
  obtain ⟨_, a2, a3, _⟩ := scratchAt_spec hk h
  intro j hj p d' hp hd'
  rw [a2] at hp
  have := a3 p
  rw [hd'] at this
  cases h1 : k.v.g.dims[p]? with
  | none => rw [h1] at this; simp at this
  | some d =>
    rw [h1] at this
    simp only [Option.map_some, Option.some.injEq, DimG.key, Prod.mk.injEq] at this
    obtain ⟨e1, e2, e3⟩ := hh j hj p d hp h1
    exact ⟨e1, by rw [this.2.1]; exact e2, by rw [this.2.2.1]; exact e3⟩

/-- C68: in any run, a scratch part writes only elements in the storage of the scratch vars, for every micro-block, as long as the total
shift of the micro-blocks of a block is not more than the size of the domain.  Not covered: scratch vars that are updated in two parts. -/
theorem C68_writes_partial {c : RunCfg} (h : c.Ok) (hz : c.Sized) (hsh : c.ShiftsInRank) {first last : Int} {tr : List (Int × Nat × Box)}
    (ht : c.microRuns first last tr) {x : Int × Nat × Box} (hx : x ∈ tr)
    {S : Comp.HSys} {scr : Nat → Bool} {dims : Nat → List String} (hS : Staged S scr dims) (hO : OnePart S scr)
    {s : Comp.HStage} (hst : s ∈ S.stages) (hsc : s.scr = true) {P : List Comp.PEq} (hP : P ∈ s.parts)
    {st : Comp.HStage} (hst' : st ∈ S.stages) (hk' : st.scr = false) (hreq : s.id ∈ S.scrDeps st.id) {e : Comp.PEq} (he : e ∈ P)
    {names : Nat → String} {wl wr : Nat → Int} {k k' : KVar V} (hk : k.Ok c) (hh : HasHalos c S names (dims e.lhs.var) e.lhs.var k)
    (ha : ScratchAt c wl wr x.2.2 k k') (hs : StepsAlloc k'.v.g.api) {idx : List Int}
    (hi : PointOf c k' (adjustScratchSpan (fun j => Comp.writeHalo S.calcHalos P (names j) true)
      (fun j => Comp.writeHalo S.calcHalos P (names j) false) x.2.2) idx) : InStorage k' idx := by
  refine C68_written hk ha hs (fun j hj => (C68_micro_block_width h hz hsh first last tr ht x hx j hj).2) ?_ hi
  intro j hj p d hp hd
  obtain ⟨_, h2, h3⟩ := scratchAt_halos hk ha hh j hj p d hp hd
  have hw := (C55_scratch_parts_partial hS hO hst hsc hP hst' hk' hreq).1 e he (names j)
  rw [hw true, hw false]
  exact ⟨h2, h3⟩

/-- C68: in a run without temporal blocks and with areas that begin on vectors, the code of a scratch part touches only elements in the
storage of the scratch vars it reads.  Not covered: other runs (see `C68_misaligned_wrong`) and scratch vars that are updated in two parts. -/
theorem C68_scratch_reads_partial {c : RunCfg} (h : c.Ok) (hz : c.Sized) (hsh : c.ShiftsInRank) (hv : c.OnVectors) {first last : Int}
    {tr : List (Int × Nat × Box)} (ht : c.microRuns first last tr) {x : Int × Nat × Box} (hx : x ∈ tr)
    {S : Comp.HSys} {scr : Nat → Bool} {dims : Nat → List String} (hS : Staged S scr dims) (hO : OnePart S scr)
    {s : Comp.HStage} (hst : s ∈ S.stages) (hsc : s.scr = true) {P : List Comp.PEq} (hP : P ∈ s.parts)
    {st : Comp.HStage} (hst' : st ∈ S.stages) (hk' : st.scr = false) (hreq : s.id ∈ S.scrDeps st.id) {e : Comp.PEq} (he : e ∈ P)
    {q : Comp.Pt} (hq : q ∈ e.rhs)
    {names : Nat → String} {wl wr : Nat → Int} {k k' : KVar V} (hk : k.Ok c) (hh : HasHalos c S names (dims q.var) q.var k)
    (ha : ScratchAt c wl wr x.2.2 k k') (hs : StepsAlloc k'.v.g.api) {idx : List Int}
    (hi : TouchesVar c k' (adjustScratchSpan (fun j => Comp.writeHalo S.calcHalos P (names j) true)
      (fun j => Comp.writeHalo S.calcHalos P (names j) false) x.2.2) (fun j => q.at (names j)) idx) : InStorage k' idx := by
  refine C68_touched hk ha hs (RunCfg.aligned_run h hv first last tr ht x hx)
    (fun j hj => (C68_micro_block_width h hz hsh first last tr ht x hx j hj).2) ?_ hi
  intro j hj p d hp hd
  obtain ⟨h1, h2, h3⟩ := scratchAt_halos hk ha hh j hj p d hp hd
  have := (C55_scratch_parts_partial hS hO hst hsc hP hst' hk' hreq).2 e he q hq (names j) h1
  omega

/-- C68: likewise for the scratch vars that a non-scratch equation reads. -/
theorem C68_reads_partial {c : RunCfg} (h : c.Ok) (hz : c.Sized) (hsh : c.ShiftsInRank) (hv : c.OnVectors) {first last : Int}
    {tr : List (Int × Nat × Box)} (ht : c.microRuns first last tr) {x : Int × Nat × Box} (hx : x ∈ tr)
    {S : Comp.HSys} {scr : Nat → Bool} {dims : Nat → List String} (hS : Staged S scr dims) {e : Comp.PEq}
    (he : e ∈ allEqs S) (hsc : scr e.lhs.var = false) {q : Comp.Pt} (hq : q ∈ e.rhs)
    {names : Nat → String} {wl wr : Nat → Int} {k k' : KVar V} (hk : k.Ok c) (hh : HasHalos c S names (dims q.var) q.var k)
    (ha : ScratchAt c wl wr x.2.2 k k') (hs : StepsAlloc k'.v.g.api) {idx : List Int}
    (hi : TouchesVar c k' (adjustScratchSpan (fun _ => 0) (fun _ => 0) x.2.2) (fun j => q.at (names j)) idx) : InStorage k' idx := by
  refine C68_touched hk ha hs (RunCfg.aligned_run h hv first last tr ht x hx)
    (fun j hj => (C68_micro_block_width h hz hsh first last tr ht x hx j hj).2) ?_ hi
  intro j hj p d hp hd
  obtain ⟨h1, h2, h3⟩ := scratchAt_halos hk ha hh j hj p d hp hd
  have := C46_needed hS (.direct he hsc hq) (names j) h1
  omega

/-! ### Cases

One dim with fold length 4 and stencils of halo 1 on the only rank; the scratch var is a vectorized var. -/

/-- A rank of `rank` points in one block, with micro-blocks of `micro` points and `st` steps per block. -/
def scrCfg (rank micro st : Int) : RunCfg where
  nd := 1
  dim := fun _ => ⟨4, 1, 0, rank, rank, rank, micro, 1, true, true, 0, rank⟩
  nst := 1
  megaSteps := 0
  blockSteps := st
  roundTb := false
  overlap := false
  stageBB := fun _ _ => (0, rank)
  nparts := fun _ => 1
  dom := fun _ _ x => decide (0 ≤ x.getD 0 0 ∧ x.getD 0 0 < rank)
  stepOk := fun _ _ _ => true

theorem scrCfg_ok (rank micro st : Int) (hr : 4 ≤ rank) (hm : 0 < micro) (hs : 0 ≤ st) : (scrCfg rank micro st).Ok where
  nd_le := by simp [scrCfg]
  fold_pos := fun _ _ => by simp [scrCfg]
  halo_nonneg := fun _ _ => by simp [scrCfg]
  rank_pos := fun _ _ => by simp only [scrCfg]; omega
  mega_pos := fun _ _ => by simp only [scrCfg]; omega
  block_pos := fun _ _ => by simp only [scrCfg]; omega
  block_ge := fun _ _ => by simp only [scrCfg]; omega
  micro_pos := fun _ _ => hm
  mega_steps := by simp [scrCfg]
  block_steps := hs
  dom_bb := by
    intro st p x hx j hj
    obtain rfl : j = 0 := by simp only [scrCfg] at hj; omega
    simpa [scrCfg, InIvl] using hx
  dom_ext := by
    intro st p x hx j hj
    obtain rfl : j = 0 := by simp only [scrCfg] at hj; omega
    simpa [scrCfg, InIvl, RunCfg.extBeg, RunCfg.extEnd, RunCfg.rankEnd, RunCfg.leftExt, RunCfg.rightExt] using hx
  ext_ranks := by
    intro j hj left hl
    obtain rfl : j = 0 := by simp only [scrCfg] at hj; omega
    exfalso
    revert hl
    simp [scrCfg, RunCfg.exteriorExists, RunCfg.extBeg, RunCfg.extEnd, RunCfg.rankEnd, RunCfg.leftExt, RunCfg.rightExt]

theorem scrCfg_sized (rank micro st : Int) (hm : 4 ∣ micro) : (scrCfg rank micro st).Sized where
  block := fun _ _ => Or.inr (le_refl _)
  micro := fun _ _ => Or.inl hm
  first := fun _ _ _ _ => le_refl _
  last := fun _ _ _ _ => by simp [scrCfg, RunCfg.rankEnd]

/-- Storage of a vectorized var of one dim. -/
def scrGeom : Geom where
  dims := [{ kind := .domain, solnVL := 4, varVL := 4, isInner := true }]
  isVec := true
  layout := [0]
  foldPosns := [0]
  foldLens := [4]
  vlenGt1 := true
  allowAddlPad := true

theorem scrGeom_constructed : scrGeom.Constructed where
  stepFirst := by decide
  fresh := by
    intro d hd
    simp only [scrGeom, List.mem_cons, List.not_mem_nil, or_false] at hd
    subst hd
    exact ⟨.domain, 4, 4, true, rfl⟩
  vlPos := by decide
  vlDomain := by decide
  vlVar := by decide
  noDirty := rfl
  layoutPerm := by decide
  foldNodup := by decide
  foldLens := by decide
  foldAll := by
    intro _ j
    rcases j with _ | j
    · decide
    · simp [scrGeom]
  foldNone := by decide

/-- A scratch var with halo `h`. -/
def scrVar (h : Int) : KVar Int :=
  match (scrGeom.resize false).bind fun g => runSettings (V := Int) ⟨g, none⟩ [(0, .halo, h)] with
  | some v => ⟨v, fun j => if j = 0 then some 0 else none, false, false, true⟩
  | none => ⟨⟨scrGeom, none⟩, fun _ => none, false, false, true⟩

theorem scrVar_ok (h : Int) (rank micro st : Int)
    (hv : (((scrGeom.resize false).bind fun g => runSettings (V := Int) ⟨g, none⟩ [(0, .halo, h)]).map fun v =>
      v.g.dims.map fun d => (d.kind, d.solnVL)) = some [(.domain, 4)]) : (scrVar h).Ok (scrCfg rank micro st) := by
  unfold scrVar
  cases e : scrGeom.resize false with
  | none => rw [e] at hv; simp at hv
  | some g =>
    rw [e] at hv
    simp only [Option.bind_some] at hv ⊢
    cases e2 : runSettings (V := Int) ⟨g, none⟩ [(0, .halo, h)] with
    | none => rw [e2] at hv; simp at hv
    | some v =>
      rw [e2] at hv
      simp only [Option.map_some, Option.some.injEq] at hv ⊢
      have hr : Reachable v := runSettings_reach (.construct _ _ scrGeom_constructed e) e2
      have hvl : v.g.vlenGt1 = true := by
        rw [(runSettings_core e2).2.1, (resize_core e).2.1]; rfl
      rcases hds : v.g.dims with _ | ⟨d, _ | ⟨d2, ds⟩⟩
      · rw [hds] at hv; simp at hv
      · rw [hds] at hv
        simp only [List.map_cons, List.map_nil, List.cons.injEq, Prod.mk.injEq, and_true] at hv
        refine ⟨hr, ?_, ?_, ?_, fun _ _ _ => hvl⟩
        · intro i hi j hj p _ _
          simp only [scrCfg] at hi hj; omega
        · intro j hj p hp
          obtain rfl : j = 0 := by simp only [scrCfg] at hj; omega
          simp only [if_true, Option.some.injEq] at hp
          subst hp
          exact ⟨d, by rw [hds]; rfl, hv.1, hv.2⟩
        · intro p d' hd' _
          rw [hds] at hd'
          rcases p with _ | p
          · exact ⟨0, by simp [scrCfg], rfl⟩
          · simp at hd'
      · rw [hds] at hv; simp at hv

/-- A scratch var after it is moved. -/
def scrMoved (c : RunCfg) (h w : Int) (mb : Box) : Option (KVar Int) :=
  ((scrVar h).setScratch c (fun _ => w) (fun _ => w)).bind fun k => KVar.moveTo c mb k

theorem scrMoved_at {c : RunCfg} {h w : Int} {mb : Box} {k' : KVar Int} (e : scrMoved c h w mb = some k') :
    ScratchAt c (fun _ => w) (fun _ => w) mb (scrVar h) k' := by
  unfold scrMoved at e
  obtain ⟨k1, h1, h2⟩ := Option.bind_eq_some_iff.1 e
  exact ⟨k1, k1.v.mem, h1, h2⟩

/-- C68 fails if the steps of a block shift the micro-blocks by more than the size of the domain: with 32 steps on 16 points, a
micro-block gets all 16 points, but a scratch var has storage for 12 elements, and the point 15 of the micro-block is not in it. -/
theorem C68_long_shift_wrong : (scrCfg 16 4 32).Ok ∧ (scrCfg 16 4 32).Sized ∧
    (∃ tr, (scrCfg 16 4 32).microRuns 0 31 tr ∧ (31, 0, [(0, 16)]) ∈ tr) ∧
    ∃ k', ScratchAt (scrCfg 16 4 32) (fun _ => 0) (fun _ => 0) [(0, 16)] (scrVar 0) k' ∧
      PointOf (scrCfg 16 4 32) k' (adjustScratchSpan (fun _ => 0) (fun _ => 0) [(0, 16)]) [15] ∧ ¬ InStorage k' [15] := by
  refine ⟨scrCfg_ok _ _ _ (by decide) (by decide) (by decide), scrCfg_sized _ _ _ (by decide),
    ⟨_, RunCfg.runSolutionM_trace _ 0 31, by decide +kernel⟩, ?_⟩
  have e : (scrMoved (scrCfg 16 4 32) 0 0 [(0, 16)]).map (fun k => (k.posn 0, k.v.g.dims.map DimG.kind, k.v.g.addrOf [15], k.v.g.numReals)) =
      some (some 0, [.domain], .ok 19, 12) := by decide +kernel
  obtain ⟨k', h1, h2⟩ := Option.map_eq_some_iff.1 e
  simp only [Prod.mk.injEq] at h2
  obtain ⟨h3, h4, h5, h6⟩ := h2
  refine ⟨k', scrMoved_at h1, ⟨by simpa using (congrArg List.length h4).symm, ?_, ?_⟩, ?_⟩
  · intro j hj p hp
    obtain rfl : j = 0 := by simp only [scrCfg] at hj; omega
    rw [h3] at hp; cases hp
    decide
  · intro p d hd hk
    have := congrArg (·[p]?) h4
    simp only [List.getElem?_map, hd, Option.map_some] at this
    rcases p with _ | p
    · simp [hk] at this
    · simp at this
  · rintro ⟨a, ha, hb, hc⟩
    rw [h5] at ha; cases ha
    omega

/-- C68 fails for micro-blocks that do not begin on a vector: with 4 steps per block, micro-blocks begin at 11; evaluating a part with a
write halo of 2, which reads the scratch var at offset 1, touches element 28 of the scratch var, which has halo 3 and elements 0 to 27.
The value is read in a lane that is not used. -/
theorem C68_misaligned_wrong : (scrCfg 48 12 4).Ok ∧ (scrCfg 48 12 4).Sized ∧ (scrCfg 48 12 4).ShiftsInRank ∧
    (∃ tr, (scrCfg 48 12 4).microRuns 0 3 tr ∧ (1, 0, [(11, 23)]) ∈ tr) ∧
    ∃ k', ScratchAt (scrCfg 48 12 4) (fun _ => 3) (fun _ => 3) [(11, 23)] (scrVar 3) k' ∧
      (∀ (p : Nat) (d : DimG), k'.v.g.dims[p]? = some d → 2 - 1 ≤ d.lHalo ∧ 2 + 1 ≤ d.rHalo) ∧
      TouchesVar (scrCfg 48 12 4) k' (adjustScratchSpan (fun _ => 2) (fun _ => 2) [(11, 23)]) (fun _ => 1) [28] ∧ ¬ InStorage k' [28] := by
  refine ⟨scrCfg_ok _ _ _ (by decide) (by decide) (by decide), scrCfg_sized _ _ _ (by decide), ?_,
    ⟨_, RunCfg.runSolutionM_trace _ 0 3, by decide +kernel⟩, ?_⟩
  · intro j hj _ _
    obtain rfl : j = 0 := by simp only [scrCfg] at hj; omega
    decide +kernel
  have e : (scrMoved (scrCfg 48 12 4) 3 3 [(11, 23)]).map
      (fun k => (k.posn 0, k.v.g.dims.map (fun d => (d.kind, d.lHalo, d.rHalo)), k.v.g.addrOf [28], k.v.g.numReals)) =
      some (some 0, [(.domain, 3, 3)], .ok 28, 28) := by decide +kernel
  obtain ⟨k', h1, h2⟩ := Option.map_eq_some_iff.1 e
  simp only [Prod.mk.injEq] at h2
  obtain ⟨h3, h4, h5, h6⟩ := h2
  have hd0 : ∀ (p : Nat) (d : DimG), k'.v.g.dims[p]? = some d → d.kind = .domain ∧ d.lHalo = 3 ∧ d.rHalo = 3 := by
    intro p d hd
    have := congrArg (·[p]?) h4
    simp only [List.getElem?_map, hd, Option.map_some] at this
    rcases p with _ | p
    · simpa using this
    · simp at this
  refine ⟨k', scrMoved_at h1, ?_, ⟨by simpa using (congrArg List.length h4).symm, ?_, ?_⟩, ?_⟩
  · intro p d hd
    have := hd0 p d hd
    omega
  · intro j hj p hp
    obtain rfl : j = 0 := by simp only [scrCfg] at hj; omega
    rw [h3] at hp; cases hp
    exact ⟨6, 3, ⟨0, by decide, by decide, by decide⟩, by decide, by decide⟩
  · intro p d hd hk
    rw [(hd0 p d hd).1] at hk; cases hk
  · rintro ⟨a, ha, hb, hc⟩
    rw [h5] at ha; cases ha
    omega

-- The hypotheses of `C68_micro_block_width` and `C68_written` in a run with temporal blocks: micro-blocks of up to 12 points, and the point
-- 25 = 23 + 3 - 1 of the extended micro-block is in the storage.
example : ∃ k', ScratchAt (scrCfg 48 12 4) (fun _ => 3) (fun _ => 3) [(11, 23)] (scrVar 3) k' ∧ InStorage k' [25] := by
  have e : (scrMoved (scrCfg 48 12 4) 3 3 [(11, 23)]).map (fun k => (k.posn 0, k.v.g.dims.map (fun d => (d.kind, d.lHalo, d.rHalo)), k.v.g.api)) =
      some (some 0, [(.domain, 3, 3)], [⟨false, 0, 27, 28⟩]) := by decide +kernel
  obtain ⟨k', h1, h2⟩ := Option.map_eq_some_iff.1 e
  simp only [Prod.mk.injEq] at h2
  obtain ⟨h3, h4, h5⟩ := h2
  have hd0 : ∀ (p : Nat) (d : DimG), k'.v.g.dims[p]? = some d → d.kind = .domain ∧ d.lHalo = 3 ∧ d.rHalo = 3 := by
    intro p d hd
    have := congrArg (·[p]?) h4
    simp only [List.getElem?_map, hd, Option.map_some] at this
    rcases p with _ | p
    · simpa using this
    · simp at this
  refine ⟨k', scrMoved_at h1, C68_written (scrVar_ok 3 48 12 4 (by decide +kernel)) (scrMoved_at h1) (by rw [h5]; unfold StepsAlloc; decide)
    (fun j hj => ?_) (el := fun _ => 3) (er := fun _ => 3) (fun j hj p d hp hd => ?_) ⟨?_, ?_, ?_⟩⟩
  · refine (C68_micro_block_width (scrCfg_ok 48 12 4 (by decide) (by decide) (by decide)) (scrCfg_sized 48 12 4 (by decide)) ?_ 0 3 _
      (RunCfg.runSolutionM_trace _ 0 3) (1, 0, [(11, 23)]) (by decide +kernel) j hj).2
    intro j hj _ _
    obtain rfl : j = 0 := by simp only [scrCfg] at hj; omega
    decide +kernel
  · have := hd0 p d hd; omega
  · simpa using (congrArg List.length h4).symm
  · intro j hj p hp
    obtain rfl : j = 0 := by simp only [scrCfg] at hj; omega
    rw [h3] at hp; cases hp
    decide
  · intro p d hd hk
    rw [(hd0 p d hd).1] at hk; cases hk

-- The hypotheses on runs of `C68_scratch_reads_partial` and `C68_reads_partial`: no temporal blocks, micro-blocks (0, 12), (12, 24), …
example : (scrCfg 48 12 0).Ok ∧ (scrCfg 48 12 0).Sized ∧ (scrCfg 48 12 0).ShiftsInRank ∧ (scrCfg 48 12 0).OnVectors ∧
    ∃ tr, (scrCfg 48 12 0).microRuns 0 1 tr ∧ (1, 0, [(12, 24)]) ∈ tr := by
  refine ⟨scrCfg_ok _ _ _ (by decide) (by decide) (by decide), scrCfg_sized _ _ _ (by decide), ?_, ⟨rfl, ?_, ?_, ?_⟩,
    ⟨_, RunCfg.runSolutionM_trace _ 0 1, by decide +kernel⟩⟩
  · intro j hj _ _
    obtain rfl : j = 0 := by simp only [scrCfg] at hj; omega
    decide +kernel
  · exact fun _ _ => Or.inr (le_refl _)
  · exact fun _ _ _ => by simp [scrCfg]
  · exact fun _ _ => by simp [scrCfg]

theorem scrVar_halos (S : Comp.HSys) (v : Nat) (hl : (S.calcHalos v).size "x" true ≤ 3) (hr : (S.calcHalos v).size "x" false ≤ 3) :
    HasHalos (scrCfg 48 12 0) S (fun _ => "x") ["x"] v (scrVar 3) := by
  have e : (scrVar 3).v.g.dims.map (fun d => (d.lHalo, d.rHalo)) = [(3, 3)] := by decide +kernel
  intro j hj p d hp hd
  have := congrArg (·[p]?) e
  simp only [List.getElem?_map, hd, Option.map_some] at this
  rcases p with _ | p
  · simp only [List.getElem?_cons_zero, Option.some.injEq, Prod.mk.injEq] at this
    exact ⟨by simp, by rw [this.1]; exact hl, by rw [this.2]; exact hr⟩
  · simp at this

-- The hypotheses of `C68_scratch_reads_partial` for `a(x) = b(x-1) + u(t,x+3)` of `exChain`: `a` is needed at 11 to 25 for the micro-block
-- (12, 24), so vectors from 8 to 27 are evaluated, and `b` is read from index 7.
example : ∃ k', ScratchAt (scrCfg 48 12 0) (fun _ => 3) (fun _ => 3) [(12, 24)] (scrVar 3) k' ∧ InStorage k' [7] := by
  have e : (scrMoved (scrCfg 48 12 0) 3 3 [(12, 24)]).map (fun k => (k.posn 0, k.v.g.dims.map DimG.kind, k.v.g.api)) =
      some (some 0, [.domain], [⟨false, 4, 31, 28⟩]) := by decide +kernel
  obtain ⟨k', h1, h2⟩ := Option.map_eq_some_iff.1 e
  simp only [Prod.mk.injEq] at h2
  obtain ⟨h3, h4, h5⟩ := h2
  refine ⟨k', scrMoved_at h1, ?_⟩
  refine C68_scratch_reads_partial (scrCfg_ok 48 12 0 (by decide) (by decide) (by decide)) (scrCfg_sized 48 12 0 (by decide)) ?_
    ⟨rfl, fun _ _ => Or.inr (le_refl _), fun _ _ _ => by simp [scrCfg], fun _ _ => by simp [scrCfg]⟩
    (RunCfg.runSolutionM_trace _ 0 1) (x := (1, 0, [(12, 24)])) (by decide +kernel) exChain_staged exChain_one
    (s := ⟨1, true, [[⟨⟨1, none, [("x", 0)]⟩, [⟨2, none, [("x", -1)]⟩, ⟨0, some 0, [("x", 3)]⟩]⟩]]⟩) (by decide) rfl (P := _)
    List.mem_cons_self
    (st := ⟨0, false, [[⟨⟨0, some 1, [("x", 0)]⟩, [⟨1, none, [("x", -1)]⟩, ⟨1, none, [("x", 2)]⟩]⟩]]⟩) (by decide) rfl (by decide)
    List.mem_cons_self (q := ⟨2, none, [("x", -1)]⟩) (by decide) (names := fun _ => "x") (scrVar_ok 3 48 12 0 (by decide +kernel))
    (scrVar_halos exChain 2 (by decide +kernel) (by decide +kernel)) (scrMoved_at h1) (by rw [h5]; unfold StepsAlloc; decide) ⟨?_, ?_, ?_⟩
  · intro j hj _ _
    obtain rfl : j = 0 := by simp only [scrCfg] at hj; omega
    decide +kernel
  · simpa using (congrArg List.length h4).symm
  · intro j hj p hp
    obtain rfl : j = 0 := by simp only [scrCfg] at hj; omega
    rw [h3] at hp; cases hp
    exact ⟨2, 0, ⟨3, by decide, by decide +kernel, by decide +kernel⟩, by decide, by decide⟩
  · intro p d hd hk
    have := congrArg (·[p]?) h4
    simp only [List.getElem?_map, hd, Option.map_some] at this
    rcases p with _ | p
    · simp [hk] at this
    · simp at this

end Yask
