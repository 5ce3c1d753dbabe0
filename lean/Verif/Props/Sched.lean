import Verif.Sched.RefLemmas

/-!
# C01-C06, C08, C09: tiling, ordering and schedule equivalence

The model is `Verif.Sched.SchedModel`; the vocabulary of the statements (`Ok`, `Required`, `MustPrecede`,
`Stencil`, `InSteps`, ...) is in `Verif.Sched.SchedSpec`.  A trace is the list of point evaluations of
one execution, in the order in which they happen; a call has one trace per thread interleaving.
-/

namespace Yask
open Spec RunCfg

/-! ## A concrete configuration, used to show that hypotheses are met -/

/-- One dimension of a single rank starting at index 0. -/
def demoDim (fold halo rank mega block micro : Int) : DimIn :=
  { fold := fold, maxHalo := halo, rankBeg := 0, rankSize := rank, megaSize := mega, blockSize := block
    microSize := micro, nranks := 1, firstRank := true, lastRank := true, intBeg := 0, intEnd := rank }

/-- `nst` stages of one part each, valid on the whole rank. -/
def demoCfg (nd : Nat) (d : DimIn) (nst : Nat) (megaSteps blockSteps : Int) : RunCfg :=
  { nd := nd, dim := fun _ => d, nst := nst, megaSteps := megaSteps, blockSteps := blockSteps
    roundTb := false, overlap := false, stageBB := fun _ _ => (0, d.rankSize), nparts := fun _ => 1
    dom := fun _ _ x => decide (∀ j < nd, InIvl (x.getD j 0) (0, d.rankSize)), stepOk := fun _ _ _ => true }

theorem demoCfg_ok (nd : Nat) (fold halo rank mega block micro : Int) (nst : Nat) (ms bs : Int)
    (h : nd ≤ 8 ∧ 0 < fold ∧ 0 ≤ halo ∧ 0 < rank ∧ 0 < mega ∧ fold ≤ block ∧ 0 < micro ∧ 0 ≤ ms ∧ 0 ≤ bs) :
    (demoCfg nd (demoDim fold halo rank mega block micro) nst ms bs).Ok where
  nd_le := h.1
  fold_pos _ _ := h.2.1
  halo_nonneg _ _ := h.2.2.1
  rank_pos _ _ := h.2.2.2.1
  mega_pos _ _ := h.2.2.2.2.1
  block_pos _ _ := lt_of_lt_of_le h.2.1 h.2.2.2.2.2.1
  block_ge _ _ _ := h.2.2.2.2.2.1
  micro_pos _ _ := h.2.2.2.2.2.2.1
  mega_steps := h.2.2.2.2.2.2.2.1
  block_steps := h.2.2.2.2.2.2.2.2
  dom_bb st p x hx j hj := of_decide_eq_true hx j hj
  dom_ext st p x hx j hj := by
    have := of_decide_eq_true hx j hj
    simpa [extBeg, extEnd, leftExt, rightExt, rankEnd, demoCfg, demoDim] using this
  ext_ranks j _ left hl := by
    cases left <;> simp [exteriorExists, extBeg, extEnd, leftExt, rightExt, rankEnd, demoCfg, demoDim] at hl

theorem demoCfg_single (nd : Nat) (fold halo rank mega block micro : Int) (nst : Nat) (ms bs : Int) :
    (demoCfg nd (demoDim fold halo rank mega block micro) nst ms bs).SingleRank :=
  fun _ _ => ⟨rfl, rfl⟩

/-! ## C01 -/

/-- C01: the contents of memory after a sequence of evaluations depend only on the set of evaluations:
any two sequences that contain the same evaluations once each, and that both keep the semantic order
between evaluations within the halo distance of each other, compute the same values. -/
theorem C01_order_independence (c : RunCfg) (h : c.Ok) {Buf Val : Type*} (S : Stencil c Buf Val)
    (dir : Int) (hdir : dir = 1 ∨ dir = -1) (t1 t2 : List Task) (hn1 : t1.Nodup) (hn2 : t2.Nodup)
    (hm : ∀ a, a ∈ t1 ↔ a ∈ t2)
    (ho1 : t1.Pairwise fun a b => ¬ c.MustPrecede dir b a)
    (ho2 : t2.Pairwise fun a b => ¬ c.MustPrecede dir b a) (m : Buf × List Int → Val) :
    S.sem.exec t1 m = S.sem.exec t2 m :=
  exec_eq h S hdir hn1 hn2 hm ho1 ho2 m

/-- C01, on one rank: in every legal configuration (any tile sizes, wave-front and temporal blocking, any
stages and conditions), for every stencil, every first and last step, every initial memory and every
interleaving of the threads, `run_solution` leaves the same values as `run_ref`. The configurations
excluded are those with temporal blocking and a short remainder block, see `C05_short_remainder_race`. -/
theorem C01_run_equals_reference_partial (c : RunCfg) (h : c.Ok) (hsr : c.SingleRank)
    (hrem : c.tbSteps = 0 ∨ c.NoShortRemainder) {Buf Val : Type*} (S : Stencil c Buf Val)
    (first last : Int) (t : List Task) (ht : c.runSolution first last t) (m : Buf × List Int → Val) :
    S.sem.exec t m = S.sem.exec (c.runRef first last) m := by
  obtain ⟨g1, g2, g3⟩ := good_runSolution (en := true) h (fun _ => hrem) first last t ht
  obtain ⟨r1, r2, r3⟩ := runRef_spec c first last
  refine exec_eq h S (stepDir_cases first last) g1 r1 (fun a => ?_) (g3.imp fun h => h rfl)
    (r3.imp fun h => h rfl) m
  refine (g2 a).trans ((required_batch_iff c first last a).trans (Iff.trans ?_ (r2 a).symm))
  unfold InRef
  refine exists_congr fun i => and_congr_right fun _ => and_congr_right fun _ => and_congr_right fun _ =>
    and_congr_right fun _ => forall_congr' fun j => ?_
  constructor
  · intro hh hj
    have := hh hj
    rw [evalBeg_single hsr hj, evalEnd_single hsr hj] at this
    exact this
  · intro hh hj
    rw [evalBeg_single hsr hj, evalEnd_single hsr hj]
    exact hh hj

/-- C01, on any rank: all executions of `run_solution` leave the same values, whatever the interleaving. -/
theorem C01_deterministic_partial (c : RunCfg) (h : c.Ok)
    (hrem : c.tbSteps = 0 ∨ c.NoShortRemainder) {Buf Val : Type*} (S : Stencil c Buf Val)
    (first last : Int) (t t' : List Task) (ht : c.runSolution first last t)
    (ht' : c.runSolution first last t') (m : Buf × List Int → Val) :
    S.sem.exec t m = S.sem.exec t' m := by
  obtain ⟨g1, g2, g3⟩ := good_runSolution (en := true) h (fun _ => hrem) first last t ht
  obtain ⟨r1, r2, r3⟩ := good_runSolution (en := true) h (fun _ => hrem) first last t' ht'
  exact exec_eq h S (stepDir_cases first last) g1 r1 (fun a => (g2 a).trans (r2 a).symm)
    (g3.imp fun h => h rfl) (r3.imp fun h => h rfl) m

/-- The same stencil problem: same dimensions, halos, domain, stages, parts and conditions; only tile
sizes, numbers of steps per tile and other tuning settings differ. -/
structure SameProblem (c c' : RunCfg) : Prop where
  nd : c'.nd = c.nd
  nst : c'.nst = c.nst
  nparts : c'.nparts = c.nparts
  dom : c'.dom = c.dom
  stepOk : c'.stepOk = c.stepOk
  halo : ∀ j, (c'.dim j).maxHalo = (c.dim j).maxHalo
  rankBeg : ∀ j, (c'.dim j).rankBeg = (c.dim j).rankBeg
  rankSize : ∀ j, (c'.dim j).rankSize = (c.dim j).rankSize

/-- C01: on one rank, the values computed by `run_solution` do not depend on the tile sizes, the number of
steps per mega-block and block or the other tuning settings. -/
theorem C01_tuning_irrelevant_partial (c c' : RunCfg) (h : c.Ok) (h' : c'.Ok) (hp : SameProblem c c')
    (hsr : c.SingleRank) (hsr' : c'.SingleRank)
    (hrem : c.tbSteps = 0 ∨ c.NoShortRemainder) (hrem' : c'.tbSteps = 0 ∨ c'.NoShortRemainder)
    {Buf Val : Type*} (S : Stencil c Buf Val) (first last : Int) (t t' : List Task)
    (ht : c.runSolution first last t) (ht' : c'.runSolution first last t') (m : Buf × List Int → Val) :
    S.sem.exec t m = S.sem.exec t' m := by
  let S' : Stencil c' Buf Val :=
    { writes := S.writes, reads := S.reads, value := S.value
      reads_near := fun a β q hr j hj => by
        have := S.reads_near a β q hr j (hp.nd ▸ hj)
        show _ ≤ (c'.dim j).maxHalo ∧ _ ≤ (c'.dim j).maxHalo
        rw [hp.halo j]; exact this
      value_local := S.value_local, indep := S.indep }
  have e : c'.runRef first last = c.runRef first last := by
    unfold runRef rankEnd
    simp only [hp.nd, hp.nst, hp.nparts, hp.dom, hp.stepOk, hp.rankBeg, hp.rankSize]
  rw [C01_run_equals_reference_partial c h hsr hrem S first last t ht m, ← e]
  exact (C01_run_equals_reference_partial c' h' hsr' hrem' S' first last t' ht' m).symm

/-- The executions the theorems above speak about exist: in particular the one with a single thread. -/
theorem C01_executions_exist (c : RunCfg) (first last : Int) : ∃ t, c.runSolution first last t :=
  ⟨_, c.runSolutionL_trace first last⟩

-- Two dimensions, 2 stages, halo 1, wave-fronts of 3 steps with temporal blocks of 2 steps.
example : ∃ c : RunCfg, c.Ok ∧ c.SingleRank ∧ (c.tbSteps = 0 ∨ c.NoShortRemainder) ∧ c.tbSteps = 2 ∧
    c.wfSteps = 3 ∧ c.wfAngle 0 = 1 ∧ c.tbAngle 0 = 1 ∧ c.nst = 2 :=
  ⟨demoCfg 2 (demoDim 1 1 100 50 10 5) 2 3 2,
    demoCfg_ok _ _ _ _ _ _ _ _ _ _ (by decide), demoCfg_single _ _ _ _ _ _ _ _ _ _,
    Or.inr (by intro j hj; exact Or.inl (by show (50 : Int) < 100; decide)), by decide +kernel, by decide, by decide, by decide,
    rfl⟩

-- A stencil that meets the requirements: every stage writes its own buffer from its left neighbour's and
-- its own values in the buffer of the stage before.
example : ∃ S : Stencil (demoCfg 1 (demoDim 1 1 100 50 10 5) 2 3 2) Int Int,
    ∃ a, S.writes a 1 ∧ S.reads a 0 [4] ∧ a.pt = [5] := by
  refine ⟨{ writes := fun a β => β = a.step * 2 + a.stage + 1 ∧ a.part = 0 ∧ a.pt.length = 1
            reads := fun a β q => β = a.step * 2 + a.stage ∧ q = [a.pt.getD 0 0 - 1]
            value := fun a m _ => m (a.step * 2 + a.stage, [a.pt.getD 0 0 - 1]) + 1
            reads_near := ?_, value_local := ?_, indep := ?_ }, ⟨0, 0, 0, [5]⟩, ?_⟩
  · rintro a β q ⟨_, rfl⟩ j hj
    obtain rfl : j = 0 := by simp only [demoCfg] at hj; omega
    simp [demoCfg, demoDim]
  · rintro a m m' β h
    simp only [h _ _ ⟨rfl, rfl⟩]
  · rintro ⟨s1, g1, p1, x1⟩ ⟨s2, g2, p2, x2⟩ hne h1 h2 β ⟨w1, w2, w3⟩
    dsimp only at *
    subst h1 h2
    refine ⟨fun h => by omega, ?_⟩
    rintro ⟨⟨_, v2, v3⟩, rfl⟩
    exact hne (by rw [w2, v2])
  · refine ⟨⟨?_, ?_, ?_⟩, ⟨?_, ?_⟩, rfl⟩ <;> decide

/-! ## C02 and C03: wave-front tiling -/

/-- C02: without temporal blocking, in every execution of one wave-front of `nt` steps (at most the number
of steps per mega-block), the evaluations performed are exactly the required ones, each exactly once:
every part at every step and every point of the rank where it is valid, and of the extensions, which
shrink by the angle with each (step, stage) pair. -/
theorem C02_wavefront_coverage (c : RunCfg) (h : c.Ok) (_htb : c.tbSteps = 0) (dir t0 : Int) (nt : Nat)
    (hdir : dir = 1 ∨ dir = -1) (hnt : (nt : Int) ≤ max c.wfSteps 1) (t : List Task)
    (ht : c.runBatch dir t0 nt t) : ∀ a, t.count a = 1 ∧ c.Required dir t0 nt a ∨
      t.count a = 0 ∧ ¬ c.Required dir t0 nt a := by
  obtain ⟨g1, g2, _⟩ := good_runBatch (en := false) h (fun h => by simp at h) hdir t0 nt hnt t ht
  intro a
  by_cases ha : c.Required dir t0 nt a
  · exact Or.inl ⟨List.count_eq_one_of_mem g1 ((g2 a).2 ha), ha⟩
  · exact Or.inr ⟨List.count_eq_zero.2 fun hm => ha ((g2 a).1 hm), ha⟩

/-- C02: on a single rank there is no extension: the points are those of the rank. -/
theorem C02_single_rank (c : RunCfg) (hsr : c.SingleRank) (dir t0 : Int) (nt : Nat) (a : Task) :
    c.Required dir t0 nt a ↔ ∃ i < nt, a.step = t0 + dir * i ∧ a.stage < c.nst ∧
      a.part < c.nparts a.stage ∧ c.stepOk a.stage a.part a.step = true ∧
      c.dom a.stage a.part a.pt = true ∧ a.pt.length = c.nd ∧
      ∀ j < c.nd, (c.dim j).rankBeg ≤ a.pt.getD j 0 ∧
        a.pt.getD j 0 < (c.dim j).rankBeg + (c.dim j).rankSize := by
  unfold Required
  refine exists_congr fun i => and_congr_right fun _ => and_congr_right fun _ => and_congr_right fun _ =>
    and_congr_right fun _ => and_congr_right fun _ => and_congr_right fun _ => and_congr_right fun _ =>
    forall_congr' fun j => ?_
  constructor
  · intro hh hj
    have := hh hj
    rw [evalBeg_single hsr hj, evalEnd_single hsr hj] at this
    exact this
  · intro hh hj
    rw [evalBeg_single hsr hj, evalEnd_single hsr hj]
    exact hh hj

/-- C02: on any rank, the required region always contains the rank itself. -/
theorem C02_contains_rank (c : RunCfg) (h : c.Ok) (nt i stage : Nat) (hnt : (nt : Int) ≤ max c.wfSteps 1)
    (hi : i < nt) (hst : stage < c.nst) (j : Nat) (hj : j < c.nd) :
    c.evalBeg j (i * c.nst + stage) ≤ (c.dim j).rankBeg ∧
      (c.dim j).rankBeg + (c.dim j).rankSize ≤ c.evalEnd j (i * c.nst + stage) := by
  have hw := wfSteps_nonneg h
  have ha := wfAngle_nonneg h hj
  have hle : 0 < c.wfSteps → ((i : Int) * c.nst + stage) ≤ c.numWfShifts := by
    intro hpos
    have hn : (0 : Int) < c.nst := by omega
    unfold numWfShifts
    rw [if_pos hpos, if_pos (mul_pos hn hpos)]
    have h1 : (i : Int) + 1 ≤ c.wfSteps := by omega
    have h2 := mul_le_mul_of_nonneg_left h1 hn.le
    have e : (c.nst : Int) * (i + 1) = i * c.nst + c.nst := by ring
    omega
  have hz : c.wfSteps = 0 → c.wfShiftPts j = 0 := by
    intro hz
    unfold wfShiftPts numWfShifts
    simp [hz]
  have key : c.wfShiftPts j ≠ 0 → c.wfAngle j * (i * c.nst + stage) ≤ c.wfShiftPts j := by
    intro hne
    have hpos : 0 < c.wfSteps := by
      rcases hw.lt_or_eq with h | h
      · exact h
      · exact absurd (hz h.symm) hne
    exact mul_le_mul_of_nonneg_left (hle hpos) ha
  unfold evalBeg evalEnd leftExt rightExt
  constructor
  · by_cases hf : (c.dim j).firstRank = true
    · simp [hf]
    · simp only [hf, Bool.false_eq_true, if_false]
      split
      · rename_i hne; have := key hne; omega
      · omega
  · by_cases hf : (c.dim j).lastRank = true
    · simp [hf]
    · simp only [hf, Bool.false_eq_true, if_false]
      split
      · rename_i hne; have := key hne; omega
      · omega

example : ∃ c : RunCfg, c.Ok ∧ c.tbSteps = 0 ∧ c.wfSteps = 3 ∧
    c.Required 1 0 3 ⟨2, 1, 0, [7, 99]⟩ ∧ ¬ c.Required 1 0 3 ⟨2, 1, 0, [7, 100]⟩ := by
  refine ⟨demoCfg 2 (demoDim 4 1 100 50 16 8) 2 3 0,
    demoCfg_ok _ _ _ _ _ _ _ _ _ _ (by decide), by decide, by decide, ?_, ?_⟩
  · rw [C02_single_rank _ (demoCfg_single _ _ _ _ _ _ _ _ _ _)]
    exact ⟨2, by decide, by decide, by decide, by decide, rfl, by decide, rfl, by decide⟩
  · rw [C02_single_rank _ (demoCfg_single _ _ _ _ _ _ _ _ _ _)]
    rintro ⟨i, _, _, _, _, _, _, _, hh⟩
    have := (hh 1 (by decide)).2
    revert this; decide

/-- C03: without temporal blocking, no execution of `run_solution` performs an evaluation before another
one that must precede it, that is, one whose result it may read or whose input it may overwrite. -/
theorem C03_wavefront_order (c : RunCfg) (h : c.Ok) (htb : c.tbSteps = 0) (first last : Int)
    (t : List Task) (ht : c.runSolution first last t) :
    t.Pairwise fun a b => ¬ c.MustPrecede (stepDir first last) b a :=
  (good_runSolution (en := true) h (fun _ => Or.inl htb) first last t ht).2.2.imp fun h => h rfl

/-- C03, in terms of positions: the `x`-th evaluation comes after every evaluation it depends on. -/
theorem C03_wavefront_positions (c : RunCfg) (h : c.Ok) (htb : c.tbSteps = 0) (first last : Int)
    (t : List Task) (ht : c.runSolution first last t) (x y : Nat) (a b : Task) (hx : t[x]? = some a)
    (hy : t[y]? = some b) (hab : c.MustPrecede (stepDir first last) a b) : x < y := by
  have hp := C03_wavefront_order c h htb first last t ht
  obtain ⟨hx', rfl⟩ := List.getElem?_eq_some_iff.1 hx
  obtain ⟨hy', rfl⟩ := List.getElem?_eq_some_iff.1 hy
  rcases lt_trichotomy x y with hlt | rfl | hlt
  · exact hlt
  · have := hab.1
    unfold Task.Before at this
    omega
  · exact absurd hab (List.pairwise_iff_getElem.1 hp y x hy' hx' hlt)

/-- C03: what an evaluation reads has been computed on the same rank, if it is a result of the same
wave-front: on a side with a neighbour rank, the points within the halo of an evaluated point were
themselves evaluated at every earlier (step, stage) pair of the wave-front. -/
theorem C03_extension_suffices (c : RunCfg) (h : c.Ok) (j : Nat) (hj : j < c.nd)
    (hr : 1 < (c.dim j).nranks) (s s' x y : Int) (hs : s' < s) (hs0 : 0 ≤ s') (hs1 : s ≤ c.numWfShifts)
    (hxy : x - y ≤ (c.dim j).maxHalo) (hyx : y - x ≤ (c.dim j).maxHalo) :
    ((c.dim j).firstRank = false → c.evalBeg j s ≤ x → c.evalBeg j s' ≤ y) ∧
      ((c.dim j).lastRank = false → x < c.evalEnd j s → y < c.evalEnd j s') := by
  have hang : (c.dim j).maxHalo ≤ c.wfAngle j := by
    unfold wfAngle
    rw [if_pos (Or.inr hr)]
    exact (roundUp_spec (h.halo_nonneg j hj) (h.fold_pos j hj)).1
  have ha := wfAngle_nonneg h hj
  have h1 : c.wfAngle j * s' + c.wfAngle j ≤ c.wfAngle j * s := by
    have := mul_le_mul_of_nonneg_left (by omega : s' + 1 ≤ s) ha
    have e : c.wfAngle j * (s' + 1) = c.wfAngle j * s' + c.wfAngle j := by ring
    omega
  have h2 : c.wfAngle j * s ≤ c.wfShiftPts j := mul_le_mul_of_nonneg_left hs1 ha
  have h3 := mul_nonneg ha hs0
  unfold evalBeg evalEnd leftExt rightExt
  constructor
  · intro hf hx
    simp only [hf, Bool.false_eq_true, if_false] at hx ⊢
    split at hx
    · rename_i hne; rw [if_pos hne]; omega
    · rename_i hne; rw [if_neg hne]; omega
  · intro hf hx
    simp only [hf, Bool.false_eq_true, if_false] at hx ⊢
    split at hx
    · rename_i hne; rw [if_pos hne]; omega
    · rename_i hne; rw [if_neg hne]; omega

/-! ## C04 and C05: temporal blocking -/

/-- C04: with temporal blocking, in every execution of one wave-front the evaluations performed are exactly
the required ones, each exactly once (any block sizes, including short remainder blocks). -/
theorem C04_temporal_coverage (c : RunCfg) (h : c.Ok) (_htb : c.tbSteps ≠ 0) (dir t0 : Int) (nt : Nat)
    (hdir : dir = 1 ∨ dir = -1) (hnt : (nt : Int) ≤ max c.wfSteps 1) (t : List Task)
    (ht : c.runBatch dir t0 nt t) : ∀ a, t.count a = 1 ∧ c.Required dir t0 nt a ∨
      t.count a = 0 ∧ ¬ c.Required dir t0 nt a := by
  obtain ⟨g1, g2, _⟩ := good_runBatch (en := false) h (fun h => by simp at h) hdir t0 nt hnt t ht
  intro a
  by_cases ha : c.Required dir t0 nt a
  · exact Or.inl ⟨List.count_eq_one_of_mem g1 ((g2 a).2 ha), ha⟩
  · exact Or.inr ⟨List.count_eq_zero.2 fun hm => ha ((g2 a).1 hm), ha⟩

/-- C05, for every configuration without a short remainder block: no execution performs an evaluation
before another one that must precede it, whatever the interleaving of the blocks of a phase. -/
theorem C05_temporal_order_partial (c : RunCfg) (h : c.Ok) (_htb : c.tbSteps ≠ 0)
    (hrem : c.NoShortRemainder) (first last : Int)
    (t : List Task) (ht : c.runSolution first last t) :
    t.Pairwise fun a b => ¬ c.MustPrecede (stepDir first last) b a :=
  (good_runSolution (en := true) h (fun _ => Or.inr hrem) first last t ht).2.2.imp fun h => h rfl

example : ∃ c : RunCfg, c.Ok ∧ c.tbSteps ≠ 0 ∧ c.NoShortRemainder :=
  ⟨demoCfg 1 (demoDim 1 1 11 11 8 8) 1 2 2, demoCfg_ok _ _ _ _ _ _ _ _ _ _ (by decide),
    by decide +kernel, by
      intro j hj
      obtain rfl : j = 0 := by simp only [demoCfg] at hj; omega
      right; right; right; decide +kernel⟩

/-- A configuration with a remainder block of 3 points after a block of 8 points, 4 steps per block. -/
def remainderCfg : RunCfg := demoCfg 1 (demoDim 1 1 11 11 8 8) 1 4 4

instance (nd : Nat) (halo : Nat → Int) (p q : List Int) : Decidable (Near nd halo p q) := by
  unfold Near; infer_instance

instance (dir : Int) (a b : Task) : Decidable (a.Before dir b) := by
  unfold Task.Before; infer_instance

instance (c : RunCfg) (dir : Int) (a b : Task) : Decidable (c.MustPrecede dir a b) := by
  unfold RunCfg.MustPrecede; infer_instance

/-- C05 fails for a legal configuration with a short remainder block: there is an execution that evaluates
step 2 at index 9 before step 1 at index 10, which it may read.  The remainder block is not considered
when the number of steps of a temporal block is limited. -/
theorem C05_short_remainder_race :
    remainderCfg.Ok ∧ remainderCfg.SingleRank ∧ remainderCfg.tbSteps = 4 ∧
    ∃ t, remainderCfg.runSolution 0 3 t ∧
      ∃ x y : Nat, y < x ∧ t[x]? = some ⟨1, 0, 0, [10]⟩ ∧ t[y]? = some ⟨2, 0, 0, [9]⟩ ∧
        remainderCfg.MustPrecede (stepDir 0 3) ⟨1, 0, 0, [10]⟩ ⟨2, 0, 0, [9]⟩ := by
  refine ⟨demoCfg_ok _ _ _ _ _ _ _ _ _ _ (by decide), demoCfg_single _ _ _ _ _ _ _ _ _ _,
    by decide +kernel, _, remainderCfg.runSolutionL_trace 0 3, ?_⟩
  have h1 : (remainderCfg.runSolutionL 0 3).idxOf ⟨2, 0, 0, [9]⟩ <
      (remainderCfg.runSolutionL 0 3).idxOf ⟨1, 0, 0, [10]⟩ ∧
      (remainderCfg.runSolutionL 0 3).idxOf ⟨1, 0, 0, [10]⟩ < (remainderCfg.runSolutionL 0 3).length := by
    decide +kernel
  refine ⟨_, _, h1.1, ?_, ?_, by decide +kernel⟩
  · rw [List.getElem?_eq_getElem h1.2, List.getElem_idxOf]
  · rw [List.getElem?_eq_getElem (h1.1.trans h1.2), List.getElem_idxOf]

/-- The stencil `A(t+1, x) = A(t, x+1)`; buffer `s` is step `s` of `A`. -/
def shiftStencil : Stencil remainderCfg Int Int where
  writes a β := β = a.step + 1 ∧ a.stage = 0 ∧ a.part = 0
  reads a β q := β = a.step ∧ q = [a.pt.getD 0 0 + 1]
  value a m _ := m (a.step, [a.pt.getD 0 0 + 1])
  reads_near := by
    rintro a β q ⟨_, rfl⟩ j hj
    obtain rfl : j = 0 := by simp only [remainderCfg, demoCfg] at hj; omega
    simp [remainderCfg, demoCfg, demoDim]
  value_local := by
    intro a m m' β h
    exact h _ _ ⟨rfl, rfl⟩
  indep := by
    rintro ⟨s1, g1, p1, x1⟩ ⟨s2, g2, p2, x2⟩ hne h1 h2 β ⟨w1, w2, w3⟩
    dsimp only at *
    subst h1 h2
    refine ⟨fun h => by omega, ?_⟩
    rintro ⟨⟨_, _, v3⟩, rfl⟩
    exact hne (by rw [w3, v3])

/-- Executable form of the effect of a trace of `shiftStencil`. -/
def shiftExec (t : List Task) (m : Int × List Int → Int) : Int × List Int → Int :=
  t.foldl (fun m a l => if (l.1 = a.step + 1 ∧ a.stage = 0 ∧ a.part = 0) ∧ l.2 = a.pt then
    m (a.step, [a.pt.getD 0 0 + 1]) else m l) m

theorem shiftExec_eq (t : List Task) (m : Int × List Int → Int) :
    shiftStencil.sem.exec t m = shiftExec t m := by
  unfold ActionSem.exec shiftExec
  congr 1
  funext m a l
  unfold Stencil.sem shiftStencil
  simp only []

/-- C01 fails in the same configuration: there are a stencil, an initial memory and an execution of
`run_solution` (the one of a single thread) whose result differs from the one of `run_ref`. -/
theorem C01_short_remainder_differs :
    ∃ (S : Stencil remainderCfg Int Int) (m : Int × List Int → Int) (t : List Task),
      remainderCfg.runSolution 0 3 t ∧
      S.sem.exec t m ≠ S.sem.exec (remainderCfg.runRef 0 3) m := by
  refine ⟨shiftStencil, fun l => if l.1 = 0 ∨ 11 ≤ l.2.getD 0 0 then 1 else 0, _,
    remainderCfg.runSolutionL_trace 0 3, fun h => ?_⟩
  rw [shiftExec_eq, shiftExec_eq] at h
  have h2 := congrFun h (3, [9])
  revert h2
  decide +kernel

/-! ## C06 -/

/-- C06: at every shift, the micro-blocks of a block, after shifting and trimming, contain each point of
the shape of the block that lies within the trimmed mega-block exactly once, and no other point.
`idxs` is the trimmed mega-block, and the shape is an arbitrary trapezoid or bridge of the block. -/
theorem C06_micro_partition (c : RunCfg) (h : c.Ok) (tb : Bool) (mega blk idxs : Box)
    (hblk : ∀ j < c.nd, (blk.getD j (0, 0)).1 < (blk.getD j (0, 0)).2)
    (shift : Int) (multi : Bool) (bridge : Nat → Bool) :
    let shape := fun (j : Nat) => c.blockShape j (mega.getD j (0, 0)) (blk.getD j (0, 0))
      (idxs.getD j (0, 0)) shift multi (bridge j)
    ExactBoxCover
      ((scan (c.blockLoop tb blk)).filterMap fun mb =>
        c.shiftMicro mb (c.adjBlock tb blk) blk mega shift multi bridge idxs)
      ((List.range c.nd).map fun (j : Nat) =>
        (max (idxs.getD j (0, 0)).1 (shape j).1, min (idxs.getD j (0, 0)).2 (shape j).2)) := by
  intro shape p
  have hbo := blockD_ok h tb blk hblk
  rw [blockLoop_eq, scan_eq, List.filterMap_map]
  unfold boxVisits
  rw [List.countP_filterMap]
  have hone : ∀ M, IsIdx c.nd (c.blockD tb blk) M →
      ((Option.map (fun b => decide (InBox p b))
        (((fun mb => c.shiftMicro mb (c.adjBlock tb blk) blk mega shift multi bridge idxs) ∘
          bodyBox true ((List.range c.nd).map (c.blockD tb blk))) M)).getD false = true ↔
      p.length = c.nd ∧ ∀ j < c.nd, InIvl (at_ p j) (c.microTrim j ((c.adjBlock tb blk).getD j (0, 0))
        ((c.blockD tb blk j).cut (at_ M j), (c.blockD tb blk j).cut (at_ M j + 1))
        (idxs.getD j (0, 0)) (shape j) shift)) := by
    intro M hM
    have hpc := isPiece_bodyBox hbo hM
    simp only [Function.comp, shiftMicro]
    split
    · rw [Option.map_some, Option.getD_some, decide_eq_true_iff, InBox, forall₂_map_range]
      refine and_congr_right fun _ => forall_congr' fun j => ?_
      constructor
      · intro hh hj; have := hh hj; rw [hpc j hj] at this; exact this
      · intro hh hj; rw [hpc j hj]; exact hh hj
    · rename_i hno
      simp only [Option.map_none, Option.getD_none, Bool.false_eq_true, false_iff, not_and]
      intro _ hh
      refine hno fun j hj => ?_
      have h1 := hh j hj
      have h2 := (c.microTrim_sub j _ _ _ _ _ _ h1).2
      rw [hpc j hj]
      exact ⟨lt_of_le_of_lt h2.1 h2.2, lt_of_le_of_lt h1.1 h1.2⟩
  apply countP_unique
  · exact (nestedIndices_sorted _).imp fun hlt => (ne_of_lt hlt)
  · intro hp
    rw [InBox, forall₂_map_range] at hp
    have hex : ∀ j, ∃ M, j < c.nd → 0 ≤ M ∧ M < (c.blockD tb blk j).numIters true ∧
        InIvl (at_ p j) (c.microTrim j ((c.adjBlock tb blk).getD j (0, 0))
          ((c.blockD tb blk j).cut M, (c.blockD tb blk j).cut (M + 1))
          (idxs.getD j (0, 0)) (shape j) shift) := by
      intro j
      by_cases hj : j < c.nd
      · have hx := hp.2 j hj
        rw [InIvl, max_le_iff, lt_min_iff] at hx
        obtain ⟨M, g⟩ := microTrim_exists c j (hbo.chain hj) (idxs.getD j (0, 0)) (shape j) shift
          (at_ p j) ⟨hx.1.1, hx.2.1⟩ ⟨hx.1.2, hx.2.2⟩
        exact ⟨M, fun _ => g⟩
      · exact ⟨0, fun h => absurd h hj⟩
    choose Mf hMf using hex
    have hat : ∀ j < c.nd, at_ ((List.range c.nd).map Mf) j = Mf j := fun j hj => getD_map_range _ _ _ hj
    have hM : IsIdx c.nd (c.blockD tb blk) ((List.range c.nd).map Mf) := by
      refine ⟨by simp, fun j hj => ?_⟩
      rw [hat j hj]
      exact ⟨(hMf j hj).1, (hMf j hj).2.1⟩
    refine ⟨_, (mem_scanIdx _ _ _).2 hM, (hone _ hM).2 ⟨hp.1, fun j hj => ?_⟩⟩
    rw [hat j hj]
    exact (hMf j hj).2.2
  · intro M hM M' hM' g g'
    rw [mem_scanIdx] at hM hM'
    have g := ((hone M hM).1 g).2
    have g' := ((hone M' hM').1 g').2
    refine ext_at (hM.1.trans hM'.1.symm) fun j hj => ?_
    have hj : j < c.nd := hM.1 ▸ hj
    exact microTrim_unique c j (hbo.chain hj) _ _ (hM.2 j hj).1 (hM.2 j hj).2 (hM'.2 j hj).1
        (hM'.2 j hj).2 (g j hj) (g' j hj)
  · intro M hM g
    rw [mem_scanIdx] at hM
    have g := (hone M hM).1 g
    rw [InBox, forall₂_map_range]
    refine ⟨g.1, fun j hj => ?_⟩
    have := c.microTrim_sub j _ _ _ _ _ _ (g.2 j hj)
    exact ⟨max_le this.1.1 this.2.1, lt_min this.1.2 this.2.2⟩

-- Four micro-blocks of 4 x 4 points in a block of 8 x 8 points.
example : let c := demoCfg 2 (demoDim 2 1 100 50 8 4) 2 3 0
    c.Ok ∧ (scan (c.blockLoop false [(8, 16), (0, 8)])).filterMap (fun mb =>
      c.shiftMicro mb (c.adjBlock false [(8, 16), (0, 8)]) [(8, 16), (0, 8)] [(0, 50), (0, 50)] 0 false
        (fun _ => false) [(0, 50), (0, 50)]) =
      [[(8, 12), (0, 4)], [(8, 12), (4, 8)], [(12, 16), (0, 4)], [(12, 16), (4, 8)]] :=
  ⟨demoCfg_ok _ _ _ _ _ _ _ _ _ _ (by decide), by decide +kernel⟩

/-! ## C08 -/

/-- C08: with overlapped communication, in every execution of one wave-front, the exterior sections and the
interior together perform the same evaluations as without overlap, each exactly once. -/
theorem C08_overlap_same_points (c : RunCfg) (h : c.Ok) (_ho : c.overlap = true)
    (dir t0 : Int) (nt : Nat)
    (hdir : dir = 1 ∨ dir = -1) (hnt : (nt : Int) ≤ max c.wfSteps 1) (t t' : List Task)
    (ht : c.runBatch dir t0 nt t) (ht' : ({ c with overlap := false }).runBatch dir t0 nt t') :
    t.Nodup ∧ t.Perm t' := by
  have h' : ({ c with overlap := false } : RunCfg).Ok :=
    ⟨h.nd_le, h.fold_pos, h.halo_nonneg, h.rank_pos, h.mega_pos, h.block_pos, h.block_ge, h.micro_pos, h.mega_steps,
      h.block_steps, h.dom_bb, h.dom_ext, h.ext_ranks⟩
  obtain ⟨g1, g2, _⟩ := good_runBatch (en := false) h (fun h => by simp at h) hdir t0 nt hnt t ht
  obtain ⟨r1, r2, _⟩ := good_runBatch (en := false) h' (fun h => by simp at h) hdir t0 nt hnt t' ht'
  exact ⟨g1, (List.perm_ext_iff_of_nodup g1 r1).2 fun a => (g2 a).trans (r2 a).symm⟩

/-- The first of two ranks, with an exterior of 2 points on the side of the other rank. -/
def overlapCfg : RunCfg :=
  { demoCfg 1 (demoDim 2 2 100 50 10 10) 1 0 0 with
    dim := fun _ => { demoDim 2 2 100 50 10 10 with nranks := 2, lastRank := false, intEnd := 98 }
    overlap := true }

example : overlapCfg.Ok ∧ overlapCfg.overlap = true ∧ overlapCfg.sections = [.ext 0 false, .interior] ∧
    overlapCfg.sections.map (fun s => overlapCfg.shiftMega 0 s [(50, 100)] 0) =
      [some [(98, 100)], some [(50, 98)]] := by
  refine ⟨⟨by decide, fun _ _ => by simp [overlapCfg, demoDim], fun _ _ => by simp [overlapCfg, demoDim], fun _ _ => by simp [overlapCfg, demoDim],
    fun _ _ => by simp [overlapCfg, demoDim], fun _ _ => by simp [overlapCfg, demoDim],
    fun _ _ _ => by simp [overlapCfg, demoDim], fun _ _ => by simp [overlapCfg, demoDim], by decide, by decide,
    fun st p x hx j hj => of_decide_eq_true hx j hj, fun st p x hx j hj => ?_,
    fun _ _ _ _ => by simp [overlapCfg]⟩, rfl, by decide +kernel, by decide +kernel⟩
  have := of_decide_eq_true hx j hj
  have e1 : overlapCfg.extBeg j = 0 := by show (0 : Int) - 0 = 0; decide
  have e2 : overlapCfg.extEnd j = 100 := by
    show (0 : Int) + 100 + overlapCfg.rightExt 0 = 100; decide
  rw [e1, e2]; exact this

/-! ## C09 -/

/-- C09: an execution of `run_solution(first, last)` evaluates no step outside the requested range, and at
each requested step it evaluates each part exactly once at each point of the rank where it is valid. -/
theorem C09_steps_exactly_once (c : RunCfg) (h : c.Ok) (first last : Int) (t : List Task)
    (ht : c.runSolution first last t) :
    (∀ a ∈ t, InSteps first last a.step) ∧
    ∀ a : Task, InSteps first last a.step → a.stage < c.nst → a.part < c.nparts a.stage →
      c.stepOk a.stage a.part a.step = true → c.dom a.stage a.part a.pt = true → a.pt.length = c.nd →
      (∀ j < c.nd, InIvl (a.pt.getD j 0) ((c.dim j).rankBeg, (c.dim j).rankBeg + (c.dim j).rankSize)) →
      t.count a = 1 := by
  obtain ⟨g1, g2, _⟩ := good_runSolution (en := false) h (fun h => by simp at h) first last t ht
  constructor
  · intro a ha
    obtain ⟨i, hi, h1, _⟩ := (required_batch_iff c first last a).1 ((g2 a).1 ha)
    exact (inSteps_iff first last a.step).2 ⟨i, hi, h1⟩
  · intro a hs h1 h2 h3 h4 h5 h6
    obtain ⟨i, hi, hst⟩ := (inSteps_iff first last a.step).1 hs
    refine List.count_eq_one_of_mem g1 ((g2 a).2 ((required_batch_iff c first last a).2
      ⟨i, hi, hst, h1, ⟨h2, h3, h4, h5⟩, fun j hj => ?_⟩))
    have hm : i % (max c.wfSteps 1).toNat < (max c.wfSteps 1).toNat := Nat.mod_lt _ (by omega)
    have := C02_contains_rank c h (max c.wfSteps 1).toNat _ a.stage (by omega) hm h1 j hj
    have h7 : InIvl (at_ a.pt j) _ := h6 j hj
    exact ⟨le_trans this.1 h7.1, lt_of_lt_of_le h7.2 this.2⟩

/-- C09: at each point, the steps are evaluated in the order of the run, increasing if `last ≥ first` and
decreasing otherwise; with one step per mega-block, all evaluations are in this order. -/
theorem C09_steps_in_order_partial (c : RunCfg) (h : c.Ok) (hrem : c.tbSteps = 0 ∨ c.NoShortRemainder)
    (first last : Int) (t : List Task) (ht : c.runSolution first last t) :
    t.Pairwise (fun a b => a.pt = b.pt →
      if first ≤ last then a.step ≤ b.step else b.step ≤ a.step) := by
  have g := (good_runSolution (en := true) h (fun _ => hrem) first last t ht).2.2
  refine g.imp fun {a b} hab hpt => ?_
  by_contra hc
  refine hab rfl ⟨Or.inl ?_, ?_⟩
  · unfold stepDir
    split at hc <;> split <;> omega
  · rw [hpt]
    exact near_self h.halo_nonneg _

end Yask
