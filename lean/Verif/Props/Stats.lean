import Verif.Kernel.StatsLemmas
import Verif.Props.Ranks

/-!
# Statistics: property C70

`runsSince` (Spec/StatsSpec) lists the calls of `run_solution` since the statistics were last cleared,
`stepsOf` is the number of steps of a run, and `allWork` adds up what executions of these runs did on all
ranks, evaluation by evaluation; an execution is any trace of the model of `run_solution`.
-/

namespace Yask
open Spec BB Stats RunCfg Setup

/-- C70: after any history of calls, `get_stats` reports the number of steps requested from `run_solution`
since the statistics were last cleared, in either direction, whatever the number of steps in a wave-front. -/
theorem C70_steps (wfSteps : Int) (nst : Nat) (calls : List Call) (boxes : List Box)
    (ranks : List (List (List NonScratch))) :
    (report boxes ranks (Counters.after wfSteps false nst calls)).numSteps =
      ((runsSince calls).map stepsOf).sum := by
  unfold report
  rw [after_eq]
  simp [Counters.add, Counters.init]

/-- C70: the reported number of elements is the product of the overall domain sizes, when the ranks were
placed by `prepare_solution`. -/
theorem C70_elements (fi : Bool) (fold : Nat → Int) (nd : Nat) (oldNbr : Nat → Nat → Option Nat)
    (minSize : Nat → Nat → Nat) (opts : List ROpts) (hne : opts ≠ []) (r : RankRes)
    (h : placeRanks fi fold nd oldNbr minSize opts = .ok r) (hfold : ∀ j < nd, 0 < fold j)
    (hreq : ∀ o ∈ opts, ∀ j < nd, 0 ≤ o.gsz.getD j 0 ∧ 0 ≤ o.lsz.getD j 0)
    (ranks : List (List (List NonScratch))) (s : Counters) :
    (report ((List.range opts.length).map fun k => (List.range nd).map fun j => (r.ofs k j, r.ofs k j + r.lsz k j))
      ranks s).numElements = ((List.range nd).map (r.gsz 0)).prod := by
  have hpos : ∀ k < opts.length, ∀ j < nd, 0 < r.lsz k j := fun k hk j hj =>
    C27_not_empty fi fold nd oldNbr minSize opts r h hfold hreq k hk j hj
  obtain ⟨_, h2, h3⟩ := C27_tiles fi fold nd oldNbr minSize opts hne r h
  have h0 : 0 < opts.length := List.length_pos_iff.2 hne
  have hg : ∀ j < nd, 0 < r.gsz 0 j := by
    intro j hj
    have := h3 0 h0 (r.ofs 0) (fun j hj => ⟨Int.le_refl _, by have := hpos 0 h0 j hj; omega⟩) j hj
    omega
  let bx : Nat → Box := fun k => (List.range nd).map fun j => (r.ofs k j, r.ofs k j + r.lsz k j)
  let ov : Box := (List.range nd).map fun j => ((0 : Int), r.gsz 0 j)
  have hbx : ∀ k p, p ∈ boxPoints (bx k) ↔ p.length = nd ∧ InRank nd (r.ofs k) (r.lsz k) (at_ p) := by
    intro k p
    exact mem_boxPoints_range nd _ p
  have hov : ∀ p, p ∈ boxPoints ov ↔ p.length = nd ∧ InOverall nd (r.gsz 0) (at_ p) := by
    intro p
    exact mem_boxPoints_range nd _ p
  have hperm : ((List.range opts.length).flatMap fun k => boxPoints (bx k)).Perm (boxPoints ov) := by
    rw [List.perm_ext_iff_of_nodup _ (boxPoints_nodup _)]
    · intro p
      rw [hov, List.mem_flatMap]
      constructor
      · rintro ⟨k, hk, hp⟩
        obtain ⟨e1, e2⟩ := (hbx k p).1 hp
        exact ⟨e1, h3 k (List.mem_range.1 hk) _ e2⟩
      · rintro ⟨e1, e2⟩
        obtain ⟨k, ⟨hk, hp⟩, _⟩ := h2 _ e2
        exact ⟨k, List.mem_range.2 hk, (hbx k p).2 ⟨e1, hp⟩⟩
    · rw [List.nodup_flatMap]
      refine ⟨fun k _ => boxPoints_nodup _, ?_⟩
      refine List.Pairwise.imp_of_mem (R := (· ≠ ·)) ?_ List.nodup_range
      intro k k' hk hk' hne p hp hp'
      obtain ⟨_, e1⟩ := (hbx k p).1 hp
      obtain ⟨_, e2⟩ := (hbx k' p).1 hp'
      rw [List.mem_range] at hk hk'
      exact hne ((h2 _ (h3 k hk _ e1)).unique ⟨hk, e1⟩ ⟨hk', e2⟩)
  have hsz : ∀ k < opts.length, boxSize (bx k) = ((boxPoints (bx k)).length : Int) := by
    intro k hk
    rw [boxPoints_length]
    intro x hx
    simp only [bx, List.mem_map, List.mem_range] at hx
    obtain ⟨j, hj, rfl⟩ := hx
    have := hpos k hk j hj
    simp only
    omega
  have hsum : ((List.range opts.length).map fun k => boxSize (bx k)).sum = ((boxPoints ov).length : Int) := by
    rw [← hperm.length_eq, List.length_flatMap]
    have : ((List.range opts.length).map fun k => boxSize (bx k)) =
        (List.range opts.length).map fun k => (((boxPoints (bx k)).length : Nat) : Int) :=
      List.map_congr_left fun k hk => hsz k (List.mem_range.1 hk)
    rw [this]
    generalize List.range opts.length = l
    induction l with
    | nil => rfl
    | cons b l ih => simp [ih]
  have hprod : ((boxPoints ov).length : Int) = ((List.range nd).map (r.gsz 0)).prod := by
    rw [boxPoints_length]
    · unfold boxSize
      rw [prodVals_eq]
      simp [boxLen, ov, Function.comp_def]
    · intro x hx
      simp only [ov, List.mem_map, List.mem_range] at hx
      obtain ⟨j, hj, rfl⟩ := hx
      have := hg j hj
      simp only
      omega
  unfold report
  simp only [List.map_map]
  rw [← hprod, ← hsum]
  rfl

/-- C70: without scratch vars, step conditions and extensions of the ranks (wave-fronts on several ranks),
the reported number of elements written and the reported floating-point operations are what the runs since the
last clearing did on all ranks: the sum over all evaluations of parts in points, whatever the order and the
interleaving of the executions.
What is missing: `C70_step_conditions_counted` and `C70_extensions_counted` show that the claim is false with
step conditions and with extensions of the ranks; scratch parts are counted without their halos and without
repetitions (TODO in `stencil_calc.cpp:499`). -/
theorem C70_work_partial (nthreads : Int) (hn : 0 < nthreads) (nst : Nat) (rs : List RankInst)
    (h : ∀ r ∈ rs, RankStats r.c r.cond nthreads r.parts ∧ r.c.nst = nst)
    (hscr : ∀ r ∈ rs, NoScratch r.parts) (hstep : ∀ r ∈ rs, ∀ s p t, r.c.stepOk s p t = true)
    (hext : ∀ r ∈ rs, ∀ j < r.c.nd, r.c.leftExt j = 0 ∧ r.c.rightExt j = 0)
    (wfSteps : Int) (calls : List Call) (boxes : List Box) (ex : List (List (List Task)))
    (hex : List.Forall₂ (Executes (runsSince calls)) rs ex) :
    (report boxes (rs.map (·.parts)) (Counters.after wfSteps false nst calls)).numWrites =
      allWork (·.writes) rs ex ∧
    (report boxes (rs.map (·.parts)) (Counters.after wfSteps false nst calls)).fpOps =
      allWork (·.fpOps) rs ex := by
  have key : ∀ w : PartWork → Int,
      ((Counters.after wfSteps false nst calls).stageSteps.mapIdx fun i ns => totPerStep w (rs.map (·.parts)) i * ns).sum =
        allWork w rs ex := by
    intro w
    rw [reported]
    · unfold allWork
      rw [List.map_map, zipWith_sum_congr hex (g := fun r _ =>
        (r.parts.map (stagePerStep w)).sum * ((runsSince calls).map stepsOf).sum), zipWith_sum_left hex]
      · rfl
      · intro r hr t ht
        exact executes_eq ht fun run _ t ht =>
          (h r hr).1.work_eq hn (hscr r hr) w (hext r hr) (hstep r hr) ht
    · intro q hq
      obtain ⟨r, hr, rfl⟩ := List.mem_map.1 hq
      rw [(h r hr).1.stages, (h r hr).2]
  exact ⟨key _, key _⟩

/-- C70: without scratch vars, the reported amounts are never less than what the runs did, also with step
conditions and wave-fronts. -/
theorem C70_work_at_most_partial (nthreads : Int) (hn : 0 < nthreads) (nst : Nat) (rs : List RankInst)
    (h : ∀ r ∈ rs, RankStats r.c r.cond nthreads r.parts ∧ r.c.nst = nst)
    (hscr : ∀ r ∈ rs, NoScratch r.parts)
    (hpos : ∀ r ∈ rs, ∀ sp ∈ r.parts, ∀ q ∈ sp, 0 ≤ q.own.writes ∧ 0 ≤ q.own.fpOps)
    (wfSteps : Int) (calls : List Call) (boxes : List Box) (ex : List (List (List Task)))
    (hex : List.Forall₂ (Executes (runsSince calls)) rs ex) :
    allWork (·.writes) rs ex ≤
      (report boxes (rs.map (·.parts)) (Counters.after wfSteps false nst calls)).numWrites ∧
    allWork (·.fpOps) rs ex ≤
      (report boxes (rs.map (·.parts)) (Counters.after wfSteps false nst calls)).fpOps := by
  have key : ∀ w : PartWork → Int, (∀ r ∈ rs, ∀ sp ∈ r.parts, ∀ q ∈ sp, 0 ≤ w q.own) → allWork w rs ex ≤
      ((Counters.after wfSteps false nst calls).stageSteps.mapIdx fun i ns =>
        totPerStep w (rs.map (·.parts)) i * ns).sum := by
    intro w hw
    rw [reported]
    · unfold allWork
      rw [List.map_map]
      refine (zipWith_sum_le hex (g := fun r _ =>
        (r.parts.map (stagePerStep w)).sum * ((runsSince calls).map stepsOf).sum) ?_).trans ?_
      · intro r hr t ht
        exact executes_le ht fun run _ t ht => (h r hr).1.work_le hn (hscr r hr) w (hw r hr) ht
      · rw [zipWith_sum_left hex]
        exact Int.le_refl _
    · intro q hq
      obtain ⟨r, hr, rfl⟩ := List.mem_map.1 hq
      rw [(h r hr).1.stages, (h r hr).2]
  exact ⟨key _ fun r hr sp hsp q hq => (hpos r hr sp hsp q hq).1,
    key _ fun r hr sp hsp q hq => (hpos r hr sp hsp q hq).2⟩

/-! ### Concrete solutions -/

/-- A rank of 4 points from `beg`, with halos of one point, `ms` steps in a wave-front, and one part valid at
the steps `ok` and the points `f`; `lo` and `hi` are the ends of the extended rank. -/
def statCfg (beg : Int) (fr lr : Bool) (ms lo hi : Int) (ok : Int → Bool) (f : List Int → Bool) : RunCfg where
  nd := 1
  dim := fun _ =>
    { fold := 1, maxHalo := 1, rankBeg := beg, rankSize := 4, megaSize := 4, blockSize := 4, microSize := 4
      nranks := 2, firstRank := fr, lastRank := lr, intBeg := beg, intEnd := beg + 4 }
  nst := 1
  megaSteps := ms
  blockSteps := 0
  roundTb := false
  overlap := false
  stageBB := fun _ _ => (lo, hi)
  nparts := fun _ => 1
  dom := fun _ _ x => decide (InIvl (x.getD 0 0) (lo, hi)) && f x
  stepOk := fun _ _ t => ok t

theorem statCfg_ok {beg : Int} {fr lr : Bool} {ms lo hi : Int} {ok : Int → Bool} {f : List Int → Bool} (hms : 0 ≤ ms)
    (hlo : (statCfg beg fr lr ms lo hi ok f).extBeg 0 = lo) (hhi : (statCfg beg fr lr ms lo hi ok f).extEnd 0 = hi) :
    (statCfg beg fr lr ms lo hi ok f).Ok where
  nd_le := by show 1 ≤ 8; omega
  fold_pos _ _ := by show (0 : Int) < 1; decide
  halo_nonneg _ _ := by show (0 : Int) ≤ 1; decide
  rank_pos _ _ := by show (0 : Int) < 4; decide
  mega_pos _ _ := by show (0 : Int) < 4; decide
  block_pos _ _ := by show (0 : Int) < 4; decide
  block_ge _ _ h := by exfalso; revert h; show ¬ (4 : Int) < 4; decide
  micro_pos _ _ := by show (0 : Int) < 4; decide
  mega_steps := hms
  block_steps := by show (0 : Int) ≤ 0; decide
  dom_bb st p x hx j hj := by
    have hj : j = 0 := Nat.lt_one_iff.1 hj
    subst hj
    simp only [statCfg, Bool.and_eq_true, decide_eq_true_eq] at hx
    exact hx.1
  dom_ext st p x hx j hj := by
    have hj : j = 0 := Nat.lt_one_iff.1 hj
    subst hj
    rw [hlo, hhi]
    simp only [statCfg, Bool.and_eq_true, decide_eq_true_eq] at hx
    exact hx.1
  ext_ranks _ _ _ _ := by show (1 : Int) < 2; decide

/-- The only part of such a rank, with the boxes `bbs`, one output var and three operations per point. -/
def statParts (bbs : List Box) : List (List NonScratch) := [[⟨⟨bbs, 1, 3⟩, []⟩]]

theorem statRank {beg : Int} {fr lr : Bool} {ms lo hi : Int} {ok : Int → Bool} {f : List Int → Bool} (hms : 0 ≤ ms)
    (hlo : (statCfg beg fr lr ms lo hi ok f).extBeg 0 = lo) (hhi : (statCfg beg fr lr ms lo hi ok f).extEnd 0 = hi)
    {bbs : List Box} (hb : (findBoundingBoxes (some f) 2 [(lo, hi)] (hi - lo)).map (·.list) = some bbs) :
    RankStats (statCfg beg fr lr ms lo hi ok f) (fun _ _ => some f) 2 (statParts bbs) where
  ok := statCfg_ok hms hlo hhi
  dims := by show 0 < 1; decide
  stages := rfl
  nparts s sp h := by
    rcases s with _ | s
    · simp only [statParts, List.getElem?_cons_zero, Option.some.injEq] at h
      subst h; rfl
    · simp [statParts] at h
  found s sp p q h hq := by
    rcases s with _ | s
    · simp only [statParts, List.getElem?_cons_zero, Option.some.injEq] at h
      subst h
      rcases p with _ | p
      · simp only [List.getElem?_cons_zero, Option.some.injEq] at hq
        subst hq
        have : extBox (statCfg beg fr lr ms lo hi ok f) = [(lo, hi)] := by
          unfold extBox
          show (List.range 1).map _ = _
          simp [hlo, hhi]
        rw [this]
        have e : boxSize [(lo, hi)] = hi - lo := by simp [boxSize, boxLen, prodVals]
        rw [e]
        exact hb
      · simp at hq
    · simp [statParts] at h
  dom s p pt h := by
    have : extBox (statCfg beg fr lr ms lo hi ok f) = [(lo, hi)] := by
      unfold extBox
      show (List.range 1).map _ = _
      simp [hlo, hhi]
    rw [this] at h
    cases h with
    | cons h1 h2 =>
      simp only [statCfg, List.getD_cons_zero]
      rw [decide_eq_true h1, Bool.true_and]

/-- Two ranks of a solution that is not evaluated in point 2 of its 8 points. -/
def statRanks : List RankInst :=
  [⟨statCfg 0 true false 0 0 4 (fun _ => true) (fun p => p != [2]), fun _ _ => some fun p => p != [2],
      statParts [[(0, 2)], [(3, 4)]]⟩,
    ⟨statCfg 4 false true 0 4 8 (fun _ => true) (fun p => p != [2]), fun _ _ => some fun p => p != [2],
      statParts [[(4, 8)]]⟩]

/-- The hypotheses of the theorems are met by two ranks with a conditional part; there are executions of the
two runs since the statistics were cleared, and 5 steps with 7 elements each are reported. -/
example :
    let calls : List Call := [.run 0 9, .getStats, .run 0 2, .run 8 7]
    runsSince calls = [(0, 2), (8, 7)] ∧
    (∀ r ∈ statRanks, (RankStats r.c r.cond 2 r.parts ∧ r.c.nst = 1) ∧ NoScratch r.parts ∧
      (∀ s p t, r.c.stepOk s p t = true) ∧ ∀ j < r.c.nd, r.c.leftExt j = 0 ∧ r.c.rightExt j = 0) ∧
    (∃ ex, List.Forall₂ (Executes (runsSince calls)) statRanks ex) ∧
    report [[(0, 4)], [(4, 8)]] (statRanks.map (·.parts)) (Counters.after 0 false 1 calls) = ⟨8, 5, 35, 105⟩ := by
  intro calls
  refine ⟨by decide, ?_, ?_, by decide +kernel⟩
  · intro r hr
    simp only [statRanks, List.mem_cons, List.not_mem_nil, or_false] at hr
    rcases hr with rfl | rfl
    · refine ⟨⟨statRank (by decide) (by decide +kernel) (by decide +kernel) (by decide +kernel), rfl⟩, ?_, fun _ _ _ => rfl, ?_⟩
      · intro sp hsp q hq
        simp only [statParts, List.mem_singleton] at hsp
        subst hsp
        simp only [List.mem_singleton] at hq
        subst hq; rfl
      · intro j hj
        have hj : j = 0 := Nat.lt_one_iff.1 hj
        subst hj
        decide +kernel
    · refine ⟨⟨statRank (by decide) (by decide +kernel) (by decide +kernel) (by decide +kernel), rfl⟩, ?_, fun _ _ _ => rfl, ?_⟩
      · intro sp hsp q hq
        simp only [statParts, List.mem_singleton] at hsp
        subst hsp
        simp only [List.mem_singleton] at hq
        subst hq; rfl
      · intro j hj
        have hj : j = 0 := Nat.lt_one_iff.1 hj
        subst hj
        decide +kernel
  · obtain ⟨t1, h1⟩ := C01_executions_exist (statRanks[0]).c 0 2
    obtain ⟨t2, h2⟩ := C01_executions_exist (statRanks[0]).c 8 7
    obtain ⟨t3, h3⟩ := C01_executions_exist (statRanks[1]).c 0 2
    obtain ⟨t4, h4⟩ := C01_executions_exist (statRanks[1]).c 8 7
    exact ⟨[[t1, t2], [t3, t4]], .cons (.cons h1 (.cons h2 .nil)) (.cons (.cons h3 (.cons h4 .nil)) .nil)⟩

/-- The claim of `C70_work_partial` is false with step conditions: the part is evaluated only at even steps, a run
of steps 0 and 1 does at most 4 writes, and 8 are reported. -/
theorem C70_step_conditions_counted :
    ∃ (r : RankInst) (calls : List Call), RankStats r.c r.cond 2 r.parts ∧ r.c.nst = 1 ∧ NoScratch r.parts ∧
      (∀ j < r.c.nd, r.c.leftExt j = 0 ∧ r.c.rightExt j = 0) ∧ runsSince calls = [(0, 1)] ∧
      (report [[(0, 4)]] [r.parts] (Counters.after 0 false 1 calls)).numWrites = 8 ∧
      (∃ ex, Executes (runsSince calls) r ex) ∧
      ∀ ex, Executes (runsSince calls) r ex → allWork (·.writes) [r] [ex] ≤ 4 := by
  refine ⟨⟨statCfg 0 true true 0 0 4 (fun t => t % 2 == 0) (fun _ => true), fun _ _ => some fun _ => true,
    statParts [[(0, 4)]]⟩, [.run 0 1], ?_⟩
  have hR : RankStats (statCfg 0 true true 0 0 4 (fun t => t % 2 == 0) (fun _ => true)) (fun _ _ => some fun _ => true) 2
      (statParts [[(0, 4)]]) := statRank (by decide) (by decide +kernel) (by decide +kernel) (by decide +kernel)
  refine ⟨hR, rfl, ?_, ?_, by decide, by decide +kernel, ?_, ?_⟩
  · intro sp hsp q hq
    simp only [statParts, List.mem_singleton] at hsp
    subst hsp
    simp only [List.mem_singleton] at hq
    subst hq; rfl
  · intro j hj
    have hj : j = 0 := Nat.lt_one_iff.1 hj
    subst hj
    decide +kernel
  · obtain ⟨t, h⟩ := C01_executions_exist (statCfg 0 true true 0 0 4 (fun t => t % 2 == 0) (fun _ => true)) 0 1
    exact ⟨[t], .cons h .nil⟩
  · intro ex hex
    have hrs : runsSince [.run 0 1] = [(0, 1)] := by decide
    rw [hrs] at hex
    cases hex with
    | cons h h2 =>
      cases h2
      rename_i t
      obtain ⟨g1, g2, _⟩ := good_runSolution (en := false) hR.ok (fun h => by simp at h) 0 1 t h
      have hsub : ∀ a ∈ t, a ∈ [0, 1, 2, 3].map fun x : Int => (⟨0, 0, 0, [x]⟩ : Task) := by
        intro a ha
        obtain ⟨i, hi, e1, e2, ⟨e3, e4, e5, e6⟩, _⟩ := (required_batch_iff _ 0 1 a).1 ((g2 a).1 ha)
        obtain ⟨st, s, p, pt⟩ := a
        simp only at e1 e2 e3 e4 e5 e6
        have hs : s = 0 := Nat.lt_one_iff.1 e2
        have hp : p = 0 := Nat.lt_one_iff.1 e3
        subst hs hp
        simp only [statCfg, beq_iff_eq, Bool.and_true, decide_eq_true_eq] at e4 e5
        have hd : stepDir 0 1 = 1 := by decide
        have hi2 : i < 2 := hi
        rw [hd] at e1
        have hst : st = 0 := by omega
        subst hst
        match pt, e6 with
        | [x], _ =>
          unfold InIvl at e5
          simp only [List.getD_cons_zero] at e5
          have : x = 0 ∨ x = 1 ∨ x = 2 ∨ x = 3 := by omega
          rcases this with rfl | rfl | rfl | rfl <;> decide
      have hle := (List.subperm_of_subset g1 hsub).length_le
      show (rankWork _ _ [t]) + 0 ≤ 4
      have hw : ∀ a ∈ t, wt (·.writes) (statParts [[(0, 4)]]) a.stage a.part = 1 := by
        intro a ha
        have := hsub a ha
        simp only [List.mem_map] at this
        obtain ⟨x, _, rfl⟩ := this
        rfl
      unfold rankWork workOf
      simp only [List.map_cons, List.map_nil, List.sum_cons, List.sum_nil]
      rw [List.map_congr_left hw]
      simp only [List.map_const', List.sum_replicate, nsmul_eq_mul, mul_one]
      simp at hle
      omega

/-- The claim of `C70_work_partial` is false for wave-fronts on several ranks: with two ranks of 4 points, a
wave-front of two steps evaluates one point of the neighbour in its first step only; a run of two steps
does at most 18 writes, and 20 are reported. -/
theorem C70_extensions_counted :
    ∃ (rs : List RankInst) (calls : List Call), (∀ r ∈ rs, RankStats r.c r.cond 2 r.parts ∧ r.c.nst = 1 ∧
        NoScratch r.parts ∧ ∀ s p t, r.c.stepOk s p t = true) ∧ runsSince calls = [(0, 1)] ∧
      (report [[(0, 4)], [(4, 8)]] (rs.map (·.parts)) (Counters.after 2 false 1 calls)).numWrites = 20 ∧
      (∃ ex, List.Forall₂ (Executes (runsSince calls)) rs ex) ∧
      ∀ ex, List.Forall₂ (Executes (runsSince calls)) rs ex → allWork (·.writes) rs ex ≤ 18 := by
  refine ⟨[⟨statCfg 0 true false 2 0 5 (fun _ => true) (fun _ => true), fun _ _ => some fun _ => true,
      statParts [[(0, 5)]]⟩,
    ⟨statCfg 4 false true 2 3 8 (fun _ => true) (fun _ => true), fun _ _ => some fun _ => true,
      statParts [[(3, 8)]]⟩], [.run 0 1], ?_⟩
  have h1 : RankStats (statCfg 0 true false 2 0 5 (fun _ => true) (fun _ => true)) (fun _ _ => some fun _ => true) 2
      (statParts [[(0, 5)]]) := statRank (by decide) (by decide +kernel) (by decide +kernel) (by decide +kernel)
  have h2 : RankStats (statCfg 4 false true 2 3 8 (fun _ => true) (fun _ => true)) (fun _ _ => some fun _ => true) 2
      (statParts [[(3, 8)]]) := statRank (by decide) (by decide +kernel) (by decide +kernel) (by decide +kernel)
  have hns : ∀ bbs, NoScratch (statParts bbs) := by
    intro bbs sp hsp q hq
    simp only [statParts, List.mem_singleton] at hsp
    subst hsp
    simp only [List.mem_singleton] at hq
    subst hq; rfl
  have hone : ∀ bbs (t : List Task), (∀ a ∈ t, a.stage = 0 ∧ a.part = 0) →
      workOf (wt (·.writes) (statParts bbs)) t = t.length := by
    intro bbs t ht
    unfold workOf
    have : ∀ a ∈ t, wt (·.writes) (statParts bbs) a.stage a.part = 1 := by
      intro a ha
      obtain ⟨e1, e2⟩ := ht a ha
      rw [e1, e2]; rfl
    rw [List.map_congr_left this]
    simp
  have hd : stepDir 0 1 = 1 := by decide
  refine ⟨?_, by decide, by decide +kernel, ?_, ?_⟩
  · intro r hr
    simp only [List.mem_cons, List.not_mem_nil, or_false] at hr
    rcases hr with rfl | rfl
    · exact ⟨h1, rfl, hns _, fun _ _ _ => rfl⟩
    · exact ⟨h2, rfl, hns _, fun _ _ _ => rfl⟩
  · obtain ⟨t, e⟩ := C01_executions_exist (statCfg 0 true false 2 0 5 (fun _ => true) (fun _ => true)) 0 1
    obtain ⟨t', e'⟩ := C01_executions_exist (statCfg 4 false true 2 3 8 (fun _ => true) (fun _ => true)) 0 1
    exact ⟨[[t], [t']], .cons (.cons e .nil) (.cons (.cons e' .nil) .nil)⟩
  · have hrs : runsSince [.run 0 1] = [(0, 1)] := by decide
    intro ex hex
    rw [hrs] at hex
    cases hex with
    | cons e hex =>
    cases hex with
    | cons e' hex =>
    cases hex
    cases e with
    | cons e h => cases h; rename_i t; cases e' with
    | cons e' h =>
    cases h
    rename_i t'
    have b1 : (∀ a ∈ t, a.stage = 0 ∧ a.part = 0) ∧ t.length ≤ 9 := by
      obtain ⟨g1, g2, _⟩ := good_runSolution (en := false) h1.ok (fun h => by simp at h) 0 1 t e
      have hsub : ∀ a ∈ t, a ∈ ([0, 1, 2, 3, 4].map fun x : Int => (⟨0, 0, 0, [x]⟩ : Task)) ++
          [0, 1, 2, 3].map fun x : Int => (⟨1, 0, 0, [x]⟩ : Task) := by
        intro a ha
        obtain ⟨i, hi, e1, e2, ⟨e3, e4, e5, e6⟩, e7⟩ := (required_batch_iff _ 0 1 a).1 ((g2 a).1 ha)
        obtain ⟨st, s, p, pt⟩ := a
        simp only at e1 e2 e3 e4 e5 e6 e7
        have hs : s = 0 := Nat.lt_one_iff.1 e2
        have hp : p = 0 := Nat.lt_one_iff.1 e3
        subst hs hp
        have hi2 : i < 2 := hi
        rw [hd] at e1
        have e7 := e7 0 (by show 0 < 1; decide)
        match pt, e6 with
        | [x], _ =>
          have hi3 : i = 0 ∨ i = 1 := by omega
          rcases hi3 with rfl | rfl
          · have : 0 ≤ x ∧ x < 5 := e7
            have hst : st = 0 := by simpa using e1
            subst hst
            have : x = 0 ∨ x = 1 ∨ x = 2 ∨ x = 3 ∨ x = 4 := by omega
            rcases this with rfl | rfl | rfl | rfl | rfl <;> decide
          · have : 0 ≤ x ∧ x < 4 := e7
            have hst : st = 1 := by simpa using e1
            subst hst
            have : x = 0 ∨ x = 1 ∨ x = 2 ∨ x = 3 := by omega
            rcases this with rfl | rfl | rfl | rfl <;> decide
      refine ⟨fun a ha => ?_, by simpa using (List.subperm_of_subset g1 hsub).length_le⟩
      have := hsub a ha
      simp only [List.mem_append, List.mem_map] at this
      rcases this with ⟨x, _, rfl⟩ | ⟨x, _, rfl⟩ <;> exact ⟨rfl, rfl⟩
    have b2 : (∀ a ∈ t', a.stage = 0 ∧ a.part = 0) ∧ t'.length ≤ 9 := by
      obtain ⟨g1, g2, _⟩ := good_runSolution (en := false) h2.ok (fun h => by simp at h) 0 1 t' e'
      have hsub : ∀ a ∈ t', a ∈ ([3, 4, 5, 6, 7].map fun x : Int => (⟨0, 0, 0, [x]⟩ : Task)) ++
          [4, 5, 6, 7].map fun x : Int => (⟨1, 0, 0, [x]⟩ : Task) := by
        intro a ha
        obtain ⟨i, hi, e1, e2, ⟨e3, e4, e5, e6⟩, e7⟩ := (required_batch_iff _ 0 1 a).1 ((g2 a).1 ha)
        obtain ⟨st, s, p, pt⟩ := a
        simp only at e1 e2 e3 e4 e5 e6 e7
        have hs : s = 0 := Nat.lt_one_iff.1 e2
        have hp : p = 0 := Nat.lt_one_iff.1 e3
        subst hs hp
        have hi2 : i < 2 := hi
        rw [hd] at e1
        have e7 := e7 0 (by show 0 < 1; decide)
        match pt, e6 with
        | [x], _ =>
          have hi3 : i = 0 ∨ i = 1 := by omega
          rcases hi3 with rfl | rfl
          · have : 3 ≤ x ∧ x < 8 := e7
            have hst : st = 0 := by simpa using e1
            subst hst
            have : x = 3 ∨ x = 4 ∨ x = 5 ∨ x = 6 ∨ x = 7 := by omega
            rcases this with rfl | rfl | rfl | rfl | rfl <;> decide
          · have : 4 ≤ x ∧ x < 8 := e7
            have hst : st = 1 := by simpa using e1
            subst hst
            have : x = 4 ∨ x = 5 ∨ x = 6 ∨ x = 7 := by omega
            rcases this with rfl | rfl | rfl | rfl <;> decide
      refine ⟨fun a ha => ?_, by simpa using (List.subperm_of_subset g1 hsub).length_le⟩
      have := hsub a ha
      simp only [List.mem_append, List.mem_map] at this
      rcases this with ⟨x, _, rfl⟩ | ⟨x, _, rfl⟩ <;> exact ⟨rfl, rfl⟩
    unfold allWork rankWork
    simp only [List.zipWith_cons_cons, List.zipWith_nil_left, List.map_cons, List.map_nil, List.sum_cons, List.sum_nil]
    rw [hone _ t b1.1, hone _ t' b2.1]
    have := b1.2
    have := b2.2
    omega

end Yask
