import Verif.Setup.TunerStepLemmas
import Verif.Props.Sched

/-!
# C59: the auto-tuner

`t.clear false` starts the tuner (`reset_auto_tuner(true)`, also done by `run_auto_tuner_now()`); `run` is then called with
what is measured after every batch of steps: the seconds, and the number of steps. What a measurement depends on is left
open: the theorems hold for all of them.

`Base` is what `prepare_solution()` leaves: legal sizes (see `C31_nest`).
-/

namespace Yask
open Spec Setup RunCfg

/-- C59: however long the trials take, the tuner ends: there is a bound on the number of batches of steps after which it is
done, that depends on the sizes of the rank and on the number of targets only. No call fails. -/
theorem C59_ends (fi : Bool) (t : Tuner) (h : Base t) :
    ∃ t0, t.clear false = .ok t0 ∧ t0.done = false ∧
      ∀ ms, Positive ms → ∃ t', t0.run fi ms = .ok t' ∧
        (1000 + t.targets.length * (rankPoints t.set.nd t.set.rank * 500) ≤ ms.length → t'.done = true) := by
  obtain ⟨t0, e1, e2, e3, e4, e5, -⟩ := clear_good t h
  refine ⟨t0, e1, e5, fun ms hm => ?_⟩
  obtain ⟨t', f1, f2, f3, f4⟩ := run_good fi ms t0 e2 hm
  refine ⟨t', f1, fun hl => f4 (le_trans ?_ hl)⟩
  rcases e2.phase with hd | ⟨-, hw, -, h1, -⟩ | ⟨g, i, hg, -⟩
  · rw [e5] at hd; cases hd
  · unfold Tuner.left
    rw [e5, hw, e3.targets, e3.nd, e3.rank]
    simp only [Bool.false_eq_true, if_false, if_true]
    have : (warmupSteps - t0.csteps).toNat ≤ 1000 := by unfold warmupSteps; omega
    omega
  · exfalso
    have e6 : t0.warm = true := by
      unfold Tuner.clear at e1
      cases ha : t.applyBest with
      | ok t1 => rw [ha] at e1; cases e1; rfl
      | throws => rw [ha] at e1; cases e1
      | undefined => rw [ha] at e1; cases e1
    rw [hg.nwarm] at e6
    cases e6

/-- C59: at any time during and after tuning, the sizes in use are positive and nested in every dim, and the number of dims,
the rank sizes and the list of targets are unchanged. -/
theorem C59_sizes_legal (fi : Bool) (t t0 t' : Tuner) (h : Base t) (h0 : t.clear false = .ok t0) (ms : List (Rat × Int))
    (hm : Positive ms) (hr : t0.run fi ms = .ok t') :
    t'.set.nd = t.set.nd ∧ t'.set.rank = t.set.rank ∧ t'.targets = t.targets ∧
    ∀ j < t.set.nd, 0 < (t'.set.blk j).pico ∧ (t'.set.blk j).pico ≤ (t'.set.blk j).nano ∧
      (t'.set.blk j).nano ≤ (t'.set.blk j).micro ∧ (t'.set.blk j).micro ≤ (t'.set.blk j).block ∧
      (t'.set.blk j).block ≤ (t'.set.blk j).mega ∧ (t'.set.blk j).mega ≤ t.set.rank j := by
  obtain ⟨t1, e1, e2, e3, e4, e5, -⟩ := clear_good t h
  rw [h0] at e1
  cases e1
  obtain ⟨t2, f1, f2, f3, f4⟩ := run_good fi ms t0 e2 hm
  rw [hr] at f1
  cases f1
  have := e3.trans f3
  refine ⟨this.nd, this.rank, this.targets, fun j hj => ?_⟩
  have hn := f2.base.nest j (by rw [this.nd]; exact hj)
  rw [this.rank] at hn
  exact hn

/-- C59: what one more measurement does while target number `i`, `g`, is tuned. Either the trial goes on with the same sizes;
or it ends, its sizes and rate are recorded, and the next trial uses sizes never tried before for this target; or it ends, is
recorded, and of all sizes tried a fastest becomes the requested one, and either the next target is tuned or the tuner is done
and uses these sizes. The requested sizes of other targets never change. -/
theorem C59_step (fi : Bool) (t t0 t' : Tuner) (h : Base t) (h0 : t.clear false = .ok t0) (ms : List (Rat × Int))
    (hm : Positive ms) (hr : t0.run fi ms = .ok t') (hd : t'.done = false) (hw : t'.warm = false) (secs : Rat) (steps : Int)
    (hs : 0 < secs) (hn : 1 ≤ steps) :
    ∃ i g, t'.target = some i ∧ t.targets[i]? = some g ∧ ∃ t'', t'.eval fi secs steps = .ok t'' ∧
      let tried := t'.results ++ [(sizesOf t'.set g, ((t'.csteps + steps : Int) : Rat) / (t'.ctime + secs))]
      ((t''.target = some i ∧ t''.results = t'.results ∧ t''.set = t'.set ∧ t''.req = t'.req ∧ t''.done = false) ∨
       (t''.target = some i ∧ t''.results = tried ∧ t''.req = t'.req ∧ t''.done = false ∧
          sizesOf t''.set g ∉ tried.map Prod.fst) ∨
       (∃ b r, (b, r) ∈ tried ∧ (∀ x ∈ tried, x.2 ≤ r) ∧
          (∀ j < t.set.nd, t''.req j = g.set (t'.req j) (b.getD j 0)) ∧
          ((i + 1 < t.targets.length ∧ t''.target = some (i + 1) ∧ t''.results = [] ∧ t''.done = false) ∨
           (i + 1 = t.targets.length ∧ t''.done = true ∧ sizesOf t''.set g = b)))) := by
  obtain ⟨t1, e1, e2, e3, e4, e5, -⟩ := clear_good t h
  rw [h0] at e1
  cases e1
  obtain ⟨t2, f1, f2, f3, f4⟩ := run_good fi ms t0 e2 hm
  rw [hr] at f1
  cases f1
  have hsame := e3.trans f3
  rcases f2.phase with hh | ⟨-, hh, -⟩ | ⟨g, i, hg, hi, hl⟩
  · rw [hd] at hh; cases hh
  · rw [hw] at hh; cases hh
  · refine ⟨i, g, hi, ?_, ?_⟩
    · have := hg.tgt
      unfold Tuner.tgt at this
      rw [hi, hsame.targets] at this
      exact this
    · obtain ⟨t'', a1, a2, a3⟩ := eval_tuning fi t' g i hg hi hs hn
      refine ⟨t'', a1, ?_⟩
      rcases a3 with ⟨a3, a4, a5, -, a6, a7, -⟩ | ⟨a3, a4, a5, -, a6, -⟩ | ⟨b, r, b1, b2, b3, -, b4⟩
      · exact Or.inl ⟨a4, a5, a6, a7, a3.ndone⟩
      · refine Or.inr (Or.inl ⟨a4, a5, a6, a3.ndone, ?_⟩)
        have := a3.fresh
        rw [a5] at this
        exact this
      · refine Or.inr (Or.inr ⟨b, r, b1, b2, ?_, ?_⟩)
        · rw [hsame.nd] at b3
          exact b3
        · rw [hsame.targets] at b4 hl
          rcases b4 with ⟨c1, g', c2, c3, c4, -⟩ | ⟨c1, c2, c3⟩
          · exact Or.inl ⟨c1, c3, c4, c2.ndone⟩
          · exact Or.inr ⟨by omega, c2, c3⟩

/-- Once done, nothing changes any more. -/
theorem C59_done_stays (fi : Bool) (t : Tuner) (h : t.done = true) (ms : List (Rat × Int)) : t.run fi ms = .ok t := by
  induction ms with
  | nil => rfl
  | cons m ms ih =>
    unfold Tuner.run Tuner.eval
    rw [if_pos h]
    exact ih

/-- A rank of 16×16 points, blocks of 8×8, vectors of 1×4, 16 threads. -/
def tunerDemo : Tuner :=
  { set := { nd := 2, rank := fun _ => 16, fold := fun j => if j = 0 then 1 else 4, innerLoop := 1
             blk := fun _ => ⟨16, 8, 8, 8, 8⟩, stepBlk := ⟨0, 0, 0, 0, 0⟩, defBlk := 32, innerThreads := 1
             bindInner := false, bindPosn := 1 }
    req := fun _ => ⟨0, 8, 0, 0, 0⟩, reqStep := ⟨0, 0, 0, 0, 0⟩, targets := [.block], maxRadius := 2, trialSecs := 1 / 2
    outerThreads := 16, done := true, target := none, minBlks := 1, minPts := 1, results := [], best := none, bestRate := 0
    center := [], radius := 2, neigh := 0, better := false, ctime := 0, csteps := 0, warm := false }

/-- Measurements: warm-up, then trials of 1 second each. -/
def tunerDemoMs (n : Nat) : List (Rat × Int) := (5, 10) :: (List.range n).map fun i => (1, if i = 1 then 20 else 10)

theorem tunerDemo_base : Base tunerDemo where
  legal := ⟨by decide, by decide, by decide⟩
  nest := by unfold Nested; decide
  step0 := by decide
  reqStep0 := by decide

example : Positive (tunerDemoMs 60) := by
  intro m hm
  unfold tunerDemoMs at hm
  rcases List.mem_cons.1 hm with rfl | hm
  · norm_num
  · obtain ⟨i, -, rfl⟩ := List.mem_map.1 hm
    dsimp only
    constructor
    · norm_num
    · split <;> norm_num

/-- The tuner tries 8×8 and 8×4, and keeps the faster one. -/
example : (tunerDemo.clear false >>= fun t => t.run true (tunerDemoMs 1) >>= fun t =>
    Outcome.ok (t.done, t.warm, t.results.map Prod.fst, sizesOf t.set .block)) =
    .ok (false, false, [[8, 8]], [8, 4]) := by decide +kernel

example : (tunerDemo.clear false >>= fun t => t.run true (tunerDemoMs 2) >>= fun t =>
    Outcome.ok (t.done, sizesOf t.set .block, (t.req 0).block, (t.req 1).block)) =
    .ok (true, [8, 4], 8, 4) := by decide +kernel

/-! ## Tuning the mega-blocks

After a change of sizes the tuner brings the temporal-blocking data up to date, but not the wave-front angles
(`auto_tuner.cpp:494-502`), which depend on the mega-block sizes and were computed by `prepare_solution()`. -/

/-- The problem: 8 points, a stencil of radius 1, wave-fronts of 2 steps, one mega-block at `prepare_solution()`. -/
def tuneMegaBefore : RunCfg := demoCfg 1 (demoDim 1 1 8 8 8 8) 1 2 0

/-- The same after the tuner has set the mega-block size to 4. -/
def tuneMegaAfter : RunCfg := demoCfg 1 (demoDim 1 1 8 4 4 4) 1 2 0

/-- The configuration that runs: the sizes are the new ones but the angles the old ones. As the temporal block has no steps,
the angles are all that depends on the halo, which is set to 0 here to have the old angles. -/
def tuneMegaStale : RunCfg := demoCfg 1 (demoDim 1 0 8 4 4 4) 1 2 0

/-- C59 is a statement about sizes only: with mega-blocks as target, tuning breaks the order of C03 in the run with the tuned
sizes. Step 1 at index 3 is evaluated before step 0 at index 4, which it may read. -/
theorem C59_mega_stale_angles :
    tuneMegaBefore.Ok ∧ tuneMegaAfter.Ok ∧ tuneMegaBefore.wfAngle 0 = 0 ∧ tuneMegaStale.wfAngle 0 = 0 ∧
    tuneMegaAfter.wfAngle 0 = 1 ∧ tuneMegaStale.numWfShifts = tuneMegaBefore.numWfShifts ∧ tuneMegaStale.tbSteps = 0 ∧
    ∃ t, tuneMegaStale.runSolution 0 1 t ∧
      ∃ x y : Nat, y < x ∧ t[x]? = some ⟨0, 0, 0, [4]⟩ ∧ t[y]? = some ⟨1, 0, 0, [3]⟩ ∧
        tuneMegaAfter.MustPrecede (stepDir 0 1) ⟨0, 0, 0, [4]⟩ ⟨1, 0, 0, [3]⟩ := by
  refine ⟨demoCfg_ok _ _ _ _ _ _ _ _ _ _ (by decide), demoCfg_ok _ _ _ _ _ _ _ _ _ _ (by decide), by decide +kernel,
    by decide +kernel, by decide +kernel, by decide +kernel, by decide +kernel, _, tuneMegaStale.runSolutionL_trace 0 1, ?_⟩
  have h1 : (tuneMegaStale.runSolutionL 0 1).idxOf ⟨1, 0, 0, [3]⟩ <
      (tuneMegaStale.runSolutionL 0 1).idxOf ⟨0, 0, 0, [4]⟩ ∧
      (tuneMegaStale.runSolutionL 0 1).idxOf ⟨0, 0, 0, [4]⟩ < (tuneMegaStale.runSolutionL 0 1).length := by
    decide +kernel
  refine ⟨_, _, h1.1, ?_, ?_, by decide +kernel⟩
  · rw [List.getElem?_eq_getElem h1.2, List.getElem_idxOf]
  · rw [List.getElem?_eq_getElem (h1.1.trans h1.2), List.getElem_idxOf]

end Yask
