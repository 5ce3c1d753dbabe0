import Verif.Kernel.SolnRunTrace
import Verif.Props.Sched
import Verif.Props.NanoRun

/-!
# C83: a run of the generated code computes the equations

C01 is about evaluations of whole points, whatever they compute; C81 is about the generated code in one micro-block. Here both together:
the storage of the vars after `run_solution` with the generated code, for all tile sizes, wave-fronts, temporal tiles, loop paths, threads
and their bindings, is that after evaluating the equations with `read_elem` and `write_elem`, one step, one part, one point and one
equation after the other. Model: `Kernel/SolnRunModel.lean`; specification: `Spec.CodeRunSpec.lean`.
-/

namespace Yask
open Spec Var Comp Spec.Cpp Nano

section
variable {V : Type} {R : SolnCode} {inner : String} {folds rofs : List Int}

/-- The evaluations in a trace of `run_solution`. -/
theorem atTask_of_run (h : R.cfg.Ok) {first last : Int} {t : List Task} (ht : R.cfg.runSolution first last t) :
    t.Nodup ∧ ∀ a ∈ t, R.AtTask a := by
  obtain ⟨g1, g2, _⟩ := RunCfg.good_runSolution (en := false) h (fun h => by simp at h) first last t ht
  refine ⟨g1, fun a ha => ?_⟩
  obtain ⟨k, _, i, _, _, _, h3, h4, h5, h6, _⟩ := (g2 a).1 ha
  exact ⟨h3, h4, h6, h5⟩

/-- C83 (part): `run_solution` has at least one order of the inner loops; in each, also on several ranks, the generated code is defined,
and it does the same to the storage as evaluating the equations at the points of a trace of C01, one after the other. -/
theorem C83_refines_partial (h : R.cfg.Ok) (hf : R.Fits V inner folds rofs) (hi : R.Indep) (u : V) (A : Arith V) (hA : R.Exprs A)
    (first last : Int) (mem : Nat → Int → V) :
    (∃ tr, R.runSolution first last tr) ∧
    ∀ tr, R.runSolution first last tr → ∃ l mem', R.cfg.runSolution first last l ∧
      R.exec u A tr mem = .ok mem' ∧ R.refTasks u A l mem = .ok mem' := by
  refine ⟨run_exists hf h.nd_le first last, fun tr ht => ?_⟩
  obtain ⟨t1, t2⟩ := run_tasks hf h.nd_le ht
  obtain ⟨a1, a2⟩ := atTask_of_run h t1
  exact ⟨_, _, t1, exec_tasks h hf hi u A hA tr t2 a1 a2 mem, ref_tasks hf hi u A _ a2 mem⟩

/-- C83 (part), on one rank: for all settings, first and last steps, initial storages, and orders in which the threads run the inner
loops, `run_solution` with the generated code is defined and leaves the storage that the reference leaves. The settings excluded are those
with temporal tiles and a short remainder, see `C05_short_remainder_race`. -/
theorem C83_run_partial (h : R.cfg.Ok) (hsr : R.cfg.SingleRank) (hrem : R.cfg.tbSteps = 0 ∨ R.cfg.NoShortRemainder)
    (hf : R.Fits V inner folds rofs) (hi : R.Indep) (u : V) (A : Arith V) (hA : R.Exprs A) (first last : Int) (mem : Nat → Int → V)
    (tr : List CodeAct) (ht : R.runSolution first last tr) :
    ∃ mem', R.exec u A tr mem = .ok mem' ∧ R.refRun u A first last mem = .ok mem' := by
  obtain ⟨t1, t2⟩ := run_tasks hf h.nd_le ht
  obtain ⟨a1, a2⟩ := atTask_of_run h t1
  obtain ⟨g1, g2, g3⟩ := RunCfg.good_runSolution (en := true) h (fun _ => hrem) first last _ t1
  obtain ⟨r1, r2, r3⟩ := RunCfg.runRef_spec R.cfg first last
  have hm : ∀ a, a ∈ tr.flatMap (actTasks R.firstInner folds rofs) ↔ a ∈ R.cfg.runRef first last := by
    intro a
    refine (g2 a).trans ((RunCfg.required_batch_iff R.cfg first last a).trans (Iff.trans ?_ (r2 a).symm))
    unfold RunCfg.InRef
    refine exists_congr fun i => and_congr_right fun _ => and_congr_right fun _ => and_congr_right fun _ =>
      and_congr_right fun _ => forall_congr' fun j => ?_
    constructor
    · intro hh hj
      have := hh hj
      unfold RunCfg.evalBeg RunCfg.evalEnd RunCfg.leftExt RunCfg.rightExt at this
      simp only [(hsr j hj).1, (hsr j hj).2, if_true, ne_eq, not_true_eq_false, if_false, sub_zero, add_zero] at this
      exact this
    · intro hh hj
      have := hh hj
      unfold RunCfg.evalBeg RunCfg.evalEnd RunCfg.leftExt RunCfg.rightExt
      simp only [(hsr j hj).1, (hsr j hj).2, if_true, ne_eq, not_true_eq_false, if_false, sub_zero, add_zero]
      exact this
  refine ⟨_, exec_tasks h hf hi u A hA tr t2 a1 a2 mem, ?_⟩
  unfold SolnCode.refRun
  rw [ref_tasks hf hi u A _ fun a ha => a2 a ((hm a).2 ha)]
  rw [evalTasks_eq hf hi h u A (RunCfg.stepDir_cases first last) a1 r1 hm a2 (g3.imp fun h => h rfl) (r3.imp fun h => h rfl)]

/-- C83 (part): also on several ranks, the storage after the evaluations of a rank does not depend on the order in which the threads run
the inner loops. -/
theorem C83_threads_partial (h : R.cfg.Ok) (hrem : R.cfg.tbSteps = 0 ∨ R.cfg.NoShortRemainder)
    (hf : R.Fits V inner folds rofs) (hi : R.Indep) (u : V) (A : Arith V) (hA : R.Exprs A) (first last : Int) (mem : Nat → Int → V)
    (tr tr' : List CodeAct) (ht : R.runSolution first last tr) (ht' : R.runSolution first last tr') :
    ∃ mem', R.exec u A tr mem = .ok mem' ∧ R.exec u A tr' mem = .ok mem' := by
  obtain ⟨t1, t2⟩ := run_tasks hf h.nd_le ht
  obtain ⟨a1, a2⟩ := atTask_of_run h t1
  obtain ⟨t1', t2'⟩ := run_tasks hf h.nd_le ht'
  obtain ⟨a1', a2'⟩ := atTask_of_run h t1'
  obtain ⟨g1, g2, g3⟩ := RunCfg.good_runSolution (en := true) h (fun _ => hrem) first last _ t1
  obtain ⟨r1, r2, r3⟩ := RunCfg.good_runSolution (en := true) h (fun _ => hrem) first last _ t1'
  refine ⟨_, exec_tasks h hf hi u A hA tr t2 a1 a2 mem, ?_⟩
  rw [exec_tasks h hf hi u A hA tr' t2' a1' a2' mem,
    evalTasks_eq hf hi h u A (RunCfg.stepDir_cases first last) a1 a1' (fun a => (g2 a).trans (r2 a).symm) a2 (g3.imp fun h => h rfl)
      (r3.imp fun h => h rfl)]

/-- C83 (part): the settings of the run do not matter: with the same equations in the same parts and the same stencil problem, but other
tile sizes, numbers of steps per tile, loop paths and bindings of threads, the storage afterwards is the same. -/
theorem C83_settings_partial {R' : SolnCode} (hp : SameProblem R.cfg R'.cfg) (hd : R'.dims = R.dims) (hs : R'.step = R.step)
    (he : ∀ st p, (R'.code st p).eqs = (R.code st p).eqs ∧ ∀ i, ((R'.code st p).vars i).g = ((R.code st p).vars i).g ∧
      ((R'.code st p).vars i).names = ((R.code st p).vars i).names)
    (h : R.cfg.Ok) (hsr : R.cfg.SingleRank) (hrem : R.cfg.tbSteps = 0 ∨ R.cfg.NoShortRemainder) (hf : R.Fits V inner folds rofs)
    (hi : R.Indep) (h' : R'.cfg.Ok) (hsr' : R'.cfg.SingleRank) (hrem' : R'.cfg.tbSteps = 0 ∨ R'.cfg.NoShortRemainder)
    {folds' rofs' : List Int} (hf' : R'.Fits V inner folds' rofs') (hi' : R'.Indep) (u : V) (A : Arith V) (hA : R.Exprs A)
    (hA' : R'.Exprs A) (first last : Int) (mem : Nat → Int → V) (tr tr' : List CodeAct) (ht : R.runSolution first last tr)
    (ht' : R'.runSolution first last tr') :
    ∃ mem', R.exec u A tr mem = .ok mem' ∧ R'.exec u A tr' mem = .ok mem' := by
  obtain ⟨m1, e1, e2⟩ := C83_run_partial h hsr hrem hf hi u A hA first last mem tr ht
  obtain ⟨m2, e3, e4⟩ := C83_run_partial h' hsr' hrem' hf' hi' u A hA' first last mem tr' ht'
  have hr : R'.cfg.runRef first last = R.cfg.runRef first last := by
    unfold RunCfg.runRef RunCfg.rankEnd
    simp only [hp.nd, hp.nst, hp.nparts, hp.dom, hp.stepOk, hp.rankBeg, hp.rankSize]
  have ht : R'.refTask u A = R.refTask u A := by
    funext m a
    unfold SolnCode.refTask
    simp only [(he a.stage a.part).1, fun i => ((he a.stage a.part).2 i).1, fun i => ((he a.stage a.part).2 i).2, hd, hs]
  have : R'.refRun u A first last mem = R.refRun u A first last mem := by
    unfold SolnCode.refRun SolnCode.refTasks
    rw [hr, ht]
  rw [this, e2] at e4
  injection e4 with e4
  exact ⟨m1, e1, by rw [e3, e4]⟩

/-- The slot of the steps of each var that the code of a part uses in step `t`, for an access with offset `s`: the element
of step `t + s` is in the slot that the var itself finds for that step, which is the number of the step modulo the number
of steps that are allocated for this var. -/
theorem C83_slots (st p : Nat) (t s : Int) (i : Nat) (hs : ((R.code st p).vars i).g.hasStep = true)
    (hz : 0 < ((R.code st p).vars i).g.stepSize)
    (ha : R.dynamic = true ∨ R.alloc i = ((R.code st p).vars i).g.stepSize) :
    ((R.partAt st p t).c.vars i).slot s = (t + s) % ((R.code st p).vars i).g.stepSize ∧
      ((R.code st p).vars i).g.wrapStep (t + s) = .ok (((R.partAt st p t).c.vars i).slot s) := by
  have hz' : ((R.code st p).vars i).g.stepSize ≠ 0 := by omega
  have hw : ((R.code st p).vars i).g.wrapStep (t + s) = .ok ((t + s) % ((R.code st p).vars i).g.stepSize) := by
    unfold Geom.wrapStep
    rw [if_neg hz', imodFlr_eq _ _ hz]
  have h1 : stepSlot ((R.code st p).vars i).g R.dynamic (R.alloc i) (t + s)
      = .ok ((t + s) % ((R.code st p).vars i).g.stepSize) := by
    cases h2 : stepSlot ((R.code st p).vars i).g R.dynamic (R.alloc i) (t + s) with
    | ok k =>
      have h3 := stepSlot_wrap ha hs h2 hz'
      rw [hw] at h3
      injection h3 with h3
      rw [h3]
    | throws =>
      exfalso
      unfold stepSlot at h2
      rw [if_pos hs, hw] at h2
      revert h2
      split
      · intro h; cases h
      · split <;> intro h <;> cases h
    | undefined =>
      exfalso
      unfold stepSlot at h2
      rw [if_pos hs, hw] at h2
      revert h2
      split
      · intro h; cases h
      · split <;> intro h <;> cases h
  have h4 : ((R.partAt st p t).c.vars i).slot s = (t + s) % ((R.code st p).vars i).g.stepSize := by
    change (match stepSlot ((R.code st p).vars i).g R.dynamic (R.alloc i) (t + s) with | .ok k => k | _ => 0) = _
    rw [h1]
  exact ⟨h4, by rw [h4]; exact hw⟩

end
/-! ### An example: the equations of `LoopExample` on a rank with wave-fronts of two steps -/

namespace SolnRunExample
open LoopExample NanoRunExample

/-- Points 20 to 29 in `x` and 0 to 8 in `y`; mega-blocks of 8 by 9 points and two steps, blocks of 4 by 4 points. The equations are
evaluated at points 22 to 28 and 1 to 5. -/
def cfg : RunCfg where
  nd := 2
  dim := fun j => if j = 0 then ⟨4, 1, 20, 10, 8, 4, 4, 1, true, true, 20, 30⟩ else ⟨2, 2, 0, 9, 9, 4, 4, 1, true, true, 0, 9⟩
  nst := 1
  megaSteps := 2
  blockSteps := 0
  roundTb := false
  overlap := false
  stageBB := fun _ j => if j = 0 then (22, 29) else (1, 6)
  nparts := fun st => if st = 0 then 1 else 0
  dom := fun _ _ x => decide ((22 ≤ x.getD 0 0 ∧ x.getD 0 0 < 29) ∧ 1 ≤ x.getD 1 0 ∧ x.getD 1 0 < 6)
  stepOk := fun _ _ _ => true

theorem dim_cases {P : Nat → Prop} (h0 : P 0) (h1 : P 1) : ∀ j, j < cfg.nd → P j := by
  intro j hj
  have : j = 0 ∨ j = 1 := by simp only [cfg] at hj; omega
  rcases this with rfl | rfl
  · exact h0
  · exact h1

theorem cfg_ok : cfg.Ok where
  nd_le := by decide
  fold_pos := dim_cases (by decide) (by decide)
  halo_nonneg := dim_cases (by decide) (by decide)
  rank_pos := dim_cases (by decide) (by decide)
  mega_pos := dim_cases (by decide) (by decide)
  block_pos := dim_cases (by decide) (by decide)
  block_ge := dim_cases (by decide) (by decide)
  micro_pos := dim_cases (by decide) (by decide)
  mega_steps := by decide
  block_steps := by decide
  dom_bb := by
    intro st p x hx
    simp only [cfg, decide_eq_true_eq] at hx
    refine dim_cases ?_ ?_ <;> simp only [cfg, InIvl] <;> simp only [if_true, if_false, one_ne_zero] <;> omega
  dom_ext := by
    intro st p x hx
    simp only [cfg, decide_eq_true_eq, List.getD_eq_getElem?_getD] at hx
    refine dim_cases ?_ ?_ <;>
      simp [cfg, InIvl, RunCfg.extBeg, RunCfg.extEnd, RunCfg.rankEnd, RunCfg.leftExt, RunCfg.rightExt] <;> omega
  ext_ranks := by
    refine dim_cases ?_ ?_ <;> intro left hl <;> exfalso <;> revert hl <;> cases left <;> decide +kernel

theorem cfg_single : cfg.SingleRank := dim_cases (by decide) (by decide)

/-- One part, with one bounding box; the allocations of the steps are known in the generated code. -/
def soln : SolnCode where
  cfg := cfg
  dims := ["x", "y"]
  step := "t"
  code := fun _ _ => loop
  dynamic := false
  alloc := fun _ => 3
  firstInner := true
  microFeat := {}
  nanoFeat := { serp := true }
  micro := fun _ _ _ _ => ms
  bind := fun _ _ _ _ => none
  bbs := fun _ _ => [[(22, 29), (1, 6)]]

theorem fitsAt (t : Int) : (soln.partAt 0 0 t).Fits "y" true (ms.map MicroDim.fold) (ms.map MicroDim.rofs) := by
  obtain ⟨h1, h2, h3, h4, h5, h6, h7⟩ := fits
  exact ⟨h1, h2, h3, h4, h5, h6, h7⟩

theorem slotAt (t s : Int) : stepSlot PtrExample.yvar.g false 3 (t + s) = .ok (imodFlr (t + s) 3) := by
  unfold stepSlot
  rw [if_pos (by decide +kernel), if_neg (by decide), if_neg (by decide)]

/-- The code of the part at step `t`. -/
def loopAt (t : Int) : PartLoop := { loop with vars := fun _ => { lvar with slot := fun s => imodFlr (t + s) 3 } }

theorem partAt_eq (t : Int) : soln.partAt 0 0 t = ⟨loopAt t, ["x", "y"], "t", t⟩ := by
  unfold SolnCode.partAt PartLoop.atStep loopAt
  have h : (soln.code 0 0).vars = fun _ => lvar := rfl
  have h2 : (lvar).g = PtrExample.yvar.g := rfl
  simp only [h, h2, show soln.dynamic = false from rfl, show soln.alloc = fun _ => 3 from rfl, slotAt]
  rfl

theorem varAt (t : Int) (i : Nat) : (loopAt t).VarOk Int "y" (fun _ => t) i := by
  have hl := PtrExample.loopOk PtrExample.opts
  exact ⟨⟨PtrExample.yvar, PtrExample.yvar_reachable, rfl⟩, hl.steps, hl.misc, hl.var, ⟨false, 3, hl.allocEq, fun s => slotAt t s⟩, foldOf,
    rfl, foldable⟩

theorem isReadAt (t : Int) (q : LPt) : (loopAt t).IsRead q ↔ q ∈ [p1, p2, p3] := by
  show loop.IsRead q ↔ _
  exact isRead q

theorem orderAt (t : Int) (q : LPt) (l : Loc) : l ∈ (loopAt t).order q ↔
    ∃ ve ∈ vecElems (loopAt t).fold (((loopAt t).vars q.1).offsets q.2), ve.vec = l := by
  have h := part_order eqs [p1, p2, p3] q l
  simp only [loopAt]
  exact h

theorem codeAt (t : Int) : (loopAt t).Ok Int "y" fun _ => t := by
  refine ⟨fun q hq => ⟨.inl (varAt t q.1), ?_⟩, ?_, ?_, ?_, rfl, ⟨⟨3, rfl⟩, ?_⟩, ?_⟩
  · rw [isReadAt] at hq
    exact lens q (List.mem_append.2 hq)
  · exact fun e he => ⟨varAt t e.1.1, whole e he⟩
  · intro i p
    simp only [isReadAt]
    refine (mem_aligned [p1, p2, p3] i p).trans ?_
    rw [show ((loopAt t).vars i).foldable (loopAt t).fold = true from foldable]
    simp only [true_and]
    exact Iff.rfl
  · intro q _ _ l
    exact orderAt t q l
  · show loop.vlen ≤ _
    rw [vlen]; exact Nat.le_refl 8
  · intro _
    show ∃ k < loop.vlen, _
    rw [vlen]
    refine ⟨1, by decide, ?_⟩
    simp only [loopAt]
    decide

theorem solnFits : soln.Fits Int "y" (ms.map MicroDim.fold) (ms.map MicroDim.rofs) where
  foldsLen := rfl
  foldsPos := by decide
  lanes := by decide
  microFeat := ⟨_, rfl⟩
  nanoFeat := ⟨_, rfl⟩
  part := fun _ _ t _ => fitsAt t
  code := fun _ _ t _ => by
    show (soln.partAt 0 0 t).c.Ok _ _ _
    rw [partAt_eq]
    exact codeAt t
  lhsNodup := fun _ _ _ => eqsOk.1
  micro := fun _ _ _ _ _ _ => ⟨rfl, rfl, show ∀ m ∈ ms, _ from by decide⟩
  bind := fun _ _ _ _ _ _ h => by simp [soln] at h
  bbsLen := fun _ _ _ bb h => by
    obtain rfl : bb = [(22, 29), (1, 6)] := List.mem_singleton.1 h
    rfl
  bbs := fun st p _ x => by
    have : InBox x [(22, 29), (1, 6)] ↔ x.length = soln.cfg.nd ∧ soln.cfg.dom st p x = true := by
      simp only [soln, cfg, decide_eq_true_eq]
      constructor
      · intro h
        cases h with
        | cons h1 h =>
          cases h with
          | cons h2 h =>
            cases h with
            | nil => exact ⟨rfl, h1, h2⟩
      · rintro ⟨h, h1, h2⟩
        match x, h with
        | [a, b], _ => exact .cons h1 (.cons h2 .nil)
    show boxVisits [[(22, 29), (1, 6)]] x = _
    simp only [boxVisits, List.countP_cons, List.countP_nil, decide_eq_true_eq, this, Nat.zero_add]
  vars := fun _ _ _ _ _ _ _ => ⟨rfl, rfl⟩

theorem solnExprs : soln.Exprs intArith := fun _ _ _ => ⟨⟨node, eqsOk.2.1⟩, eqsOk.2.2⟩

/-- The element that a point means at step `t`. -/
theorem elemOf (t a b : Int) (q : LPt) (s o1 o2 m : Int) (hq : q.2 = [s, o1, o2, m]) :
    (soln.partAt 0 0 t).elemAt q [a, b] = [t + s, a + o1, b + o2, m] := by
  rw [partAt_eq]
  show gridElem _ ["t", "x", "y", "m"] (PtrExample.yvar.g.dims.map accessDim) _ = _
  rw [accessDims, hq]
  rfl

theorem at_pt {st p : Nat} {t : Int} {x : List Int} (h : soln.At st p t x) :
    ∃ a b, x = [a, b] ∧ (22 ≤ a ∧ a < 29) ∧ 1 ≤ b ∧ b < 6 := by
  obtain ⟨_, _, h3, h4⟩ := h
  match x, h3 with
  | [a, b], _ =>
    simp only [soln, cfg, decide_eq_true_eq] at h4
    exact ⟨a, b, rfl, h4⟩

theorem part_zero {st p : Nat} (h : p < soln.cfg.nparts st) : p = 0 := by
  have h : p < if st = 0 then 1 else 0 := h
  split at h <;> omega

theorem lhs_cases {q : LPt} (h : q ∈ eqs.map (·.1)) : q = (0, [1, 0, 0, 0]) ∨ q = (0, [1, 0, 0, -1]) := by
  simpa [eqs] using h

theorem domDim {q : LPt} {k : Nat} {d : String} (h : (loop.vars q.1).DomainDim k d) : k = 1 ∧ d = "x" ∨ k = 2 ∧ d = "y" := by
  obtain ⟨h1, g, h2, h3⟩ := h
  change ["t", "x", "y", "m"][k]? = some d at h1
  change PtrExample.yvar.g.dims[k]? = some g at h2
  have hk : (PtrExample.yvar.g.dims.map (·.kind))[k]? = some .domain := by
    rw [List.getElem?_map, h2, Option.map_some, h3]
  rw [show PtrExample.yvar.g.dims.map (·.kind) = [.step, .domain, .domain, .misc] by decide +kernel] at hk
  match k with
  | 0 => simp at hk
  | 1 => left; simpa using h1.symm
  | 2 => right; simpa using h1.symm
  | 3 => simp at hk
  | k + 4 => simp at hk

theorem dom1 (q : LPt) : (loop.vars q.1).DomainDim 1 "x" := by
  refine ⟨rfl, ?_⟩
  have : (PtrExample.yvar.g.dims.map (·.kind))[1]? = some .domain := by decide +kernel
  rw [List.getElem?_map, Option.map_eq_some_iff] at this
  exact this

theorem dom2 (q : LPt) : (loop.vars q.1).DomainDim 2 "y" := by
  refine ⟨rfl, ?_⟩
  have : (PtrExample.yvar.g.dims.map (·.kind))[2]? = some .domain := by decide +kernel
  rw [List.getElem?_map, Option.map_eq_some_iff] at this
  exact this

theorem solnIndep : soln.Indep where
  range st p t x hx q hq := by
    obtain ⟨a, b, rfl, ha, hb⟩ := at_pt hx
    show InRangeButStep PtrExample.yvar.g.api ((soln.partAt 0 0 t).elemAt q [a, b])
    rw [api]
    have hq : q ∈ eqs.map (·.1) ++ [p1, p2, p3] := List.mem_append.2 (hq.imp id (isRead q).1)
    simp only [eqs, List.map_cons, List.map_nil, List.cons_append, List.nil_append, List.mem_cons, List.not_mem_nil, or_false] at hq
    unfold InRangeButStep
    rcases hq with rfl | rfl | rfl | rfl | rfl <;> rw [elemOf t a b _ _ _ _ _ rfl] <;> simp <;> omega
  lhsDims st p _ q hq d hd := by
    have : d = "x" ∨ d = "y" := by simpa [soln] using hd
    rcases this with rfl | rfl
    · exact ⟨1, dom1 q⟩
    · exact ⟨2, dom2 q⟩
  lhsZero st p _ q hq k d hk := by
    rcases domDim hk with ⟨rfl, _⟩ | ⟨rfl, _⟩ <;> rcases lhs_cases hq with rfl | rfl <;> rfl
  halo st p _ q hq _ j k d hj hk := by
    have hq := (isRead q).1 hq
    simp only [List.mem_cons, List.not_mem_nil, or_false] at hq
    rcases domDim hk with ⟨rfl, rfl⟩ | ⟨rfl, rfl⟩
    · have : j = 0 := by
        match j with
        | 0 => rfl
        | 1 => simp [soln] at hj
        | j + 2 => simp [soln] at hj
      subst this
      rcases hq with rfl | rfl | rfl <;> exact ⟨_, rfl, by decide⟩
    · have : j = 1 := by
        match j with
        | 0 => simp [soln] at hj
        | 1 => rfl
        | j + 2 => simp [soln] at hj
      subst this
      rcases hq with rfl | rfl | rfl <;> exact ⟨_, rfl, by decide⟩
  writes st p p' t x hx hx' q hq q' hq' _ hs := by
    have hp : p = p' := by
      rw [part_zero hx.1, part_zero hx'.1]
    obtain ⟨a, b, rfl, ha, hb⟩ := at_pt hx
    change SameElem PtrExample.yvar.g.api ((soln.partAt 0 0 t).elemAt q [a, b]) ((soln.partAt 0 0 t).elemAt q' [a, b]) at hs
    rw [api] at hs
    refine ⟨hp, ?_⟩
    rcases lhs_cases hq with rfl | rfl <;> rcases lhs_cases hq' with rfl | rfl
    · rfl
    · rw [elemOf t a b _ _ _ _ _ rfl, elemOf t a b _ _ _ _ _ rfl] at hs
      simp [SameElem] at hs
    · rw [elemOf t a b _ _ _ _ _ rfl, elemOf t a b _ _ _ _ _ rfl] at hs
      simp [SameElem] at hs
    · rfl
  reads st p p' t x y hx hy r hr r' hr' q hq _ hs := by
    have hp : p = p' := by
      rw [part_zero hx.1, part_zero hy.1]
    obtain ⟨a, b, rfl, ha, hb⟩ := at_pt hx
    obtain ⟨a', b', rfl, ha', hb'⟩ := at_pt hy
    change SameElem PtrExample.yvar.g.api ((soln.partAt 0 0 t).elemAt q [a, b])
      ((soln.partAt 0 0 t).elemAt (eqs[r']'hr').1 [a', b']) at hs
    rw [api] at hs
    change q ∈ ((eqs[r]'hr).2).points at hq
    have h2 : eqs.length = 2 := rfl
    have c1 : r = 0 ∨ r = 1 := by have : r < eqs.length := hr; omega
    have c2 : r' = 0 ∨ r' = 1 := by have : r' < eqs.length := hr'; omega
    refine ⟨hp, ?_⟩
    rcases c1 with rfl | rfl <;> rcases c2 with rfl | rfl <;>
      (simp only [eqs, List.getElem_cons_zero, List.getElem_cons_succ, Ex.points, Ex.pointsAll, List.append_nil, List.mem_cons,
        List.not_mem_nil, or_false, List.cons_append, List.nil_append] at hq hs
       rcases hq with rfl | rfl <;> rw [elemOf t a b _ _ _ _ _ rfl, elemOf t a' b' _ _ _ _ _ rfl] at hs <;>
        simp [SameElem] at hs <;> simp <;> omega)

/-- The hypotheses of the theorems. -/
example : soln.cfg.Ok ∧ soln.cfg.SingleRank ∧ (soln.cfg.tbSteps = 0 ∨ soln.cfg.NoShortRemainder) ∧ soln.cfg.wfSteps = 2 ∧
    soln.Fits Int "y" (ms.map MicroDim.fold) (ms.map MicroDim.rofs) ∧ soln.Indep ∧ soln.Exprs intArith :=
  ⟨cfg_ok, cfg_single, Or.inl (by decide +kernel), by decide +kernel, solnFits, solnIndep, solnExprs⟩

/-- An element after the reference run from step 7 to step 8. -/
def refAfter (x : List Int) : Outcome Int := do
  let m ← soln.refRun 0 intArith 7 8 mem
  let a ← PtrExample.yvar.g.addrOf x
  .ok (m 0 a)

/-- In step 8, `A(9, 24, 2, 0)` is set from `A(8, 23, 3, -1)`, which was set in step 7, and from `A(6, 24, 2, 0)`. -/
example : refAfter [8, 23, 3, -1] = (do let a ← addr [7, 23, 1, 0]; let b ← addr [7, 22, 4, -1]; .ok (a - b)) ∧
    refAfter [9, 24, 2, 0] = (do
      let a ← addr [7, 23, 1, 0]; let b ← addr [7, 22, 4, -1]; let c ← addr [6, 24, 2, 0]
      .ok (a - b + c * 3)) := by decide +kernel

/-- So it is for the generated code, in all orders. -/
example (tr : List CodeAct) (ht : soln.runSolution 7 8 tr) :
    (do let m ← soln.exec 0 intArith tr mem; let a ← PtrExample.yvar.g.addrOf [9, 24, 2, 0]; Outcome.ok (m 0 a)) =
      refAfter [9, 24, 2, 0] := by
  obtain ⟨m, h1, h2⟩ := C83_run_partial cfg_ok cfg_single (Or.inl (by decide +kernel)) solnFits solnIndep 0 intArith solnExprs 7 8 mem tr ht
  unfold refAfter
  rw [h1]
  exact congrArg (fun o : Outcome (Nat → Int → Int) => o.bind fun m => (PtrExample.yvar.g.addrOf [9, 24, 2, 0]).bind fun a => .ok (m 0 a)) h2.symm

/-- A case for `C83_slots`: two vars with 3 and with 2 steps; step `5` is in slot 2 of one and in slot 1 of the other. -/
def solnTwo : SolnCode :=
  { soln with
    code := fun _ _ => { loop with vars := fun i =>
      if i = 1 then { loop.vars 0 with g := { (loop.vars 0).g with dims := (loop.vars 0).g.dims.map fun d =>
        if d.kind = .step then { d with domain := 2 } else d } } else loop.vars 0 }
    alloc := fun i => if i = 1 then 2 else 3 }

example : ((solnTwo.partAt 0 0 4).c.vars 0).slot 1 = 2 ∧ ((solnTwo.partAt 0 0 4).c.vars 1).slot 1 = 1 :=
  ⟨(C83_slots (R := solnTwo) 0 0 4 1 0 (by decide +kernel) (by decide +kernel) (Or.inr (by decide +kernel))).1.trans (by decide +kernel),
    (C83_slots (R := solnTwo) 0 0 4 1 1 (by decide +kernel) (by decide +kernel) (Or.inr (by decide +kernel))).1.trans (by decide +kernel)⟩

end SolnRunExample
end Yask
