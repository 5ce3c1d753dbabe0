import Verif.Kernel.SolnRunOrder
import Verif.Sched.ScratchTrace

/-! Helper lemmas: the runs of the inner loops in a run, and the points that they evaluate. -/

namespace Yask
open Spec

section
variable {α ι : Type*}

theorem interleave_singleton (x : α) (u v : List α) : Interleave [x] (u ++ v) (u ++ x :: v) := by
  induction u with
  | nil => exact .left (by
      induction v with
      | nil => exact .nil
      | cons b v ih => exact .right ih)
  | cons a u ih => exact .right ih

/-- Any order of actions is a trace of running them concurrently. -/
theorem doPar_of_perm (g : ι → α) : ∀ (l : List ι) (t : List α), t.Perm (l.map g) → doPar (l.map fun y => doOne (g y)) t
  | [], t, h => by rw [List.map_nil, List.perm_nil] at h; exact h
  | y :: l, t, h => by
    have hy : g y ∈ t := h.symm.subset (by simp)
    obtain ⟨u, v, rfl⟩ := List.append_of_mem hy
    have h2 : (u ++ v).Perm (l.map g) := by
      have := List.perm_middle.symm.trans h
      rw [List.map_cons] at this
      exact (List.perm_cons _).1 this
    exact ⟨[g y], u ++ v, rfl, doPar_of_perm g l _ h2, interleave_singleton _ _ _⟩

end

namespace RunCfg
variable {α β : Type*} {c : RunCfg} (φ : α → List β) {ev : Int → Nat → Box → Traces α} {ev' : Int → Nat → Box → Traces β}
  (h : ∀ t st bx, bx.length = c.nd → Becomes φ (ev t st bx) (ev' t st bx))
include h

/-- As `becomes_calcMega`, for micro-blocks with all dims. -/
theorem becomes_calcMega_len (dir : Int) (stages : List Nat) (sect : Sect) (rankBase : Box) (t0 : Int) (nt : Nat) :
    Becomes φ (c.calcMegaWith ev dir stages sect rankBase t0 nt) (c.calcMegaWith ev' dir stages sect rankBase t0 nt) := by
  have hm : ∀ dir stages ms multi bridge sect rankBase mega blk adj mb t0 nt,
      Becomes φ (c.calcMicroWith ev dir stages ms multi bridge sect rankBase mega blk adj mb t0 nt)
        (c.calcMicroWith ev' dir stages ms multi bridge sect rankBase mega blk adj mb t0 nt) := by
    intro dir stages ms multi bridge sect rankBase mega blk adj mb t0 nt
    unfold calcMicroWith
    refine becomes_seq _ _ _ _ fun i _ => becomes_seq _ _ _ _ fun q _ => ?_
    simp only []
    split
    · exact becomes_nothing _
    · split
      · exact becomes_nothing _
      · rename_i bx hbx
        refine h _ _ _ ?_
        unfold shiftMicro at hbx
        simp only at hbx
        split at hbx
        · injection hbx with hbx
          rw [← hbx]
          simp
        · exact absurd hbx (by simp)
  unfold calcMegaWith
  split
  · refine becomes_seq _ _ _ _ fun i _ => becomes_seq _ _ _ _ fun q _ => ?_
    simp only []
    split
    · exact becomes_nothing _
    · exact becomes_par _ _ _ _ fun blk _ => becomes_seq _ _ _ _ fun mb _ => hm _ _ _ _ _ _ _ _ _ _ _ _ _
  · refine becomes_seq _ _ _ _ fun i _ => becomes_seq _ _ _ _ fun q _ => becomes_par _ _ _ _ fun blk _ => ?_
    unfold calcBlockTbWith
    split
    · exact becomes_ub _ _
    · refine becomes_seq _ _ _ _ fun sh _ => ?_
      split
      · exact becomes_ub _ _
      · exact becomes_seq _ _ _ _ fun mb _ => hm _ _ _ _ _ _ _ _ _ _ _ _ _

/-- As `becomes_runSolution`, for micro-blocks with all dims. -/
theorem becomes_runSolution_len (first last : Int) : Becomes φ (c.runSolutionWith ev first last) (c.runSolutionWith ev' first last) := by
  have hmega := becomes_calcMega_len φ h
  refine becomes_seq _ _ _ _ fun _ _ => ?_
  unfold runBatchWith
  split
  · exact becomes_seq _ _ _ _ fun _ _ => becomes_seq _ _ _ _ fun _ _ => becomes_seq _ _ _ _ fun _ _ => hmega _ _ _ _ _ _
  · exact becomes_seq _ _ _ _ fun _ _ => becomes_seq _ _ _ _ fun _ _ => hmega _ _ _ _ _ _

end RunCfg
end Yask

namespace Yask.Nano
open Spec Var Comp Spec.Cpp

section
variable {V : Type}

/-- Dims with the given folds and rank offsets. -/
def baseDims (folds rofs : List Int) : List NanoDim := List.zipWith (fun f r => ⟨f, 1, 1, r, 0, 1⟩) folds rofs

theorem baseDims_fold : ∀ (folds rofs : List Int), rofs.length = folds.length → (baseDims folds rofs).map NanoDim.fold = folds
  | [], [], _ => rfl
  | f :: fs, r :: rs, h => by
    show f :: (baseDims fs rs).map NanoDim.fold = _
    rw [baseDims_fold fs rs (by simpa using h)]
  | [], _ :: _, h => by simp at h
  | _ :: _, [], h => by simp at h

theorem baseDims_rofs : ∀ (folds rofs : List Int), rofs.length = folds.length → (baseDims folds rofs).map NanoDim.rofs = rofs
  | [], [], _ => rfl
  | f :: fs, r :: rs, h => by
    show r :: (baseDims fs rs).map NanoDim.rofs = _
    rw [baseDims_rofs fs rs (by simpa using h)]
  | [], _ :: _, h => by simp at h
  | _ :: _, [], h => by simp at h

/-- The evaluations in a run of the inner loop. -/
def actTasks (fi : Bool) (folds rofs : List Int) (a : CodeAct) : List Task :=
  (runPoints fi (baseDims folds rofs) a.run).map fun x => ⟨a.step, a.stage, a.part, x⟩

/-- What holds for every run of the inner loop. -/
def ActOk (R : SolnCode) (folds : List Int) (a : CodeAct) : Prop :=
  a.part < R.cfg.nparts a.stage ∧ MaskOk (foldPts folds) a.run.mask ∧ (0 < a.run.n → a.run.first.length = folds.length)

variable {R : SolnCode} {inner : String} {folds rofs : List Int}

section
variable (hf : R.Fits V inner folds rofs)
include hf

theorem micro_ok (hnd : R.cfg.nd ≤ 8) {t : Int} {st p : Nat} {bx : Box} (hp : p < R.cfg.nparts st) (hbx : bx.length = R.cfg.nd) :
    MicroOk R.microFeat R.nanoFeat (R.micro t st p bx) (R.bind t st p bx) ∧ (R.micro t st p bx).length = R.cfg.nd := by
  obtain ⟨h1, h2, h3⟩ := hf.micro t st p bx hp hbx
  have hl : (R.micro t st p bx).length = R.cfg.nd := by
    rw [← hf.foldsLen, ← h1, List.length_map]
  refine ⟨⟨fun m hm => ?_, by omega, by rw [prodVals_eq, h1]; exact hf.lanes, by rw [hl]; exact hf.microFeat, by rw [hl]; exact hf.nanoFeat,
    fun b hb => hf.bind t st p bx b hp hb⟩, hl⟩
  have hfold : 0 < m.fold := hf.foldsPos _ (by rw [← h1]; exact List.mem_map_of_mem hm)
  obtain ⟨a1, a2, a3, a4, a5⟩ := h3 m hm
  exact ⟨hfold, a1, a2, a3, a4, a5⟩

/-- The runs of the inner loop of a part in a micro-block evaluate the points of the part, each once. -/
theorem micro_runs (hnd : R.cfg.nd ≤ 8) {t : Int} {st p : Nat} {bx : Box} (hp : p < R.cfg.nparts st) (hbx : bx.length = R.cfg.nd) :
    ∃ runs, microRuns R.microFeat R.nanoFeat R.firstInner (R.micro t st p bx) (R.bind t st p bx) (R.bbs st p) bx = some runs ∧
      (∀ r ∈ runs, ActOk R folds ⟨t, st, p, r⟩) ∧
      (runs.flatMap (runPoints R.firstInner (baseDims folds rofs))).Perm ((RunCfg.boxPoints bx).filter (R.cfg.dom st p)) := by
  obtain ⟨hok, hl⟩ := micro_ok hf hnd (t := t) hp hbx
  obtain ⟨h1, h2, h3⟩ := hf.micro t st p bx hp hbx
  have hrl : rofs.length = folds.length := by rw [← h1, ← h2]; simp
  have hbl : bx.length = (R.micro t st p bx).length := by omega
  obtain ⟨runs, r1, r2, r3⟩ := microRuns_spec hok R.firstInner bx hbl (R.bbs st p)
    (fun bb hbb => by rw [hl]; exact hf.bbsLen st p hp bb hbb)
  obtain ⟨l, l1, l2⟩ := microWrites_count hok R.firstInner bx hbl (R.bbs st p)
    (fun bb hbb => by rw [hl]; exact hf.bbsLen st p hp bb hbb)
  rw [r2] at l1
  injection l1 with l1
  rw [← l1] at l2
  have hpts : runPoints R.firstInner (nanoDims (R.micro t st p bx) bx) = runPoints R.firstInner (baseDims folds rofs) := by
    funext r
    exact congrFun (runPoints_congr R.firstInner (by rw [nanoDims_fold _ _ hbl, h1, baseDims_fold _ _ hrl])
      (by rw [nanoDims_rofs _ _ hbl, h2, baseDims_rofs _ _ hrl])) r
  rw [hpts] at l2
  refine ⟨runs, r1, fun r hr => ⟨hp, ?_, ?_⟩, ?_⟩
  · have := (r3 r hr).1
    rw [h1] at this
    exact this
  · intro h0
    have := (r3 r hr).2 h0
    rw [this, hl, hf.foldsLen]
  · rw [List.perm_iff_count]
    intro x
    have hcov := hf.bbs st p hp x
    rw [l2 x, hcov]
    have hn : ((RunCfg.boxPoints bx).filter (R.cfg.dom st p)).Nodup := (boxPoints_nodup bx).filter _
    by_cases hx : x ∈ (RunCfg.boxPoints bx).filter (R.cfg.dom st p)
    · rw [List.count_eq_one_of_mem hn hx]
      rw [List.mem_filter, mem_boxPoints] at hx
      rw [if_pos hx.1, if_pos ⟨by rw [List.Forall₂.length_eq hx.1, hbx], hx.2⟩]
    · rw [List.count_eq_zero_of_not_mem hx]
      rw [List.mem_filter, mem_boxPoints] at hx
      split_ifs with h4 h5
      · exact absurd ⟨h4, h5.2⟩ hx
      · rfl
      · rfl

/-- The runs of the inner loops in a micro-block. -/
theorem evalMicro_becomes (hnd : R.cfg.nd ≤ 8) (t : Int) (st : Nat) (bx : Box) (hbx : bx.length = R.cfg.nd) :
    Becomes (actTasks R.firstInner folds rofs) (R.evalMicro t st bx) (R.cfg.evalBox t st bx) := by
  unfold SolnCode.evalMicro RunCfg.evalBox
  refine becomes_seq _ _ _ _ fun p hp => ?_
  rw [List.mem_range] at hp
  split
  · obtain ⟨runs, r1, r2, r3⟩ := micro_runs hf hnd (t := t) hp hbx
    rw [r1]
    simp only
    intro tr htr
    have h1 := doPar_ones runs htr
    refine doPar_of_perm (fun x => (⟨t, st, p, x⟩ : Task)) _ _ ?_
    have h2 := h1.flatMap_right (actTasks R.firstInner folds rofs)
    refine h2.trans ?_
    rw [List.flatMap_map]
    have h3 : (runs.flatMap fun r => actTasks R.firstInner folds rofs ⟨t, st, p, r⟩) =
        (runs.flatMap (runPoints R.firstInner (baseDims folds rofs))).map fun x => (⟨t, st, p, x⟩ : Task) := by
      rw [List.map_flatMap]
      rfl
    rw [h3]
    exact r3.map _
  · exact becomes_nothing _

theorem evalMicro_acts (hnd : R.cfg.nd ≤ 8) (t : Int) (st : Nat) (bx : Box) (hbx : bx.length = R.cfg.nd) :
    Always (R.evalMicro t st bx) fun tr => ∀ a ∈ tr, ActOk R folds a := by
  have hQ : Mixes fun tr : List CodeAct => ∀ a ∈ tr, ActOk R folds a :=
    ⟨by simp, fun l r t hl hr hi a ha => by
      have := (interleave_perm hi).subset ha
      rcases List.mem_append.1 this with h | h
      · exact hl a h
      · exact hr a h⟩
  unfold SolnCode.evalMicro
  refine always_seq hQ _ _ fun p hp => ?_
  rw [List.mem_range] at hp
  split
  · obtain ⟨runs, r1, r2, _⟩ := micro_runs hf hnd (t := t) hp hbx
    rw [r1]
    simp only
    intro tr htr a ha
    obtain ⟨r, hr, rfl⟩ := List.mem_map.1 ((doPar_ones runs htr).subset ha)
    exact r2 r hr
  · exact always_nothing hQ

/-- The runs of the inner loops in a run. -/
theorem run_tasks (hnd : R.cfg.nd ≤ 8) {first last : Int} {tr : List CodeAct} (ht : R.runSolution first last tr) :
    R.cfg.runSolution first last (tr.flatMap (actTasks R.firstInner folds rofs)) ∧ ∀ a ∈ tr, ActOk R folds a := by
  refine ⟨RunCfg.becomes_runSolution_len _ (evalMicro_becomes hf hnd) first last tr ht, ?_⟩
  refine RunCfg.always_runSolution hnd (Q := fun tr => ∀ a ∈ tr, ActOk R folds a) ⟨by simp, fun l r t hl hr hi a ha => ?_⟩
    (evalMicro_acts hf hnd) first last tr ht
  rcases List.mem_append.1 ((interleave_perm hi).subset ha) with h | h
  · exact hl a h
  · exact hr a h

/-- There are runs. -/
theorem run_exists (hnd : R.cfg.nd ≤ 8) (first last : Int) : ∃ tr, R.runSolution first last tr := by
  refine RunCfg.exists_runSolution hnd (fun t st bx => ?_) first last
  unfold SolnCode.evalMicro
  refine RunCfg.exists_seq _ _ fun p _ => ?_
  split
  · generalize microRuns _ _ _ _ _ _ _ = o
    cases o with
    | none => exact ⟨[], trivial⟩
    | some runs => exact ⟨_, doPar_list _ _⟩
  · exact ⟨[], rfl⟩

end

/-- Execution of runs of the inner loops: the equations are evaluated at their points, one after the other. -/
theorem exec_tasks (h : R.cfg.Ok) (hf : R.Fits V inner folds rofs) (hi : R.Indep) (u : V) (A : Arith V) (hA : R.Exprs A) :
    ∀ (tr : List CodeAct), (∀ a ∈ tr, ActOk R folds a) → (tr.flatMap (actTasks R.firstInner folds rofs)).Nodup →
      (∀ a ∈ tr.flatMap (actTasks R.firstInner folds rofs), R.AtTask a) → ∀ mem : Nat → Int → V,
      R.exec u A tr mem = .ok (R.evalTasks u A (tr.flatMap (actTasks R.firstInner folds rofs)) mem)
  | [], _, _, _, mem => rfl
  | a :: tr, hok, hnd, hat, mem => by
    rw [List.flatMap_cons, List.nodup_append] at hnd
    obtain ⟨hp, hm, hl⟩ := hok a (by simp)
    obtain ⟨⟨node, hn⟩, hpl⟩ := hA a.stage a.part hp
    have hF := hf.part a.stage a.part a.step hp
    have hrl : rofs.length = folds.length := by rw [hF.rofsLen, hF.foldLen]
    have hbf := baseDims_fold folds rofs hrl
    have hbr := baseDims_rofs folds rofs hrl
    have hF' : (R.partAt a.stage a.part a.step).Fits inner R.firstInner ((baseDims folds rofs).map NanoDim.fold)
        ((baseDims folds rofs).map NanoDim.rofs) := by rw [hbf, hbr]; exact hF
    have hpts : ∀ x ∈ runPoints R.firstInner (baseDims folds rofs) a.run, R.At a.stage a.part a.step x := by
      intro x hx
      exact hat ⟨a.step, a.stage, a.part, x⟩ (by
        rw [List.flatMap_cons]
        exact List.mem_append_left _ (List.mem_map_of_mem hx))
    have h1 := runInner_points (p := R.partAt a.stage a.part a.step) hF' (hf.code a.stage a.part a.step hp) (fun d hd => hf.foldsPos _ (by
      rw [← hbf]; exact List.mem_map_of_mem hd)) u A node (hf.lhsNodup a.stage a.part hp) hn hpl a.run (by rw [hbf]; exact hm)
      (fun h0 => by
        have h1 : (baseDims folds rofs).length = folds.length := by
          conv_rhs => rw [← hbf]
          rw [List.length_map]
        rw [hl h0, h1])
      (List.Nodup.of_map _ hnd.1) ((part_indep hf hi h).mono hpts) mem
    unfold SolnCode.exec
    rw [h1]
    simp only [Outcome.bind_ok]
    rw [exec_tasks h hf hi u A hA tr (fun b hb => hok b (List.mem_cons_of_mem _ hb)) hnd.2.1
      (fun b hb => hat b (by rw [List.flatMap_cons]; exact List.mem_append_right _ hb))]
    unfold SolnCode.evalTasks
    rw [List.flatMap_cons, List.foldl_append]
    unfold actTasks
    rw [List.foldl_map]

/-- The reference. -/
theorem ref_tasks (hf : R.Fits V inner folds rofs) (hi : R.Indep) (u : V) (A : Arith V) :
    ∀ (l : List Task), (∀ a ∈ l, R.AtTask a) → ∀ mem : Nat → Int → V, R.refTasks u A l mem = .ok (R.evalTasks u A l mem)
  | [], _, _ => rfl
  | a :: l, hat, mem => by
    have ha := hat a (by simp)
    have h1 : R.refTask u A mem a = .ok ((R.partAt a.stage a.part a.step).evalPt u A mem a.pt) :=
      refEqs_eq (p := R.partAt a.stage a.part a.step) (hf.code a.stage a.part a.step ha.1) u A (fun q hq => hi.range _ _ _ _ ha q hq) _
        (fun _ he => he) mem
    unfold SolnCode.refTasks
    rw [List.foldlM_cons, h1]
    simp only [Outcome.bind_ok]
    exact ref_tasks hf hi u A l (fun b hb => hat b (List.mem_cons_of_mem _ hb)) _

end
end Yask.Nano
