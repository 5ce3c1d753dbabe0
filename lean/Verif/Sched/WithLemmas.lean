import Verif.Sched.MicroModel
import Verif.Sched.BatchLemmas

/-! Helper lemmas: properties of the traces of a run that follow from the traces of its micro-blocks. -/

namespace Yask
open Spec

section
variable {α β : Type*}

/-! ### Replacing actions by lists of actions -/

theorem interleave_flatMap (φ : α → List β) {l r t : List α} (h : Interleave l r t) :
    Interleave (l.flatMap φ) (r.flatMap φ) (t.flatMap φ) := by
  have hl : ∀ (u l r t : List β), Interleave l r t → Interleave (u ++ l) r (u ++ t) := by
    intro u l r t h
    induction u with
    | nil => exact h
    | cons a u ih => exact .left ih
  have hr : ∀ (u l r t : List β), Interleave l r t → Interleave l (u ++ r) (u ++ t) := by
    intro u l r t h
    induction u with
    | nil => exact h
    | cons a u ih => exact .right ih
  induction h with
  | nil => exact .nil
  | left _ ih => simp only [List.flatMap_cons]; exact hl _ _ _ _ ih
  | right _ ih => simp only [List.flatMap_cons]; exact hr _ _ _ _ ih

/-- Every trace of `T` becomes a trace of `T'`. -/
def Becomes (φ : α → List β) (T : Traces α) (T' : Traces β) : Prop := ∀ t, T t → T' (t.flatMap φ)

theorem becomes_nothing (φ : α → List β) : Becomes φ doNothing doNothing := by
  intro t h
  rw [show t = [] from h]
  rfl

theorem becomes_ub (φ : α → List β) (T : Traces α) : Becomes φ T undefinedBehaviour := fun _ _ => trivial

theorem becomes_seq {ι : Type*} (φ : α → List β) (xs : List ι) (f : ι → Traces α) (g : ι → Traces β)
    (h : ∀ x ∈ xs, Becomes φ (f x) (g x)) : Becomes φ (doSeq (xs.map f)) (doSeq (xs.map g)) := by
  induction xs with
  | nil =>
    intro t ht
    rw [show t = [] from ht]
    rfl
  | cons x xs ih =>
    rintro t ⟨u, v, hu, hv, rfl⟩
    exact ⟨u.flatMap φ, v.flatMap φ, h x List.mem_cons_self u hu, ih (fun y hy => h y (List.mem_cons_of_mem _ hy)) v hv, List.flatMap_append⟩

theorem becomes_par {ι : Type*} (φ : α → List β) (xs : List ι) (f : ι → Traces α) (g : ι → Traces β)
    (h : ∀ x ∈ xs, Becomes φ (f x) (g x)) : Becomes φ (doPar (xs.map f)) (doPar (xs.map g)) := by
  induction xs with
  | nil =>
    intro t ht
    rw [show t = [] from ht]
    rfl
  | cons x xs ih =>
    rintro t ⟨u, v, hu, hv, hi⟩
    exact ⟨u.flatMap φ, v.flatMap φ, h x List.mem_cons_self u hu, ih (fun y hy => h y (List.mem_cons_of_mem _ hy)) v hv,
      interleave_flatMap φ hi⟩

/-! ### Properties kept by interleaving -/

/-- A property of traces that is kept when traces are interleaved, hence also when they are concatenated. -/
structure Mixes (Q : List α → Prop) : Prop where
  nil : Q []
  mix : ∀ l r t, Q l → Q r → Interleave l r t → Q t

/-- All traces have the property. -/
def Always (T : Traces α) (Q : List α → Prop) : Prop := ∀ t, T t → Q t

variable {Q : List α → Prop}

theorem always_nothing (hQ : Mixes Q) : Always doNothing Q := by
  intro t h
  rw [show t = [] from h]
  exact hQ.nil

theorem always_seq {ι : Type*} (hQ : Mixes Q) (xs : List ι) (f : ι → Traces α) (h : ∀ x ∈ xs, Always (f x) Q) : Always (doSeq (xs.map f)) Q := by
  induction xs with
  | nil =>
    intro t ht
    rw [show t = [] from ht]
    exact hQ.nil
  | cons x xs ih =>
    rintro t ⟨u, v, hu, hv, rfl⟩
    exact hQ.mix _ _ _ (h x List.mem_cons_self u hu) (ih (fun y hy => h y (List.mem_cons_of_mem _ hy)) v hv) (interleave_append u v)

theorem always_par {ι : Type*} (hQ : Mixes Q) (xs : List ι) (f : ι → Traces α) (h : ∀ x ∈ xs, Always (f x) Q) : Always (doPar (xs.map f)) Q := by
  induction xs with
  | nil =>
    intro t ht
    rw [show t = [] from ht]
    exact hQ.nil
  | cons x xs ih =>
    rintro t ⟨u, v, hu, hv, hi⟩
    exact hQ.mix _ _ _ (h x List.mem_cons_self u hu) (ih (fun y hy => h y (List.mem_cons_of_mem _ hy)) v hv) hi

end

namespace RunCfg
section
variable {α : Type*} (c : RunCfg) (np : Nat → Nat) (dm : Nat → Nat → List Int → Bool) (so : Nat → Nat → Int → Bool)

/-- The configuration with other parts. -/
def withParts : RunCfg := { c with nparts := np, dom := dm, stepOk := so }

theorem tbMaxSteps_withParts (k : Nat) : (c.withParts np dm so).tbMaxSteps k = c.tbMaxSteps k := by
  induction k with
  | zero => rfl
  | succ k ih =>
    show (if c.tbAngle k > 0 then min ((c.withParts np dm so).tbMaxSteps k) _ else (c.withParts np dm so).tbMaxSteps k) = _
    rw [ih]
    rfl

theorem tbSteps_withParts : (c.withParts np dm so).tbSteps = c.tbSteps := by
  show (if c.blockSteps > 0 then min c.blockSteps ((c.withParts np dm so).tbMaxSteps c.nd) else c.blockSteps) = _
  rw [tbMaxSteps_withParts]
  rfl

theorem numTbShifts_withParts : (c.withParts np dm so).numTbShifts = c.numTbShifts := by
  unfold numTbShifts
  rw [tbSteps_withParts]
  rfl

theorem tbWidth_withParts (j : Nat) : (c.withParts np dm so).tbWidth j = c.tbWidth j := by
  unfold tbWidth
  rw [numTbShifts_withParts]
  rfl

theorem blockShape_withParts : (c.withParts np dm so).blockShape = c.blockShape := by
  funext j mega blk idxs shift multi bridge
  unfold blockShape
  rw [tbWidth_withParts]
  rfl

theorem shiftMicro_withParts : (c.withParts np dm so).shiftMicro = c.shiftMicro := by
  funext mb adj blk mega shift multi bridge idxs
  unfold shiftMicro
  rw [blockShape_withParts]
  rfl

theorem calcMicroWith_withParts (ev : Int → Nat → Box → Traces α) : (c.withParts np dm so).calcMicroWith ev = c.calcMicroWith ev := by
  funext dir stages ms multi bridge sect rankBase mega blk adj mb t0 nt
  unfold calcMicroWith
  rw [shiftMicro_withParts]
  rfl

theorem calcBlockTbWith_withParts (ev : Int → Nat → Box → Traces α) : (c.withParts np dm so).calcBlockTbWith ev = c.calcBlockTbWith ev := by
  funext dir megaShift phase sect rankBase mega blk t0 nt
  unfold calcBlockTbWith
  rw [calcMicroWith_withParts]
  rfl

theorem calcBlockNoTbWith_withParts (ev : Int → Nat → Box → Traces α) : (c.withParts np dm so).calcBlockNoTbWith ev = c.calcBlockNoTbWith ev := by
  funext dir stage megaShift sect rankBase mega blk t0
  unfold calcBlockNoTbWith
  rw [calcMicroWith_withParts]
  rfl

theorem calcMegaWith_withParts (ev : Int → Nat → Box → Traces α) : (c.withParts np dm so).calcMegaWith ev = c.calcMegaWith ev := by
  funext dir stages sect rankBase t0 nt
  unfold calcMegaWith
  rw [calcBlockTbWith_withParts, calcBlockNoTbWith_withParts, tbSteps_withParts]
  rfl

theorem runBatchWith_withParts (ev : Int → Nat → Box → Traces α) : (c.withParts np dm so).runBatchWith ev = c.runBatchWith ev := by
  funext dir t0 nt
  unfold runBatchWith
  rw [calcMegaWith_withParts]
  rfl

theorem runSolutionWith_withParts (ev : Int → Nat → Box → Traces α) : (c.withParts np dm so).runSolutionWith ev = c.runSolutionWith ev := by
  funext first last
  unfold runSolutionWith
  rw [runBatchWith_withParts]
  rfl

end
end RunCfg

namespace RunCfg
variable {α β : Type*} {c : RunCfg} (φ : α → List β) {ev : Int → Nat → Box → Traces α} {ev' : Int → Nat → Box → Traces β}
  (h : ∀ t st bx, Becomes φ (ev t st bx) (ev' t st bx))
include h

theorem becomes_calcMega (dir : Int) (stages : List Nat) (sect : Sect) (rankBase : Box) (t0 : Int) (nt : Nat) :
    Becomes φ (c.calcMegaWith ev dir stages sect rankBase t0 nt) (c.calcMegaWith ev' dir stages sect rankBase t0 nt) := by
  have hm : ∀ stages ms multi bridge mega blk adj mb t0 nt,
      Becomes φ (c.calcMicroWith ev dir stages ms multi bridge sect rankBase mega blk adj mb t0 nt)
        (c.calcMicroWith ev' dir stages ms multi bridge sect rankBase mega blk adj mb t0 nt) := by
    intro stages ms multi bridge mega blk adj mb t0 nt
    unfold calcMicroWith
    refine becomes_seq _ _ _ _ fun i _ => becomes_seq _ _ _ _ fun q _ => ?_
    simp only []
    split
    · exact becomes_nothing _
    · split
      · exact becomes_nothing _
      · exact h _ _ _
  unfold calcMegaWith
  split
  · refine becomes_seq _ _ _ _ fun i _ => becomes_seq _ _ _ _ fun q _ => ?_
    simp only []
    split
    · exact becomes_nothing _
    · exact becomes_par _ _ _ _ fun blk _ => becomes_seq _ _ _ _ fun mb _ => hm _ _ _ _ _ _ _ _ _ _
  · refine becomes_seq _ _ _ _ fun i _ => becomes_seq _ _ _ _ fun q _ => becomes_par _ _ _ _ fun blk _ => ?_
    unfold calcBlockTbWith
    split
    · exact becomes_ub _ _
    · refine becomes_seq _ _ _ _ fun sh _ => ?_
      split
      · exact becomes_ub _ _
      · exact becomes_seq _ _ _ _ fun mb _ => hm _ _ _ _ _ _ _ _ _ _

theorem becomes_runBatch (dir t0 : Int) (nt : Nat) : Becomes φ (c.runBatchWith ev dir t0 nt) (c.runBatchWith ev' dir t0 nt) := by
  have hm := becomes_calcMega (c := c) φ h
  unfold runBatchWith
  split
  · exact becomes_seq _ _ _ _ fun _ _ => becomes_seq _ _ _ _ fun _ _ => becomes_seq _ _ _ _ fun _ _ => hm _ _ _ _ _ _
  · exact becomes_seq _ _ _ _ fun _ _ => becomes_seq _ _ _ _ fun _ _ => hm _ _ _ _ _ _

theorem becomes_runSolution (first last : Int) : Becomes φ (c.runSolutionWith ev first last) (c.runSolutionWith ev' first last) := by
  have hb := becomes_runBatch (c := c) φ h
  exact becomes_seq _ _ _ _ fun _ _ => hb _ _ _

end RunCfg

namespace RunCfg
variable {α : Type*} {c : RunCfg} (hn : c.nd ≤ 8) {Q : List α → Prop} (hQ : Mixes Q) {ev : Int → Nat → Box → Traces α}
  (h : ∀ t st bx, bx.length = c.nd → Always (ev t st bx) Q)
include hn hQ h

theorem always_calcMega (dir : Int) (stages : List Nat) (sect : Sect) (rankBase : Box) (t0 : Int) (nt : Nat) :
    Always (c.calcMegaWith ev dir stages sect rankBase t0 nt) Q := by
  have hm : ∀ stages ms multi bridge mega blk adj mb t0 nt,
      Always (c.calcMicroWith ev dir stages ms multi bridge sect rankBase mega blk adj mb t0 nt) Q := by
    intro stages ms multi bridge mega blk adj mb t0 nt
    unfold calcMicroWith
    refine always_seq hQ _ _ fun i _ => always_seq hQ _ _ fun q _ => ?_
    simp only []
    split
    · exact always_nothing hQ
    · split
      · exact always_nothing hQ
      · rename_i bx hbx
        refine h _ _ bx ?_
        unfold shiftMicro at hbx
        simp only at hbx
        split at hbx
        · injection hbx with hbx
          rw [← hbx]
          simp
        · exact absurd hbx (by simp)
  unfold calcMegaWith
  split
  · refine always_seq hQ _ _ fun i _ => always_seq hQ _ _ fun q _ => ?_
    simp only []
    split
    · exact always_nothing hQ
    · exact always_par hQ _ _ fun blk _ => always_seq hQ _ _ fun mb _ => hm _ _ _ _ _ _ _ _ _ _
  · refine always_seq hQ _ _ fun i _ => always_seq hQ _ _ fun ph hph => always_par hQ _ _ fun blk _ => ?_
    rw [List.mem_range] at hph
    unfold calcBlockTbWith
    rw [nChooseK_eq c.nd ph (by omega)]
    simp only [Int.toNat_natCast]
    refine always_seq hQ _ _ fun sh hsh => ?_
    rw [List.mem_range] at hsh
    obtain ⟨l, mk, h1, h2, h3⟩ := nChooseKSet_spec c.nd ph sh (by omega) (by omega) hsh
    simp only [h2]
    exact always_seq hQ _ _ fun mb _ => hm _ _ _ _ _ _ _ _ _ _

theorem always_runBatch (dir t0 : Int) (nt : Nat) : Always (c.runBatchWith ev dir t0 nt) Q := by
  have hm := always_calcMega hn hQ h
  unfold runBatchWith
  split
  · exact always_seq hQ _ _ fun _ _ => always_seq hQ _ _ fun _ _ => always_seq hQ _ _ fun _ _ => hm _ _ _ _ _ _
  · exact always_seq hQ _ _ fun _ _ => always_seq hQ _ _ fun _ _ => hm _ _ _ _ _ _

theorem always_runSolution (first last : Int) : Always (c.runSolutionWith ev first last) Q := by
  have hb := always_runBatch hn hQ h
  exact always_seq hQ _ _ fun _ _ => hb _ _ _

end RunCfg

namespace RunCfg
variable {α : Type*} {c : RunCfg}

theorem exists_seq {ι : Type} (xs : List ι) (f : ι → Traces α) (hx : ∀ x ∈ xs, ∃ t, f x t) : ∃ t, doSeq (xs.map f) t := by
  refine doSeq_exists _ fun L hL => ?_
  obtain ⟨x, hx', rfl⟩ := List.mem_map.1 hL
  exact hx x hx'

theorem exists_calcMega (hn : c.nd ≤ 8) {ev : Int → Nat → Box → Traces α} (h : ∀ t st bx, ∃ tr, ev t st bx tr) (dir : Int) (stages : List Nat)
    (sect : Sect) (rankBase : Box) (t0 : Int) (nt : Nat) : ∃ t, c.calcMegaWith ev dir stages sect rankBase t0 nt t := by
  have hseq : ∀ {ι : Type} (xs : List ι) (f : ι → Traces α), (∀ x ∈ xs, ∃ t, f x t) → ∃ t, doSeq (xs.map f) t := exists_seq
  have hpar : ∀ {ι : Type} (xs : List ι) (f : ι → Traces α), (∀ x ∈ xs, ∃ t, f x t) → ∃ t, doPar (xs.map f) t := by
    intro ι xs f hx
    refine doPar_exists _ fun L hL => ?_
    obtain ⟨x, hx', rfl⟩ := List.mem_map.1 hL
    exact hx x hx'
  have hmic : ∀ dir stages ms multi bridge sect rankBase mega blk adj mb t0 nt,
      ∃ t, c.calcMicroWith ev dir stages ms multi bridge sect rankBase mega blk adj mb t0 nt t := by
    intro dir stages ms multi bridge sect rankBase mega blk adj mb t0 nt
    unfold calcMicroWith
    refine hseq _ _ fun i _ => hseq _ _ fun q _ => ?_
    generalize c.shiftMega _ _ _ _ = o
    cases o with
    | none => exact ⟨[], rfl⟩
    | some idxs =>
      simp only []
      generalize c.shiftMicro _ _ _ _ _ _ _ _ = o
      cases o with
      | none => exact ⟨[], rfl⟩
      | some bx => exact h _ _ _
  unfold calcMegaWith
  split
  · refine hseq _ _ fun i _ => hseq _ _ fun q _ => ?_
    generalize c.shiftMega _ _ _ _ = o
    cases o with
    | none => exact ⟨[], rfl⟩
    | some mega => exact hpar _ _ fun blk _ => hseq _ _ fun mb _ => hmic _ _ _ _ _ _ _ _ _ _ _ _ _
  · refine hseq _ _ fun i _ => hseq _ _ fun ph hph => hpar _ _ fun blk _ => ?_
    rw [List.mem_range] at hph
    unfold calcBlockTbWith
    rw [nChooseK_eq c.nd ph (by omega)]
    simp only [Int.toNat_natCast]
    refine hseq _ _ fun sh hsh => ?_
    rw [List.mem_range] at hsh
    obtain ⟨l, mk, h1, h2, h3⟩ := nChooseKSet_spec c.nd ph sh (by omega) (by omega) hsh
    simp only [h2]
    exact hseq _ _ fun mb _ => hmic _ _ _ _ _ _ _ _ _ _ _ _ _

theorem exists_runSolution (hn : c.nd ≤ 8) {ev : Int → Nat → Box → Traces α} (h : ∀ t st bx, ∃ tr, ev t st bx tr) (first last : Int) :
    ∃ tr, c.runSolutionWith ev first last tr := by
  have hmega := exists_calcMega hn h
  refine exists_seq _ _ fun k _ => ?_
  unfold runBatchWith
  split
  · exact exists_seq _ _ fun _ _ => exists_seq _ _ fun _ _ => exists_seq _ _ fun _ _ => hmega _ _ _ _ _ _
  · exact exists_seq _ _ fun _ _ => exists_seq _ _ fun _ _ => hmega _ _ _ _ _ _

end RunCfg
end Yask
