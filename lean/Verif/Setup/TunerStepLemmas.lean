import Verif.Setup.TunerRunLemmas
import Mathlib.Tactic.Linarith
import Mathlib.Tactic.Ring
import Mathlib.Algebra.Order.Field.Basic

/-! One call of `AutoTuner::eval`, and sequences of calls. -/

namespace Yask.Setup
open Spec

/-- What no call changes. -/
structure SameProblem (t t' : Tuner) : Prop where
  targets : t'.targets = t.targets
  nd : t'.set.nd = t.set.nd
  rank : t'.set.rank = t.set.rank
  fold : t'.set.fold = t.set.fold

theorem SameProblem.refl (t : Tuner) : SameProblem t t := ⟨rfl, rfl, rfl, rfl⟩

theorem SameProblem.trans {a b c : Tuner} (h : SameProblem a b) (h' : SameProblem b c) : SameProblem a c :=
  ⟨h'.targets.trans h.targets, h'.nd.trans h.nd, h'.rank.trans h.rank, h'.fold.trans h.fold⟩

theorem get_set (g : Tgt) (b : BlkSizes) (n : Int) : g.get (g.set b n) = n := by cases g <;> rfl

theorem set_set (g : Tgt) (b : BlkSizes) (m n : Int) : g.set (g.set b m) n = g.set b n := by cases g <;> rfl

theorem sizesOf_setSizes (s : KSet) (g : Tgt) (bs : List Int) (h : bs.length = s.nd) :
    sizesOf (setSizes s g bs) g = bs := by
  unfold sizesOf setSizes
  refine List.ext_getElem (by simp [h]) fun i hi hi' => ?_
  simp only [List.length_map, List.length_range] at hi
  simp only [List.getElem_map, List.getElem_range, hi, if_true, get_set]
  rw [List.getD_eq_getElem _ _ hi']

/-- The rate of the trial that ends with this measurement. -/
def Tuner.trialRate (t : Tuner) (etime : Rat) (steps : Int) : Rat := ((t.csteps + steps : Int) : Rat) / (t.ctime + etime)

/-- The results with the one of the trial that ends. -/
def Tuner.newResults (t : Tuner) (g : Tgt) (etime : Rat) (steps : Int) : List (List Int × Rat) :=
  t.results ++ [(sizesOf t.set g, t.trialRate etime steps)]

/-- The state after the result of a trial has been recorded. -/
def Tuner.recorded (t : Tuner) (g : Tgt) (crate : Rat) : Tuner :=
  let cur := sizesOf t.set g
  let t := { t with results := t.results ++ [(cur, crate)] }
  let t := if crate > t.bestRate then { t with best := some cur, bestRate := crate, better := true } else t
  { t with csteps := 0, ctime := 0 }

theorem recorded_frame (t : Tuner) (g : Tgt) (c : Rat) :
    (t.recorded g c).set = t.set ∧ (t.recorded g c).req = t.req ∧ (t.recorded g c).reqStep = t.reqStep ∧
    (t.recorded g c).targets = t.targets ∧ (t.recorded g c).target = t.target ∧ (t.recorded g c).done = t.done ∧
    (t.recorded g c).warm = t.warm ∧ (t.recorded g c).results = t.results ++ [(sizesOf t.set g, c)] ∧
    (t.recorded g c).csteps = 0 ∧ (t.recorded g c).ctime = 0 := by
  unfold Tuner.recorded
  dsimp only
  split <;> exact ⟨rfl, rfl, rfl, rfl, rfl, rfl, rfl, rfl, rfl, rfl⟩

/-- The best size after a trial with a positive rate. -/
theorem recorded_best {t : Tuner} {g : Tgt} (h : Tuning t g) {c : Rat} (hc : 0 < c) :
    ∃ b, (t.recorded g c).best = some b ∧ (b, (t.recorded g c).bestRate) ∈ (t.recorded g c).results ∧
      0 < (t.recorded g c).bestRate ∧ ∀ r ∈ (t.recorded g c).results, r.2 ≤ (t.recorded g c).bestRate := by
  rw [(recorded_frame t g c).2.2.2.2.2.2.2.1]
  unfold Tuner.recorded
  simp only
  split
  · rename_i hgt
    refine ⟨_, rfl, by simp, hc, fun r hr => ?_⟩
    rcases List.mem_append.1 hr with hr | hr
    · cases hb : t.best with
      | none => rw [h.none_iff.1 hb] at hr; cases hr
      | some b => exact le_trans ((h.best b hb).2.2 r hr) (le_of_lt hgt)
    · rw [List.mem_singleton] at hr
      subst hr
      exact le_refl _
  · rename_i hgt
    cases hb : t.best with
    | none => exact absurd (by rw [h.rate0 hb]; exact hc) hgt
    | some b =>
      obtain ⟨b1, b2, b3⟩ := h.best b hb
      refine ⟨b, rfl, List.mem_append_left _ b1, b2, fun r hr => ?_⟩
      rcases List.mem_append.1 hr with hr | hr
      · exact b3 r hr
      · rw [List.mem_singleton] at hr
        subst hr
        exact not_lt.1 hgt

/-- What follows once the result of a trial is recorded. -/
theorem endTrial_eq (fi : Bool) (t : Tuner) (g : Tgt) (c : Rat) :
    t.endTrial fi g c =
      ((t.recorded g c).search fi (outersOf (t.recorded g c).set g) ((t.recorded g c).radius.toNat + 2) >>= fun f =>
        match f with
        | .trial bs t => ({ t with set := setSizes t.set g bs }).adjust g
        | .stop t => t.applyBest >>= fun t => t.nextTarget >>= fun p => if p.2 then pure p.1 else p.1.clear true) := rfl

/-- The end of a trial: the next trial, or the end of the search for the target. -/
theorem endTrial_spec (fi : Bool) (t : Tuner) (g : Tgt) (i : Nat) (h : Tuning t g) (hi : t.target = some i) {c : Rat}
    (hc : 0 < c) :
    ∃ t', t.endTrial fi g c = .ok t' ∧ SameProblem t t' ∧
      ((Tuning t' g ∧ t'.target = some i ∧ t'.results = t.results ++ [(sizesOf t.set g, c)] ∧ t'.csteps = 0 ∧
          t'.req = t.req ∧ t'.reqStep = t.reqStep) ∨
        (∃ b r, (b, r) ∈ t.results ++ [(sizesOf t.set g, c)] ∧ (∀ x ∈ t.results ++ [(sizesOf t.set g, c)], x.2 ≤ r) ∧
          (∀ j < t.set.nd, t'.req j = g.set (t.req j) (b.getD j 0)) ∧ Base t' ∧
          ((i + 1 < t.targets.length ∧ ∃ g', Tuning t' g' ∧ t'.target = some (i + 1) ∧ t'.results = [] ∧
              t'.csteps = 0) ∨
            (t.targets.length ≤ i + 1 ∧ t'.done = true ∧ sizesOf t'.set g = b)))) := by
  obtain ⟨f1, f2, f3, f4, f5, f6, f7, f8, f9, f10⟩ := recorded_frame t g c
  obtain ⟨b, hb1, hb2, hb3, hb4⟩ := recorded_best h hc
  rw [endTrial_eq]
  generalize ht2 : t.recorded g c = t2 at *
  have hout : ∀ j < t2.set.nd, (outersOf t2.set g).getD j 0 = t.outerFn g j ∧ 0 < t.outerFn g j ∧ 0 < t2.set.fold j := by
    intro j hj
    rw [f1] at hj ⊢
    refine ⟨?_, (h.outer_pos j hj).1, h.legal.fold_pos j hj⟩
    unfold outersOf
    rw [List.getD_eq_getElem _ _ (by simpa using hj)]
    simp only [List.getElem_map, List.getElem_range]
    exact h.outer j
  have hres : ∀ r ∈ t2.results, CanonList t.set.nd (t.outerFn g) t.set.fold r.1 := by
    intro r hr
    rw [f8] at hr
    rcases List.mem_append.1 hr with hr | hr
    · exact h.res r hr
    · rw [List.mem_singleton] at hr
      subst hr
      exact sizesOf_canon h
  have hnd : (t2.results.map Prod.fst).Nodup := by
    rw [f8, List.map_append]
    refine List.nodup_append'.2 ⟨h.nodup, by simp, fun x hx hx' => ?_⟩
    simp only [List.map_cons, List.map_nil, List.mem_singleton] at hx'
    subst hx'
    exact h.fresh hx
  rcases search_spec fi (outersOf t2.set g) (t.outerFn g) (t2.radius.toNat + 2) t2 hout (by rw [hb1]; simp)
    (by split <;> omega) with ⟨bs, t3, e1, ⟨c3, r3, k3, b3, e3⟩, e4, e5⟩ | ⟨t3, e1, ⟨c3, r3, k3, b3, e3⟩⟩
  · -- another trial
    rw [e1]
    simp only [Outcome.bind_ok]
    have s3 : t3.set = t.set := by rw [e3]; exact f1
    generalize ht4 : ({ t3 with set := setSizes t3.set g bs } : Tuner) = t4
    have s4 : t4.set = setSizes t.set g bs := by rw [← ht4, ← s3]
    have n4 : t4.set.nd = t.set.nd := by rw [s4]; rfl
    have k4 : t4.set.rank = t.set.rank := by rw [s4]; rfl
    have d4 : t4.set.fold = t.set.fold := by rw [s4]; rfl
    have q4 : t4.req = t.req := by rw [← ht4, e3]; exact f2
    have p4 : t4.reqStep = t.reqStep := by rw [← ht4, e3]; exact f3
    have l4 : t4.set.Legal := by rw [s4]; exact ⟨h.legal.rank_pos, h.legal.fold_pos, h.legal.def_pos⟩
    obtain ⟨s', a1, a2, a3, a4, a5, a6, a7, a8, a9, a10, a11, a12, a13⟩ := adjust_spec t4 g l4
    have o4 : t4.outerFn g = t.outerFn g := outerFn_congr k4 d4 n4 (by rw [s4]; rfl) (by rw [s4]; rfl) (by rw [s4]; rfl)
      q4 p4 g
    have o5 : ({ t4 with set := s' } : Tuner).outerFn g = t.outerFn g :=
      (outerFn_congr (t := t4) (t' := { t4 with set := s' }) a4 a5 a3 a6 a7 a8 rfl rfl g).trans o4
    have st4 : 0 ≤ t4.set.stepBlk.nano := by rw [s4]; exact h.step0
    have g4 : ∀ j < t.set.nd, g.get (t4.set.blk j) = bs.getD j 0 := by
      intro j hj
      rw [s4]
      unfold setSizes
      simp only [hj, if_true, get_set]
    have g5 : ∀ j < t.set.nd, g.get (s'.blk j) = bs.getD j 0 := by
      intro j hj
      rw [← g4 j hj]
      refine a13 st4 (fun j hj => ?_) j (n4 ▸ hj)
      rw [n4] at hj
      rw [g4 j hj, o4, d4]
      have := e4.2 j (by rw [f1]; exact hj)
      rwa [f1] at this
    have z4 : sizesOf s' g = bs := by
      unfold sizesOf
      refine List.ext_getElem (by simp [e4.1, a3, n4, f1]) fun j hj hj' => ?_
      simp only [List.length_map, List.length_range] at hj
      simp only [List.getElem_map, List.getElem_range]
      rw [g5 j (by omega), List.getD_eq_getElem _ _ hj']
    have r4 : t4.results = t2.results := by rw [← ht4, e3]
    refine ⟨_, a1, ⟨by rw [← ht4, e3]; exact f4, a3.trans n4, a4.trans k4, a5.trans d4⟩, Or.inl ⟨?_, ?_, ?_, ?_, q4, p4⟩⟩
    · refine ⟨a2, preBind_nested a9 a3 a4 ⟨l4.rank_pos, l4.fold_pos, l4.def_pos⟩, ?_, ?_, ?_, a12 st4 (p4 ▸ h.reqStep0), p4 ▸ h.reqStep0, ?_, ?_, ?_, ?_, ?_, ?_, ?_, ?_, ?_, ?_, ?_⟩
      · have : t4.tgt = t.tgt := by
          rw [← ht4, e3]
          unfold Tuner.tgt
          show t2.target.bind (fun i => t2.targets[i]?) = _
          rw [f4, f5]
        exact this.trans h.tgt
      · show t4.done = false
        rw [← ht4, e3]; exact f6.trans h.ndone
      · show t4.warm = false
        rw [← ht4, e3]; exact f7.trans h.nwarm
      · intro j; rw [o5, ← o4]; exact a10 j
      · intro j hj
        have hj : j < s'.nd := hj
        rw [a3, n4] at hj
        rw [o5]
        show _ ∧ _ ≤ s'.rank j
        rw [a4, k4]
        exact h.outer_pos j hj
      · intro j hj
        have hj : j < s'.nd := hj
        rw [a3] at hj
        rw [o5, ← o4]
        show Canon _ _ (s'.fold j)
        rw [a5]
        exact (a11 j hj).2.2
      · intro r hr
        have hr : r ∈ t4.results := hr
        rw [r4] at hr
        rw [o5]
        show CanonList s'.nd _ s'.fold r.1
        rw [a3, n4, a5, d4]
        exact hres r hr
      · show (t4.results.map Prod.fst).Nodup
        rw [r4]; exact hnd
      · show sizesOf s' g ∉ t4.results.map Prod.fst
        rw [z4, r4]; exact e5
      · have hb4 : t4.best = some b := by rw [← ht4, e3]; exact hb1
        refine ⟨fun hh => ?_, fun hh => ?_⟩
        · have hh : t4.best = none := hh
          rw [hb4] at hh; cases hh
        · have hh : t4.results = [] := hh
          rw [r4, f8] at hh
          simp at hh
      · intro hh
        have hh : t4.best = none := hh
        have hb4 : t4.best = some b := by rw [← ht4, e3]; exact hb1
        rw [hb4] at hh; cases hh
      · intro b' hb'
        have hb' : t4.best = some b' := hb'
        have hb4' : t4.best = some b := by rw [← ht4, e3]; exact hb1
        rw [hb4'] at hb'
        cases hb'
        show (b, t4.bestRate) ∈ t4.results ∧ 0 < t4.bestRate ∧ ∀ r ∈ t4.results, r.2 ≤ t4.bestRate
        have : t4.bestRate = t2.bestRate := by rw [← ht4, e3]
        rw [r4, this]
        exact ⟨hb2, hb3, hb4⟩
      · show 0 ≤ t4.ctime
        rw [← ht4, e3]; exact le_of_eq f10.symm
      · have : t4.csteps = 0 := by rw [← ht4, e3]; exact f9
        show 0 ≤ t4.csteps ∧ t4.csteps < trialSteps
        rw [this]
        exact ⟨le_refl _, by decide⟩
    · show t4.target = _
      rw [← ht4, e3]; exact f5.trans hi
    · show t4.results = _
      rw [r4]; exact f8
    · show t4.csteps = 0
      rw [← ht4, e3]; exact f9
  · -- the end of the search
    rw [e1]
    simp only [Outcome.bind_ok]
    have s3 : t3.set = t.set := by rw [e3]; exact f1
    have tg3 : t3.tgt = some g := by
      have : t3.tgt = t.tgt := by
        rw [e3]
        unfold Tuner.tgt
        show t2.target.bind (fun i => t2.targets[i]?) = _
        rw [f4, f5]
      exact this.trans h.tgt
    have bb3 : t3.best = some b := by rw [e3]; exact hb1
    have br3 : t3.bestRate = t2.bestRate := by rw [e3]
    have hbc : CanonList t.set.nd (t.outerFn g) t.set.fold b := hres _ hb2
    have eap : t3.applyBest = ({ t3 with
        set := setSizes t3.set g b
        req := fun j => g.set (t3.req j) (g.get ((setSizes t3.set g b).blk j))
        reqStep := g.set t3.reqStep (g.get (setSizes t3.set g b).stepBlk) } : Tuner).adjust g := by
      unfold Tuner.applyBest
      rw [tg3, bb3]
      simp only
      rw [if_pos (by rw [br3]; exact hb3)]
    rw [eap]
    generalize ht4 : ({ t3 with
        set := setSizes t3.set g b
        req := fun j => g.set (t3.req j) (g.get ((setSizes t3.set g b).blk j))
        reqStep := g.set t3.reqStep (g.get (setSizes t3.set g b).stepBlk) } : Tuner) = t4
    have s4 : t4.set = setSizes t.set g b := by rw [← ht4, ← s3]
    have n4 : t4.set.nd = t.set.nd := by rw [s4]; rfl
    have k4 : t4.set.rank = t.set.rank := by rw [s4]; rfl
    have d4 : t4.set.fold = t.set.fold := by rw [s4]; rfl
    have q3 : t3.req = t.req := by rw [e3]; exact f2
    have p3 : t3.reqStep = t.reqStep := by rw [e3]; exact f3
    have q4 : t4.req = fun j => g.set (t.req j) (g.get ((setSizes t.set g b).blk j)) := by rw [← ht4, ← q3, ← s3]
    have p4 : t4.reqStep = g.set t.reqStep (g.get t.set.stepBlk) := by rw [← ht4, ← p3, ← s3]; rfl
    have p5 : 0 ≤ t4.reqStep.nano := by
      rw [p4]
      have := h.step0; have := h.reqStep0
      cases g <;> assumption
    have l4 : t4.set.Legal := by rw [s4]; exact ⟨h.legal.rank_pos, h.legal.fold_pos, h.legal.def_pos⟩
    have st4 : 0 ≤ t4.set.stepBlk.nano := by rw [s4]; exact h.step0
    obtain ⟨s', a1, a2, a3, a4, a5, a6, a7, a8, a9, a10, a11, a12, a13⟩ := adjust_spec t4 g l4
    have o4 : t4.outerFn g = t.outerFn g := by
      funext j
      have e1 := outer_indep t.set t.req t.reqStep g (fun j => g.get ((setSizes t.set g b).blk j)) (g.get t.set.stepBlk) j
      have e2 : t4.outerFn g = ({ t with
          set := t.set, req := t4.req, reqStep := t4.reqStep } : Tuner).outerFn g :=
        outerFn_congr (t := { t with set := t.set, req := t4.req, reqStep := t4.reqStep }) k4 d4 n4 (by rw [s4]; rfl)
          (by rw [s4]; rfl) (by rw [s4]; rfl) rfl rfl g
      rw [e2, q4, p4]
      exact e1
    have g4 : ∀ j < t.set.nd, g.get (t4.set.blk j) = b.getD j 0 := by
      intro j hj
      rw [s4]
      unfold setSizes
      simp only [hj, if_true, get_set]
    have g5 : ∀ j < t.set.nd, g.get (s'.blk j) = b.getD j 0 := by
      intro j hj
      rw [← g4 j hj]
      refine a13 st4 (fun j hj => ?_) j (n4 ▸ hj)
      rw [n4] at hj
      rw [g4 j hj, o4, d4]
      exact hbc.2 j hj
    have z4 : sizesOf s' g = b := by
      unfold sizesOf
      refine List.ext_getElem (by simp [hbc.1, a3, n4]) fun j hj hj' => ?_
      simp only [List.length_map, List.length_range] at hj
      simp only [List.getElem_map, List.getElem_range]
      rw [g5 j (by omega), List.getD_eq_getElem _ _ hj']
    rw [a1]
    simp only [Outcome.bind_ok]
    have base5 : Base ({ t4 with set := s' } : Tuner) :=
      ⟨a2, preBind_nested a9 a3 a4 ⟨l4.rank_pos, l4.fold_pos, l4.def_pos⟩, a12 st4 p5, p5⟩
    have done5 : ({ t4 with set := s' } : Tuner).done = false := by
      show t4.done = false
      rw [← ht4, e3]; exact f6.trans h.ndone
    have tgs5 : ({ t4 with set := s' } : Tuner).targets = t.targets := by
      show t4.targets = _
      rw [← ht4, e3]; exact f4
    have tg5 : ({ t4 with set := s' } : Tuner).target = some i := by
      show t4.target = _
      rw [← ht4, e3]; exact f5.trans hi
    have q5 : ∀ j < t.set.nd, t4.req j = g.set (t.req j) (b.getD j 0) := by
      intro j hj
      rw [q4]
      simp only
      rw [← s4, g4 j hj]
    have hmem : (b, t2.bestRate) ∈ t.results ++ [(sizesOf t.set g, c)] := by rw [← f8]; exact hb2
    have hmax : ∀ x ∈ t.results ++ [(sizesOf t.set g, c)], x.2 ≤ t2.bestRate := by rw [← f8]; exact hb4
    rcases nextTarget_spec _ base5 done5 with ⟨w1, w2⟩ | ⟨w1, t6, g6, w2, w3, w4, w5, w6, w7, w8, w9, w10, w11, w12⟩
    · rw [w2]
      simp only [Outcome.bind_ok, Bool.false_eq_true, if_false]
      rw [tgs5, tg5] at w1
      refine ⟨_, rfl, ⟨tgs5, a3.trans n4, a4.trans k4, a5.trans d4⟩, Or.inr ⟨b, t2.bestRate, hmem, hmax, ?_, ?_,
        Or.inr ⟨w1, rfl, ?_⟩⟩⟩
      · exact q5
      · exact ⟨base5.legal, base5.nest, base5.step0, base5.reqStep0⟩
      · exact z4
    · rw [w2]
      simp only [Outcome.bind_ok, if_true]
      rw [tgs5, tg5] at w1
      rw [tg5] at w6
      refine ⟨t6, rfl, ⟨w7.trans tgs5, w8.trans (a3.trans n4), w9.trans (a4.trans k4), ?_⟩, Or.inr ⟨b, t2.bestRate, hmem,
        hmax, ?_, ?_, Or.inl ⟨w1, g6, w3, w6, w4, w5⟩⟩⟩
      · exact w12.trans (a5.trans d4)
      · intro j hj; rw [w10]; exact q5 j hj
      · exact ⟨w3.legal, w3.nest, w3.step0, w3.reqStep0⟩

/-- One measurement while a target is tuned. -/
theorem eval_tuning (fi : Bool) (t : Tuner) (g : Tgt) (i : Nat) (h : Tuning t g) (hi : t.target = some i) {e : Rat} {s : Int}
    (he : 0 < e) (hs : 1 ≤ s) :
    ∃ t', t.eval fi e s = .ok t' ∧ SameProblem t t' ∧
      ((Tuning t' g ∧ t'.target = some i ∧ t'.results = t.results ∧ t'.csteps = t.csteps + s ∧ t'.set = t.set ∧
          t'.req = t.req ∧ t'.reqStep = t.reqStep) ∨
        (Tuning t' g ∧ t'.target = some i ∧ t'.results = t.newResults g e s ∧ t'.csteps = 0 ∧
          t'.req = t.req ∧ t'.reqStep = t.reqStep) ∨
        (∃ b r, (b, r) ∈ t.newResults g e s ∧ (∀ x ∈ t.newResults g e s, x.2 ≤ r) ∧
          (∀ j < t.set.nd, t'.req j = g.set (t.req j) (b.getD j 0)) ∧ Base t' ∧
          ((i + 1 < t.targets.length ∧ ∃ g', Tuning t' g' ∧ t'.target = some (i + 1) ∧ t'.results = [] ∧
              t'.csteps = 0) ∨
            (t.targets.length ≤ i + 1 ∧ t'.done = true ∧ sizesOf t'.set g = b)))) := by
  have hct : 0 < t.ctime + e := by have := h.time0; linarith
  have hcs : 0 < t.csteps + s := by have := h.steps0.1; omega
  have hrate : 0 < t.trialRate e s := by
    unfold Tuner.trialRate
    have : (0 : Rat) < ((t.csteps + s : Int) : Rat) := by exact_mod_cast hcs
    exact div_pos this hct
  generalize ht1 : ({ t with csteps := t.csteps + s, ctime := t.ctime + e } : Tuner) = t1
  have heq : t.eval fi e s =
      if (t.trialRate e s > 0 ∧ t1.bestRate > 0 ∧ t.trialRate e s < t1.bestRate * cutoff) ∨
            t1.ctime ≥ t1.trialSecs ∨ t1.csteps ≥ trialSteps then
          t1.endTrial fi g (t.trialRate e s)
        else .ok t1 := by
    unfold Tuner.eval
    rw [h.ndone]
    simp only [Bool.false_eq_true, if_false, h.nwarm, hct, if_true]
    have : ({ t with csteps := t.csteps + s, ctime := t.ctime + e, done := false, warm := false } : Tuner) = t1 := by
      rw [← ht1]
      have h1 := h.ndone
      have h2 := h.nwarm
      cases t
      simp only at h1 h2
      subst h1 h2
      rfl
    have ht : t1.tgt = some g := by rw [← ht1]; exact h.tgt
    rw [this, ht]
    rw [← ht1]
    rfl
  have hset : t1.set = t.set := by rw [← ht1]
  have hres : t1.results = t.results := by rw [← ht1]
  have hof : t1.outerFn g = t.outerFn g := by rw [← ht1]; rfl
  have hg : t1.csteps < trialSteps → Tuning t1 g := fun hlt =>
    ⟨by rw [hset]; exact h.legal, by rw [hset]; exact h.nest, by rw [← ht1]; exact h.tgt, by rw [← ht1]; exact h.ndone,
      by rw [← ht1]; exact h.nwarm, by rw [hset]; exact h.step0, by rw [← ht1]; exact h.reqStep0,
      by rw [hset, hof]; exact h.outer, by rw [hset, hof]; exact h.outer_pos, by rw [hset, hof]; exact h.cur,
      by rw [hset, hof, hres]; exact h.res, by rw [hres]; exact h.nodup, by rw [hset, hres]; exact h.fresh,
      by rw [← ht1]; exact h.none_iff, by rw [← ht1]; exact h.rate0, by rw [← ht1]; exact h.best,
      by rw [← ht1]; exact le_of_lt hct, by rw [← ht1] at hlt ⊢; exact ⟨le_of_lt hcs, hlt⟩⟩
  rw [heq]
  split
  · -- `endTrial` does not look at the counters
    have hz : t1.endTrial fi g (t.trialRate e s) = t.endTrial fi g (t.trialRate e s) := by
      rw [endTrial_eq, endTrial_eq]
      have : t1.recorded g (t.trialRate e s) = t.recorded g (t.trialRate e s) := by
        rw [← ht1]
        unfold Tuner.recorded
        dsimp only
        split <;> rfl
      rw [this]
    rw [hz]
    obtain ⟨t', e1, e2, e3⟩ := endTrial_spec fi t g i h hi hrate
    exact ⟨t', e1, e2, Or.inr e3⟩
  · rename_i hc
    have hlt : t1.csteps < trialSteps := by
      by_contra hh
      exact hc (Or.inr (Or.inr (not_lt.1 hh)))
    refine ⟨t1, rfl, ?_, Or.inl ⟨hg hlt, by rw [← ht1]; exact hi, hres, by rw [← ht1], hset, by rw [← ht1], by rw [← ht1]⟩⟩
    rw [← ht1]
    exact ⟨rfl, rfl, rfl, rfl⟩

/-- The states the tuner can be in. -/
structure Good (t : Tuner) : Prop where
  base : Base t
  phase : t.done = true ∨ (t.done = false ∧ t.warm = true ∧ 0 ≤ t.ctime ∧ 0 ≤ t.csteps ∧ t.csteps < warmupSteps) ∨
    ∃ g i, Tuning t g ∧ t.target = some i ∧ i < t.targets.length

/-- One measurement while warming up. -/
theorem eval_warm (fi : Bool) (t : Tuner) (hb : Base t) (hd : t.done = false) (hw : t.warm = true) (h0 : 0 ≤ t.ctime)
    (h1 : 0 ≤ t.csteps) {e : Rat} {s : Int} (he : 0 < e) (hs : 1 ≤ s) :
    ∃ t', t.eval fi e s = .ok t' ∧ SameProblem t t' ∧ t'.req = t.req ∧ t'.reqStep = t.reqStep ∧
      ((t' = { t with csteps := t.csteps + s, ctime := t.ctime + e } ∧ t.csteps + s < warmupSteps) ∨
       (0 < t.targets.length ∧ ∃ g', Tuning t' g' ∧ t'.target = some 0 ∧ t'.results = [] ∧ t'.csteps = 0) ∨
       (t.targets.length = 0 ∧ t'.done = true ∧ Base t')) := by
  have heq : t.eval fi e s =
      if t.ctime + e < max warmupSecs t.trialSecs ∧ t.csteps + s < warmupSteps then
        .ok { t with csteps := t.csteps + s, ctime := t.ctime + e }
      else ({ t with csteps := t.csteps + s, ctime := t.ctime + e, target := none } : Tuner).nextTarget >>= fun p =>
        if p.2 then pure p.1 else p.1.clear true := by
    unfold Tuner.eval
    simp only [hd, Bool.false_eq_true, if_false, hw, if_true]
  rw [heq]
  split
  · rename_i hc
    exact ⟨_, rfl, ⟨rfl, rfl, rfl, rfl⟩, rfl, rfl, Or.inl ⟨rfl, hc.2⟩⟩
  · rcases nextTarget_spec ({ t with csteps := t.csteps + s, ctime := t.ctime + e, target := none } : Tuner)
      ⟨hb.legal, hb.nest, hb.step0, hb.reqStep0⟩ hd with ⟨w1, w2⟩ | ⟨w1, t6, g6, w2, w3, w4, w5, w6, w7, w8, w9, w10, w11, w12⟩
    · rw [w2]
      refine ⟨_, rfl, ⟨rfl, rfl, rfl, rfl⟩, rfl, rfl, Or.inr (Or.inr ⟨?_, rfl, ⟨hb.legal, hb.nest, hb.step0, hb.reqStep0⟩⟩)⟩
      have : t.targets.length ≤ 0 := w1
      omega
    · rw [w2]
      exact ⟨t6, rfl, ⟨w7, w8, w9, w12⟩, w10, w11, Or.inr (Or.inl ⟨w1, g6, w3, w6, w4, w5⟩)⟩

/-- Bound on the number of measurements still needed. -/
def Tuner.left (t : Tuner) : Nat :=
  if t.done then 0
  else if t.warm then (warmupSteps - t.csteps).toNat + t.targets.length * (rankPoints t.set.nd t.set.rank * 500)
  else (t.targets.length - nextIdx t.target) * (rankPoints t.set.nd t.set.rank * 500) +
    (rankPoints t.set.nd t.set.rank - t.results.length - 1) * 500 + (trialSteps - t.csteps).toNat

theorem left_tuning {t : Tuner} {g : Tgt} {i : Nat} (h : Tuning t g) (hi : t.target = some i) :
    t.left = (t.targets.length - (i + 1)) * (rankPoints t.set.nd t.set.rank * 500) +
      (rankPoints t.set.nd t.set.rank - t.results.length - 1) * 500 + (trialSteps - t.csteps).toNat := by
  unfold Tuner.left
  rw [h.ndone, h.nwarm, hi]
  rfl

theorem left_done {t : Tuner} (h : t.done = true) : t.left = 0 := by
  unfold Tuner.left
  rw [h]
  rfl

/-- Every measurement leaves a state of the tuner, and fewer measurements to go. -/
theorem eval_good (fi : Bool) (t : Tuner) (h : Good t) {e : Rat} {s : Int} (he : 0 < e) (hs : 1 ≤ s) :
    ∃ t', t.eval fi e s = .ok t' ∧ Good t' ∧ SameProblem t t' ∧ (t.done = true → t' = t) ∧
      (t.done = false → t'.left < t.left) := by
  rcases h.phase with hd | ⟨hd, hw, h0, h1, h2⟩ | ⟨g, i, hg, hi, hl⟩
  · refine ⟨t, ?_, h, SameProblem.refl t, fun _ => rfl, fun hh => ?_⟩
    · unfold Tuner.eval
      rw [if_pos hd]
    · rw [hd] at hh; cases hh
  · obtain ⟨t', e1, e2, -, -, e3⟩ := eval_warm fi t h.base hd hw h0 h1 he hs
    refine ⟨t', e1, ?_, e2, fun hh => (by rw [hd] at hh; cases hh), fun _ => ?_⟩
    · rcases e3 with ⟨rfl, e4⟩ | ⟨e4, g', e5, e6, -, -⟩ | ⟨e4, e5, e6⟩
      · exact ⟨⟨h.base.legal, h.base.nest, h.base.step0, h.base.reqStep0⟩,
          Or.inr (Or.inl ⟨hd, hw, by show (0 : Rat) ≤ t.ctime + e; linarith, by show 0 ≤ t.csteps + s; omega, e4⟩)⟩
      · exact ⟨⟨e5.legal, e5.nest, e5.step0, e5.reqStep0⟩, Or.inr (Or.inr ⟨g', 0, e5, e6, by rw [e2.targets]; exact e4⟩)⟩
      · exact ⟨e6, Or.inl e5⟩
    · have hL : t.left = (warmupSteps - t.csteps).toNat + t.targets.length * (rankPoints t.set.nd t.set.rank * 500) := by
        unfold Tuner.left
        rw [hd, hw]
        rfl
      rw [hL]
      rcases e3 with ⟨rfl, e4⟩ | ⟨e4, g', e5, e6, e7, e8⟩ | ⟨e4, e5, e6⟩
      · have : ({ t with csteps := t.csteps + s, ctime := t.ctime + e } : Tuner).left =
            (warmupSteps - (t.csteps + s)).toNat + t.targets.length * (rankPoints t.set.nd t.set.rank * 500) := by
          unfold Tuner.left
          simp only [hd, hw]
          rfl
        rw [this]
        omega
      · rw [left_tuning e5 e6, e7, e8, e2.targets, e2.nd, e2.rank]
        have hroom := tuning_room e5
        rw [e7, e2.nd, e2.rank] at hroom
        generalize rankPoints t.set.nd t.set.rank = B at *
        obtain ⟨L, hL'⟩ : ∃ L, t.targets.length = L + 1 := ⟨t.targets.length - 1, by omega⟩
        rw [hL']
        simp only [List.length_nil] at hroom ⊢
        have : (trialSteps - 0).toNat = 500 := by decide
        rw [this]
        have e3 : (L + 1) * (B * 500) = L * (B * 500) + B * 500 := by ring
        rw [e3]
        have e4 : L + 1 - (0 + 1) = L := by omega
        rw [e4]
        omega
      · rw [left_done e5]
        omega
  · obtain ⟨t', e1, e2, e3⟩ := eval_tuning fi t g i hg hi he hs
    have hst := hg.steps0
    have hroom := tuning_room hg
    refine ⟨t', e1, ?_, e2, fun hh => (by rw [hg.ndone] at hh; cases hh), fun _ => ?_⟩
    · rcases e3 with ⟨e3, e4, -⟩ | ⟨e3, e4, -⟩ | ⟨b, r, -, -, -, e4, ⟨e5, g', e6, e7, -⟩ | ⟨e5, e6, -⟩⟩
      · exact ⟨⟨e3.legal, e3.nest, e3.step0, e3.reqStep0⟩, Or.inr (Or.inr ⟨g, i, e3, e4, by rw [e2.targets]; exact hl⟩)⟩
      · exact ⟨⟨e3.legal, e3.nest, e3.step0, e3.reqStep0⟩, Or.inr (Or.inr ⟨g, i, e3, e4, by rw [e2.targets]; exact hl⟩)⟩
      · exact ⟨e4, Or.inr (Or.inr ⟨g', i + 1, e6, e7, by rw [e2.targets]; exact e5⟩)⟩
      · exact ⟨e4, Or.inl e6⟩
    · rw [left_tuning hg hi]
      rcases e3 with ⟨e3, e4, e5, e6, -⟩ | ⟨e3, e4, e5, e6, -⟩ | ⟨b, r, -, -, -, e4, ⟨e5, g', e6, e7, e8, e9⟩ | ⟨e5, e6, -⟩⟩
      · rw [left_tuning e3 e4, e5, e6, e2.targets, e2.nd, e2.rank]
        omega
      · have hroom' := tuning_room e3
        rw [left_tuning e3 e4, e5, e6, e2.targets, e2.nd, e2.rank]
        rw [e5, e2.nd, e2.rank] at hroom'
        unfold Tuner.newResults at hroom' ⊢
        rw [List.length_append] at hroom' ⊢
        simp only [List.length_cons, List.length_nil] at hroom' ⊢
        have : (trialSteps - 0).toNat = 500 := by decide
        rw [this]
        omega
      · have hroom' := tuning_room e6
        rw [left_tuning e6 e7, e8, e9, e2.targets, e2.nd, e2.rank]
        generalize rankPoints t.set.nd t.set.rank = B at *
        obtain ⟨L, hL'⟩ : ∃ L, t.targets.length - (i + 1) = L + 1 := ⟨t.targets.length - (i + 1) - 1, by omega⟩
        have hL2 : t.targets.length - (i + 1 + 1) = L := by omega
        rw [hL', hL2]
        have : (trialSteps - 0).toNat = 500 := by decide
        rw [this]
        have e3 : (L + 1) * (B * 500) = L * (B * 500) + B * 500 := by ring
        rw [e3]
        simp only [List.length_nil]
        omega
      · rw [left_done e6]
        have : 0 < (trialSteps - t.csteps).toNat := by omega
        omega

/-- Starting or restarting the tuner. -/
theorem clear_good (t : Tuner) (h : Base t) : ∃ t', t.clear false = .ok t' ∧ Good t' ∧ SameProblem t t' ∧
    t'.results = [] ∧ t'.done = false ∧ (t.target = none → t'.req = t.req ∧ t'.reqStep = t.reqStep ∧ t'.set = t.set) := by
  have key : ∃ t1, t.applyBest = .ok t1 ∧ Base t1 ∧ SameProblem t t1 ∧
      (t.target = none → t1.req = t.req ∧ t1.reqStep = t.reqStep ∧ t1.set = t.set) := by
    unfold Tuner.applyBest
    split
    · rename_i g b hg hb
      split
      · simp only
        generalize ht4 : ({ t with
            set := setSizes t.set g b
            req := fun j => g.set (t.req j) (g.get ((setSizes t.set g b).blk j))
            reqStep := g.set t.reqStep (g.get (setSizes t.set g b).stepBlk) } : Tuner) = t4
        have s4 : t4.set = setSizes t.set g b := by rw [← ht4]
        have p4 : t4.reqStep = g.set t.reqStep (g.get t.set.stepBlk) := by rw [← ht4]; rfl
        have p5 : 0 ≤ t4.reqStep.nano := by
          rw [p4]
          have := h.step0; have := h.reqStep0
          cases g <;> assumption
        have l4 : t4.set.Legal := by rw [s4]; exact ⟨h.legal.rank_pos, h.legal.fold_pos, h.legal.def_pos⟩
        have st4 : 0 ≤ t4.set.stepBlk.nano := by rw [s4]; exact h.step0
        obtain ⟨s', a1, a2, a3, a4, a5, a6, a7, a8, a9, a10, a11, a12, a13⟩ := adjust_spec t4 g l4
        refine ⟨_, a1, ⟨a2, preBind_nested a9 a3 a4 ⟨l4.rank_pos, l4.fold_pos, l4.def_pos⟩, a12 st4 p5, p5⟩,
          ⟨by rw [← ht4], a3.trans (by rw [s4]; rfl), a4.trans (by rw [s4]; rfl), a5.trans (by rw [s4]; rfl)⟩,
          fun hn => ?_⟩
        unfold Tuner.tgt at hg
        rw [hn] at hg
        cases hg
      · exact ⟨t, rfl, h, SameProblem.refl t, fun _ => ⟨rfl, rfl, rfl⟩⟩
    · exact ⟨t, rfl, h, SameProblem.refl t, fun _ => ⟨rfl, rfl, rfl⟩⟩
  obtain ⟨t1, e1, e2, e3, e4⟩ := key
  have e5 : t.clear false = .ok (({ t1 with done := false, target := none } : Tuner).initState true) := by
    unfold Tuner.clear
    rw [e1]
    rfl
  refine ⟨_, e5, ⟨⟨e2.legal, e2.nest, e2.step0, e2.reqStep0⟩, Or.inr (Or.inl ⟨rfl, rfl, le_refl _, le_refl _, ?_⟩)⟩,
    ⟨e3.targets, e3.nd, e3.rank, e3.fold⟩, rfl, rfl, e4⟩
  show (0 : Int) < warmupSteps
  decide

/-- A sequence of measurements with positive times and numbers of steps. -/
def Positive (ms : List (Rat × Int)) : Prop := ∀ m ∈ ms, 0 < m.1 ∧ 1 ≤ m.2

theorem run_good (fi : Bool) : ∀ (ms : List (Rat × Int)) (t : Tuner), Good t → Positive ms →
    ∃ t', t.run fi ms = .ok t' ∧ Good t' ∧ SameProblem t t' ∧ (t.left ≤ ms.length → t'.done = true) := by
  intro ms
  induction ms with
  | nil =>
    intro t h _
    refine ⟨t, rfl, h, SameProblem.refl t, fun hh => ?_⟩
    cases hd : t.done with
    | true => rfl
    | false =>
      exfalso
      obtain ⟨t', -, -, -, -, e⟩ := eval_good fi t h (e := 1) (s := 1) (by norm_num) (by omega)
      have := e hd
      simp at hh
      omega
  | cons m ms ih =>
    intro t h hp
    obtain ⟨p1, p2⟩ := hp m (by simp)
    obtain ⟨t1, e1, e2, e3, e4, e5⟩ := eval_good fi t h p1 p2
    obtain ⟨t2, f1, f2, f3, f4⟩ := ih t1 e2 fun x hx => hp x (by simp [hx])
    refine ⟨t2, ?_, f2, e3.trans f3, fun hh => f4 ?_⟩
    · unfold Tuner.run
      rw [e1]
      exact f1
    · simp only [List.length_cons] at hh
      cases hd : t.done with
      | true =>
        rw [e4 hd, left_done hd]
        omega
      | false =>
        have := e5 hd
        omega

end Yask.Setup
