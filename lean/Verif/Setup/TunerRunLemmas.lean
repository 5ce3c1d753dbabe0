import Verif.Setup.TunerLemmas
import Mathlib.Data.Fintype.BigOperators
import Mathlib.Order.Interval.Finset.Basic
import Mathlib.Data.Int.Interval
import Mathlib.Data.List.GetD
import Mathlib.Tactic.Positivity
import Mathlib.Algebra.Order.Field.Rat

/-! Helper lemmas about sequences of calls of `AutoTuner::eval`. -/

namespace Yask.Setup
open Spec

/-- Number of points of the rank domain. -/
def rankPoints (nd : Nat) (R : Nat → Int) : Nat := ∏ j : Fin nd, (R j).toNat

theorem box_count (nd : Nat) (R : Nat → Int) (L : List (List Int)) (hn : L.Nodup)
    (h : ∀ l ∈ L, l.length = nd ∧ ∀ j < nd, 1 ≤ l.getD j 0 ∧ l.getD j 0 ≤ R j) : L.length ≤ rankPoints nd R := by
  classical
  let f : List Int → (Fin nd → Int) := fun l j => l.getD j 0
  let S : Finset (Fin nd → Int) := Fintype.piFinset fun j : Fin nd => Finset.Icc 1 (R j)
  have hc : S.card = rankPoints nd R := by
    rw [Fintype.card_piFinset]
    unfold rankPoints
    refine Finset.prod_congr rfl fun j _ => ?_
    rw [Int.card_Icc]
    congr 1
    omega
  have h1 : (L.toFinset).card ≤ S.card := by
    refine Finset.card_le_card_of_injOn f (fun l hl => ?_) (fun l hl l' hl' he => ?_)
    · have := (h l (List.mem_toFinset.1 hl)).2
      simp only [S, Finset.mem_coe, Fintype.mem_piFinset, Finset.mem_Icc]
      exact fun j => this j j.2
    · obtain ⟨a1, -⟩ := h l (List.mem_toFinset.1 hl)
      obtain ⟨b1, -⟩ := h l' (List.mem_toFinset.1 hl')
      refine List.ext_getElem (by omega) fun i hi hi' => ?_
      have := congrFun he ⟨i, by omega⟩
      simp only [f] at this
      rwa [List.getD_eq_getElem _ _ hi, List.getD_eq_getElem _ _ hi'] at this
  rw [List.toFinset_card_of_nodup hn, hc] at h1
  exact h1

/-- In every dim each size is positive and no larger than the enclosing one. -/
def Nested (s : KSet) : Prop :=
  ∀ j < s.nd, 0 < (s.blk j).pico ∧ (s.blk j).pico ≤ (s.blk j).nano ∧ (s.blk j).nano ≤ (s.blk j).micro ∧
    (s.blk j).micro ≤ (s.blk j).block ∧ (s.blk j).block ≤ (s.blk j).mega ∧ (s.blk j).mega ≤ s.rank j

theorem preBind_nested {X s : KSet} (h3 : ∀ j, s.blk j = (preBind X).blk j) (h1 : s.nd = X.nd) (h2 : s.rank = X.rank)
    (h : X.Legal) : Nested s := by
  intro j hj
  rw [h1] at hj
  rw [h2, h3]
  obtain ⟨p1, p2, p3, p4, p5⟩ := preBind_nest X h j hj
  exact ⟨p5.pos, p5.le, p4.le, p3.le, p2.le, p1.le⟩

/-- What holds while the sizes of target `g` are tuned. -/
structure Tuning (t : Tuner) (g : Tgt) : Prop where
  legal : t.set.Legal
  nest : Nested t.set
  tgt : t.tgt = some g
  ndone : t.done = false
  nwarm : t.warm = false
  step0 : 0 ≤ t.set.stepBlk.nano
  reqStep0 : 0 ≤ t.reqStep.nano
  outer : ∀ j, g.outer (t.set.rank j) (t.set.blk j) = t.outerFn g j
  outer_pos : ∀ j < t.set.nd, 0 < t.outerFn g j ∧ t.outerFn g j ≤ t.set.rank j
  cur : ∀ j < t.set.nd, Canon (g.get (t.set.blk j)) (t.outerFn g j) (t.set.fold j)
  res : ∀ r ∈ t.results, CanonList t.set.nd (t.outerFn g) t.set.fold r.1
  nodup : (t.results.map Prod.fst).Nodup
  fresh : sizesOf t.set g ∉ t.results.map Prod.fst
  none_iff : t.best = none ↔ t.results = []
  rate0 : t.best = none → t.bestRate = 0
  best : ∀ b, t.best = some b → (b, t.bestRate) ∈ t.results ∧ 0 < t.bestRate ∧ ∀ r ∈ t.results, r.2 ≤ t.bestRate
  time0 : 0 ≤ t.ctime
  steps0 : 0 ≤ t.csteps ∧ t.csteps < trialSteps

theorem sizesOf_canon {t : Tuner} {g : Tgt} (h : Tuning t g) :
    CanonList t.set.nd (t.outerFn g) t.set.fold (sizesOf t.set g) := by
  unfold sizesOf
  refine ⟨by simp, fun j hj => ?_⟩
  rw [List.getD_eq_getElem _ _ (by simpa using hj)]
  simpa using h.cur j hj

/-- Not all sizes have been tried as long as the present one is new. -/
theorem tuning_room {t : Tuner} {g : Tgt} (h : Tuning t g) :
    t.results.length + 1 ≤ rankPoints t.set.nd t.set.rank := by
  have := box_count t.set.nd t.set.rank (sizesOf t.set g :: t.results.map Prod.fst)
    (List.nodup_cons.2 ⟨h.fresh, h.nodup⟩) (fun l hl => by
      have hcan : CanonList t.set.nd (t.outerFn g) t.set.fold l := by
        rcases List.mem_cons.1 hl with rfl | hl
        · exact sizesOf_canon h
        · obtain ⟨r, hr, rfl⟩ := List.mem_map.1 hl
          exact h.res r hr
      refine ⟨hcan.1, fun j hj => ?_⟩
      have h1 := hcan.2 j hj
      have := h1.pos; have := h1.le; have := (h.outer_pos j hj).2
      omega)
  simpa using this

/-- What holds in general: not yet started on a target, tuning one, or done. -/
structure Base (t : Tuner) : Prop where
  legal : t.set.Legal
  nest : Nested t.set
  step0 : 0 ≤ t.set.stepBlk.nano
  reqStep0 : 0 ≤ t.reqStep.nano

theorem outerFn_congr {t t' : Tuner} (h1 : t'.set.rank = t.set.rank) (h2 : t'.set.fold = t.set.fold)
    (h3 : t'.set.nd = t.set.nd) (h4 : t'.set.defBlk = t.set.defBlk) (h5 : t'.set.innerThreads = t.set.innerThreads)
    (h6 : t'.set.innerLoop = t.set.innerLoop) (h7 : t'.req = t.req) (h8 : t'.reqStep = t.reqStep) (g : Tgt) :
    t'.outerFn g = t.outerFn g := by
  funext j
  unfold Tuner.outerFn
  rw [h1, preBind_blk, preBind_blk]
  have hm : midNano t'.reqSet j = midNano t.reqSet j := by
    unfold midNano Tuner.reqSet defaultNano nanoSum
    simp only [h1, h2, h3, h4, h5, h6, h7, h8]
    split <;> rfl
  have hr : t'.reqSet.reqBlock j = t.reqSet.reqBlock j := by
    unfold KSet.reqBlock Tuner.reqSet
    simp only [h4, h7]
  have e1 : t'.reqSet.rank = t.reqSet.rank := h1
  have e2 : t'.reqSet.fold = t.reqSet.fold := h2
  have e3 : t'.reqSet.blk = t.reqSet.blk := h7
  simp only [hm, hr, e1, e2, e3]

/-- Selecting the next target. -/
theorem nextTarget_spec (t : Tuner) (hb : Base t) (hd : t.done = false) :
    (t.targets.length ≤ nextIdx t.target ∧
      t.nextTarget = .ok ({ t with target := none, minBlks := 1, minPts := 1 }, false)) ∨
    (nextIdx t.target < t.targets.length ∧ ∃ t' g, t.nextTarget = .ok (t', true) ∧ Tuning t' g ∧ t'.results = [] ∧
      t'.csteps = 0 ∧ t'.target = some (nextIdx t.target) ∧ t'.targets = t.targets ∧ t'.set.nd = t.set.nd ∧
      t'.set.rank = t.set.rank ∧ t'.req = t.req ∧ t'.reqStep = t.reqStep ∧ t'.set.fold = t.set.fold) := by
  by_cases hi : nextIdx t.target < t.targets.length
  · right
    refine ⟨hi, ?_⟩
    obtain ⟨g, hg⟩ : ∃ g, t.targets[nextIdx t.target]? = some g := ⟨_, List.getElem?_eq_getElem hi⟩
    have e : t.nextTarget = (t.startTarget (nextIdx t.target) g >>= fun t => pure (t, true)) := by
      unfold Tuner.nextTarget
      rw [hg]
    unfold Tuner.startTarget at e
    generalize ht1 : ({ ({ t with
        target := some (nextIdx t.target), minBlks := (t.limits g).1, minPts := (t.limits g).2 } : Tuner).initState
          false with center := sizesOf t.set g } : Tuner) = t1 at e
    have hl1 : t1.set = t.set := by rw [← ht1]; rfl
    obtain ⟨s', a1, a2, a3, a4, a5, a6, a7, a8, a9, a10, a11, a12, a13⟩ := adjust_spec t1 g (hl1 ▸ hb.legal)
    rw [e, a1]
    have hof : ({ t1 with set := s' } : Tuner).outerFn g = t1.outerFn g :=
      outerFn_congr (t := t1) (t' := { t1 with set := s' }) a4 a5 a3 a6 a7 a8 rfl rfl g
    have hres : t1.results = [] := by rw [← ht1]; rfl
    have hbest : t1.best = none := by rw [← ht1]; rfl
    have hreq : t1.reqStep = t.reqStep := by rw [← ht1]; rfl
    have htg : t1.target = some (nextIdx t.target) := by rw [← ht1]; rfl
    have htgs : t1.targets = t.targets := by rw [← ht1]; rfl
    have hcs : t1.csteps = 0 := by rw [← ht1]; rfl
    have hct : t1.ctime = 0 := by rw [← ht1]; rfl
    have hbr : t1.bestRate = 0 := by rw [← ht1]; rfl
    refine ⟨{ t1 with set := s' }, g, rfl, ?_, hres, hcs, htg, htgs, hl1 ▸ a3, hl1 ▸ a4, by rw [← ht1]; rfl, hreq,
      hl1 ▸ a5⟩
    have l1 : t1.set.Legal := hl1 ▸ hb.legal
    have hnest : Nested s' := preBind_nested a9 a3 a4 ⟨l1.rank_pos, l1.fold_pos, l1.def_pos⟩
    refine ⟨a2, hnest, ?_, ?_, ?_, a12 (hl1 ▸ hb.step0) (hreq ▸ hb.reqStep0), hreq ▸ hb.reqStep0, ?_, ?_, ?_, ?_, ?_, ?_, ?_, ?_,
      ?_, ?_, ?_⟩
    · show t1.target.bind _ = _
      rw [htg]
      show t1.targets[_]? = _
      rw [htgs, hg]
    · show t1.done = false
      rw [← ht1]; exact hd
    · show t1.warm = false
      rw [← ht1]; rfl
    · intro j; rw [hof]; exact a10 j
    · intro j hj
      rw [hof]
      refine ⟨(a11 j (a3 ▸ hj)).1, ?_⟩
      show _ ≤ s'.rank j
      rw [a4]
      exact (a11 j (a3 ▸ hj)).2.1
    · intro j hj
      rw [hof]
      show Canon _ _ (s'.fold j)
      rw [a5]
      exact (a11 j (a3 ▸ hj)).2.2
    · intro r hr
      have hr : r ∈ t1.results := hr
      rw [hres] at hr; cases hr
    · show (t1.results.map Prod.fst).Nodup
      rw [hres]; exact List.nodup_nil
    · show _ ∉ t1.results.map Prod.fst
      rw [hres]; exact List.not_mem_nil
    · exact ⟨fun _ => hres, fun _ => hbest⟩
    · intro _; exact hbr
    · intro b hb
      have hb : t1.best = some b := hb
      rw [hbest] at hb; cases hb
    · exact le_of_eq hct.symm
    · exact ⟨le_of_eq hcs.symm, by show t1.csteps < _; rw [hcs]; decide⟩
  · left
    refine ⟨by omega, ?_⟩
    have hg : t.targets[nextIdx t.target]? = none := List.getElem?_eq_none (by omega)
    unfold Tuner.nextTarget
    rw [hg]

end Yask.Setup
