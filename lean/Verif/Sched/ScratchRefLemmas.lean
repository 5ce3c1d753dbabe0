import Verif.Sched.ScratchTrace
import Verif.Sched.RefLemmas

/-! Helper lemmas: the order of the tasks of `run_ref` with scratch vars. -/

namespace Yask
open Spec RunCfg

namespace RunCfg

/-- `run_ref` with the points of each part in any order. -/
def refTraces (c : RunCfg) (first last : Int) : Traces Task :=
  doSeq ((List.range (numSteps first last)).map fun (i : Nat) =>
    doSeq ((List.range c.nst).map fun (st : Nat) => c.evalBox (first + stepDir first last * i) st (ScrCfg.rankBox c)))

theorem refTraces_spec (c : RunCfg) (first last : Int) (t : List Task) (ht : c.refTraces first last t) :
    t.Nodup ∧ (∀ a, a ∈ t ↔ c.InRef first last a) ∧ t.Pairwise (c.okOrd (stepDir first last) true) := by
  have hg := good_steps (c := c) (en := true) (stepDir_cases first last) first (numSteps first last)
    (List.range c.nst) List.pairwise_lt_range
    (fun i q => c.evalBox (first + stepDir first last * i) q
      ((List.range c.nd).map fun (j : Nat) => ((c.dim j).rankBeg, c.rankEnd j)))
    (fun i q a => q < c.nst ∧ a.step = first + stepDir first last * i ∧ a.stage = q ∧ c.Valid a ∧
      ∀ j < c.nd, InIvl (at_ a.pt j) ((c.dim j).rankBeg, c.rankEnd j))
    (by
      rintro i q a ⟨h0, h1, h2, _⟩
      refine ⟨h1, ?_⟩
      rw [h2, List.getD_eq_getElem _ _ (by simpa using h0), List.getElem_range])
    (by
      intro i _ q hq
      rw [List.length_range] at hq
      refine (good_evalBox _ _ _ _ _ _).congr ?_
      intro a
      exact ⟨fun h => ⟨hq, h⟩, fun h => h.2⟩)
  have hm := hg t (by rw [List.length_range]; exact ht)
  refine ⟨hm.1, fun a => (hm.2.1 a).trans ?_, hm.2.2⟩
  unfold InRef
  constructor
  · rintro ⟨i, hi, q, _, h0, h1, h2, h3⟩
    exact ⟨i, hi, h1, by omega, h3⟩
  · rintro ⟨i, hi, h1, h2, h3⟩
    exact ⟨i, hi, a.stage, by simpa using h2, h2, h1, rfl, h3⟩

theorem exec_refTraces (h : c.Ok) {Buf Val : Type*} (S : Stencil c Buf Val) {first last : Int} {t : List Task} (ht : c.refTraces first last t)
    (m : Buf × List Int → Val) : S.sem.exec t m = S.sem.exec (c.runRef first last) m := by
  obtain ⟨g1, g2, g3⟩ := refTraces_spec c first last t ht
  obtain ⟨r1, r2, r3⟩ := runRef_spec c first last
  exact exec_eq h S (stepDir_cases first last) g1 r1 (fun a => (g2 a).trans (r2 a).symm) (g3.imp fun h => h rfl) (r3.imp fun h => h rfl) m

end RunCfg

theorem pairwise_seq {α ι : Type*} {R : α → α → Prop} (xs : List ι) (f : ι → Traces α) (K : ι → α → Prop) (hf : ∀ x ∈ xs, ∀ t, f x t → t.Pairwise R)
    (hK : ∀ x ∈ xs, ∀ t, f x t → ∀ a ∈ t, K x a) (hx : xs.Pairwise fun i j => ∀ a b, K i a → K j b → R a b) :
    ∀ t, doSeq (xs.map f) t → t.Pairwise R ∧ ∀ a ∈ t, ∃ x ∈ xs, K x a := by
  induction xs with
  | nil =>
    intro t ht
    rw [show t = [] from ht]
    simp
  | cons x xs ih =>
    rintro t ⟨u, v, hu, hv, rfl⟩
    rw [List.pairwise_cons] at hx
    obtain ⟨h1, h2⟩ := ih (fun y hy => hf y (List.mem_cons_of_mem _ hy)) (fun y hy => hK y (List.mem_cons_of_mem _ hy)) hx.2 v hv
    refine ⟨List.pairwise_append.2 ⟨hf x List.mem_cons_self u hu, h1, fun a ha b hb => ?_⟩, fun a ha => ?_⟩
    · obtain ⟨y, hy, hk⟩ := h2 b hb
      exact hx.1 y hy a b (hK x List.mem_cons_self u hu a ha) hk
    · rcases List.mem_append.1 ha with ha | ha
      · exact ⟨x, List.mem_cons_self, hK x List.mem_cons_self u hu a ha⟩
      · obtain ⟨y, hy, hk⟩ := h2 a ha
        exact ⟨y, List.mem_cons_of_mem _ hy, hk⟩

namespace Scr
variable {Buf SVar Val : Type*} {X : Scr Buf SVar Val} {c : RunCfg}

/-- Step and stage of a task. -/
def tkey : STask → Int × Nat
  | .start t st _ => (t, st)
  | .scr t st _ _ _ => (t, st)
  | .main _ a => (a.step, a.stage)

/-- The parts evaluated for a part in `run_ref`. -/
def refItems (X : Scr Buf SVar Val) (t : Int) (st p : Nat) : List SItem := ((X.children st p).filter fun k => X.sstep k t).map SItem.scr ++ [SItem.main p]

theorem refPart_pieces (t : Int) (st p : Nat) (h : c.stepOk st p t = true) :
    X.refPart c t st p = doSeq ((none :: (refItems X t st p).map some).map
      (pieceOf X c t st (ScrCfg.rankBox c))) := by
  unfold ScrCfg.refPart
  rw [if_pos h]
  have h1 : ∀ (l : List Nat) (r : List (Traces STask)),
      doSeq (l.map (fun k => if X.sstep k t = true then X.evScr t st (ScrCfg.rankBox c) k else doNothing) ++ r) =
        doSeq ((l.filter fun k => X.sstep k t).map (fun k => X.evScr t st (ScrCfg.rankBox c) k) ++ r) := by
    intro l r
    induction l with
    | nil => rfl
    | cons k l ih =>
      by_cases hk : X.sstep k t = true
      · rw [List.filter_cons_of_pos (by exact hk), List.map_cons, List.map_cons, if_pos hk]
        funext tr
        simp only [List.cons_append, doSeq, ih]
      · rw [List.filter_cons_of_neg (by exact hk), List.map_cons, if_neg hk, ← ih]
        funext tr
        apply propext
        simp only [List.cons_append, doSeq]
        constructor
        · rintro ⟨u, v, hu, hv, rfl⟩
          rw [show u = [] from hu]
          exact hv
        · exact fun ht => ⟨[], tr, rfl, ht, rfl⟩
  unfold refItems
  simp only [List.map_cons, List.map_append, List.map_map, List.map_nil]
  funext tr
  simp only [doSeq, List.cons_append, h1]
  rfl

theorem refPart_preceded (hs : X.Supplied c) (t : Int) (st p : Nat) (hp : p < c.nparts st) (h : c.stepOk st p t = true) :
    X.AllPreceded c st t (refItems X t st p) := by
  refine allPreceded_snoc ?_ ⟨hp, h, fun k hk hst => List.mem_map_of_mem (List.mem_filter.2 ⟨hk, hst⟩)⟩
  intro l1 it l2 e
  obtain ⟨m1, m2', e1, rfl, e2⟩ := List.map_eq_append_iff.1 e
  obtain ⟨k, m2, rfl, rfl, -⟩ := List.map_eq_cons_iff.1 e2
  obtain ⟨n1, n2', e3, h1, h2⟩ := List.filter_eq_append_iff.1 e1
  obtain ⟨n3, n4, e4, h3, h4, h5⟩ := List.filter_eq_cons_iff.1 h2
  refine ⟨h4, fun y v w z k' hv hr ho hk' => ?_⟩
  have := hs.order st p (n1 ++ n3) k n4 (by rw [e3, e4]; simp) t y v w z k' hv hr ho
  refine List.mem_map_of_mem ?_
  rcases List.mem_append.1 this with hm | hm
  · rw [← h1]
    exact List.mem_filter.2 ⟨hm, hk'⟩
  · exact absurd hk' (h3 k' hm)

theorem piece_key {t : Int} {st : Nat} {bx : Box} {L : List (Option SItem)} {tr : List STask} (h : doSeq (L.map (pieceOf X c t st bx)) tr) :
    ∀ x ∈ tr, tkey x = (t, st) := by
  intro x hx
  obtain ⟨o, -, u, hu, hxu⟩ := mem_doSeq _ _ _ h x hx
  rw [pieceOf_tasks t st bx o u hu] at hxu
  rcases o with _ | (k | p)
  · rw [show x = _ from hxu]; rfl
  · obtain ⟨y, -, -, rfl⟩ := hxu; rfl
  · obtain ⟨y, -, -, rfl⟩ := hxu; rfl

/-- `(t, st)` comes before `(t', st')`. -/
def KeyLt (dir : Int) (a b : Int × Nat) : Prop := dir * a.1 < dir * b.1 ∨ (a.1 = b.1 ∧ a.2 < b.2)

/-- The facts about a reference run with scratch vars. -/
theorem ref_facts (hs : X.Supplied c) {first last : Int} {tr : List STask} (ht : X.runRef c first last tr) :
    X.Closed tr ∧ (∀ x ∈ tr, X.Regular c x) ∧ Quiet c (stepDir first last) tr ∧ c.refTraces first last (tr.flatMap STask.mains) := by
  have hlen : (ScrCfg.rankBox c).length = c.nd := by simp [ScrCfg.rankBox]
  have hdir := stepDir_cases first last
  have h1 : X.Closed tr := by
    refine always_seq mixes_closed _ _ (fun i _ => always_seq mixes_closed _ _ fun st _ => always_seq mixes_closed _ _ fun p hp => ?_) tr ht
    by_cases hst : c.stepOk st p (first + stepDir first last * i) = true
    · rw [refPart_pieces _ _ _ hst]
      exact closed_seq _ (refPart_preceded hs _ _ _ (List.mem_range.1 hp) hst)
    · unfold ScrCfg.refPart
      rw [if_neg hst]
      exact always_nothing mixes_closed
  have h2 : ∀ x ∈ tr, X.Regular c x := by
    refine always_seq (mixes_all _) _ _ (fun i _ => always_seq (mixes_all _) _ _ fun st _ => always_seq (mixes_all _) _ _ fun p hp => ?_) tr ht
    by_cases hst : c.stepOk st p (first + stepDir first last * i) = true
    · rw [refPart_pieces _ _ _ hst]
      exact regular_seq hlen _ (refPart_preceded hs _ _ _ (List.mem_range.1 hp) hst)
    · unfold ScrCfg.refPart
      rw [if_neg hst]
      exact always_nothing (mixes_all _)
  have h3 : c.refTraces first last (tr.flatMap STask.mains) := by
    refine becomes_seq _ _ _ _ (fun i _ => becomes_seq _ _ _ _ fun st _ => becomes_seq _ _ _ _ fun p hp => ?_) tr ht
    show Becomes STask.mains (X.refPart c (first + stepDir first last * i) st p) _
    by_cases hst : c.stepOk st p (first + stepDir first last * i) = true
    · unfold ScrCfg.refPart
      rw [if_pos hst, if_pos hst]
      rintro t ⟨u, v, hu, hv, rfl⟩
      rw [show u = _ from hu]
      have := becomes_items (X := X) (c := c) (φ := STask.mains) (fun a => a) (fun _ _ _ _ _ => rfl) (fun _ _ => rfl) st
        (first + stepDir first last * i) (ScrCfg.rankBox c) (refItems X (first + stepDir first last * i) st p) v
      have hv' : doSeq ((refItems X (first + stepDir first last * i) st p).map
          (X.evItem c (first + stepDir first last * i) st (ScrCfg.rankBox c))) v := by
        have e : X.refPart c (first + stepDir first last * i) st p (STask.start (first + stepDir first last * i) st (ScrCfg.rankBox c) :: v) := by
          unfold ScrCfg.refPart
          rw [if_pos hst]
          exact ⟨[_], v, rfl, hv, rfl⟩
        rw [refPart_pieces _ _ _ hst] at e
        obtain ⟨u', v', hu', hv', e'⟩ := e
        rw [show u' = _ from hu'] at e'
        simp only [List.singleton_append, List.cons.injEq] at e'
        rw [List.map_map] at hv'
        rw [e'.2]
        exact hv'
      have := this hv'
      simp only [List.flatMap_append, List.flatMap_cons, List.flatMap_nil, STask.mains, List.nil_append, List.append_nil]
      have e : ((refItems X (first + stepDir first last * i) st p).filterMap SItem.part?) = [p] := by
        unfold refItems
        rw [List.filterMap_append, List.filterMap_map]
        simp [Function.comp_def, SItem.part?]
      rw [e] at this
      obtain ⟨u2, v2, g1, g2, g3⟩ := this
      rw [show v2 = [] from g2, List.append_nil] at g3
      rw [g3]
      exact g1
    · unfold ScrCfg.refPart
      rw [if_neg hst, if_neg hst]
      exact becomes_nothing _
  have h4 : tr.Pairwise fun x y => ¬ KeyLt (stepDir first last) (tkey y) (tkey x) := by
    have hstage : ∀ i st t, doSeq ((List.range (c.nparts st)).map fun (p : Nat) => X.refPart c (first + stepDir first last * (i : Nat)) st p) t →
        ∀ x ∈ t, tkey x = (first + stepDir first last * i, st) := by
      intro i st t ht' x hx
      obtain ⟨p, hp, u, hu, hxu⟩ := mem_doSeq _ _ _ ht' x hx
      by_cases hst : c.stepOk st p (first + stepDir first last * i) = true
      · rw [refPart_pieces _ _ _ hst] at hu
        exact piece_key hu x hxu
      · unfold ScrCfg.refPart at hu
        rw [if_neg hst] at hu
        rw [show u = [] from hu] at hxu
        exact absurd hxu List.not_mem_nil
    refine (pairwise_seq _ _ (fun i x => ∃ st < c.nst, tkey x = (first + stepDir first last * (i : Nat), st)) ?_ ?_ ?_ tr ht).1
    · intro i _ t ht'
      refine (pairwise_seq _ _ (fun st x => tkey x = (first + stepDir first last * (i : Nat), st)) ?_ ?_ ?_ t ht').1
      · intro st _ u hu
        have := hstage i st u hu
        refine List.Pairwise.imp_of_mem (fun {x y} hx hy _ => ?_) (List.pairwise_of_forall (fun _ _ => trivial : ∀ _ _ : STask, True))
        rw [this x hx, this y hy]
        unfold KeyLt
        simp
      · exact fun st _ u hu => hstage i st u hu
      · refine List.pairwise_lt_range.imp fun hlt x y hx hy => ?_
        rw [hx, hy]
        unfold KeyLt
        simp only
        omega
    · intro i _ t ht' x hx
      obtain ⟨st, hst, u, hu, hxu⟩ := mem_doSeq _ _ _ ht' x hx
      exact ⟨st, List.mem_range.1 hst, hstage i st u hu x hxu⟩
    · refine List.pairwise_lt_range.imp fun {i i'} hlt x y hx hy => ?_
      obtain ⟨st, -, hx⟩ := hx
      obtain ⟨st', -, hy⟩ := hy
      rw [hx, hy]
      unfold KeyLt
      simp only
      rcases hdir with hd | hd <;> rw [hd] <;> omega
  refine ⟨h1, h2, ?_, h3⟩
  rintro u1 u2 u3 u4 bx a bx' b rfl
  have hn := (refTraces_spec c first last _ h3).1
  have hkey : (b.step, b.stage) = (a.step, a.stage) := by
    simp only [List.append_assoc, List.cons_append] at h4
    rw [List.pairwise_append] at h4
    have p1 := h4.2.1
    rw [List.pairwise_cons] at p1
    have k1 := p1.1 (.main bx' b) (by simp)
    have p2 := p1.2
    rw [List.pairwise_append] at p2
    have p3 := p2.2.1
    rw [List.pairwise_cons] at p3
    have k2 := p3.1 (.main bx a) (by simp)
    unfold KeyLt tkey at k1 k2
    simp only at k1 k2
    rw [Prod.mk.injEq]
    rcases hdir with hd | hd <;> rw [hd] at k1 k2 <;> omega
  rw [Prod.mk.injEq] at hkey
  refine ⟨?_, fun h => not_before_same _ _ _ hkey.1 hkey.2 h.1, fun h => not_before_same _ _ _ hkey.1.symm hkey.2.symm h.1⟩
  rintro rfl
  simp only [List.flatMap_append, List.flatMap_cons, STask.mains, List.append_assoc, List.nil_append] at hn
  have := hn.sublist (List.sublist_append_right _ _)
  have := this.sublist (List.sublist_append_right _ _)
  rw [List.singleton_append, List.nodup_cons] at this
  exact this.1 (by simp)

end Scr
end Yask
