import Mathlib.Data.List.Nodup
import Mathlib.Tactic.Linarith
import Mathlib.Tactic.SplitIfs
import Verif.Compiler.HaloScratchLemmas
import Verif.Spec.StepSpec

/-! Helper lemmas: step offsets recorded for a var, and its allocation. -/

namespace Yask.Comp
open Spec

theorem stageEqs_mem {S : HSys} {st : HStage} {e : PEq} :
    e ∈ stageEqs S st ↔ e ∈ st.eqs ∨ ∃ r ∈ S.stages, r.id ∈ S.scrDeps st.id ∧ e ∈ r.eqs := by
  unfold stageEqs
  simp only [List.mem_append, List.mem_flatMap, List.mem_filter, decide_eq_true_eq, and_assoc]

theorem mem_mainStages {S : HSys} {i : Nat} {st : HStage} (h : (mainStages S)[i]? = some st) :
    st ∈ S.stages ∧ st.scr = false := by
  have := List.mem_filter.1 (List.mem_of_getElem? h)
  exact ⟨this.1, by simpa using this.2⟩

/-- Each access is recorded with its step offset. -/
theorem access_cov {S : HSys} {st : HStage} (hst : st ∈ S.stages) (hsc : st.scr = false) {e : PEq}
    (he : e ∈ stageEqs S st) {p : Pt} (hp : p ∈ e.lhs :: e.rhs) {n : String} {o : Int} (hn : (n, o) ∈ p.dom) :
    Cov (S.calcHalos p.var).halos ⟨st.id, decide (o ≤ 0), p.step.getD 0, n⟩ (if o < 0 then - o else o) := by
  have hcl : ∀ a b : HVar, a.Le b → Cov a.halos ⟨st.id, decide (o ≤ 0), p.step.getD 0, n⟩ (if o < 0 then - o else o) →
      Cov b.halos ⟨st.id, decide (o ≤ 0), p.step.getD 0, n⟩ (if o < 0 then - o else o) := fun a b h hc => h _ _ hc
  have hle1 : ∀ (i : Nat) (m : Nat → HVar) (r : HStage), MLe m (r.eqs.foldl (phase1Eq i) m) :=
    fun i m r => foldl_le _ (fun m e => phase1Eq_le _ m e) _ _
  refine hcl _ _ (((phase2_ge S S.phase1 st).trans (calcHalos_ge S st hst hsc)) p.var) ?_
  obtain ⟨r, hr, her⟩ : ∃ r ∈ S.reqd st, e ∈ r.eqs := by
    unfold HSys.reqd
    rcases stageEqs_mem.1 he with h | ⟨r, hr, hid, h⟩
    · exact ⟨st, List.mem_cons_self, h⟩
    · exact ⟨r, List.mem_cons_of_mem _ (List.mem_filter.2 ⟨hr, by simpa using hid⟩), h⟩
  unfold HSys.phase1
  refine foldl_reach _ (fun m st => foldl_le _ (fun m r => hle1 _ m r) _ _) _
    (fun m => Cov (m p.var).halos ⟨st.id, decide (o ≤ 0), p.step.getD 0, n⟩ (if o < 0 then - o else o))
    (fun m m' h hc => hcl _ _ (h _) hc) st (List.mem_filter.2 ⟨hst, by simp [hsc]⟩) _ ?_
  intro m _
  refine foldl_reach _ (fun m r => hle1 _ m r) _
    (fun m => Cov (m p.var).halos ⟨st.id, decide (o ≤ 0), p.step.getD 0, n⟩ (if o < 0 then - o else o))
    (fun m m' h hc => hcl _ _ (h _) hc) r hr _ ?_
  intro m _
  refine foldl_reach _ (fun m e => phase1Eq_le _ m e) _
    (fun m => Cov (m p.var).halos ⟨st.id, decide (o ≤ 0), p.step.getD 0, n⟩ (if o < 0 then - o else o))
    (fun m m' h hc => hcl _ _ (h _) hc) e her _ ?_
  intro m _
  unfold phase1Eq
  refine hcl _ _ (setAt_le (updateWrite_le _ _ _) p.var) ?_
  refine foldl_reach (fun m (p : Pt) => setAt m p.var ((m p.var).updateOfs st.id p.step p.dom))
    (fun m p => setAt_le (updateOfs_le _ _ _ _)) _
    (fun m => Cov (m p.var).halos ⟨st.id, decide (o ≤ 0), p.step.getD 0, n⟩ (if o < 0 then - o else o))
    (fun m m' h hc => hcl _ _ (h _) hc) p hp _ ?_
  intro m _
  simp only [setAt, if_true]
  exact updateOfs_cov _ _ _ _ _ _ hn

/-- The range contains each step offset that is recorded. -/
theorem stepRange_mem {v : HVar} {st : Nat} {k : HKey} {x : Int} (h : (k, x) ∈ v.halos) (hk : k.stage = st) :
    ∃ a b, v.stepRange st = some (a, b) ∧ a ≤ k.step ∧ k.step ≤ b := by
  unfold HVar.stepRange
  have keep : ∀ (l : List (HKey × Int)) (a b : Int), ∃ a' b', l.foldl (fun r e => if e.1.stage = st then
      (match r with | none => some (e.1.step, e.1.step) | some (a, b) => some (min a e.1.step, max b e.1.step)) else r)
      (some (a, b)) = some (a', b') ∧ a' ≤ a ∧ b ≤ b' := by
    intro l
    induction l with
    | nil => intro a b; exact ⟨a, b, rfl, le_refl _, le_refl _⟩
    | cons e l ih =>
      intro a b
      rw [List.foldl_cons]
      by_cases hc : e.1.stage = st
      · simp only [if_pos hc]
        obtain ⟨a', b', h1, h2, h3⟩ := ih (min a e.1.step) (max b e.1.step)
        exact ⟨a', b', h1, by omega, by omega⟩
      · simp only [if_neg hc]
        exact ih a b
  have key : ∀ (l : List (HKey × Int)), (k, x) ∈ l → ∀ r : Option (Int × Int), ∃ a b, l.foldl (fun r e => if e.1.stage = st then
      (match r with | none => some (e.1.step, e.1.step) | some (a, b) => some (min a e.1.step, max b e.1.step)) else r)
      r = some (a, b) ∧ a ≤ k.step ∧ k.step ≤ b := by
    intro l
    induction l with
    | nil => intro h; cases h
    | cons e l ih =>
      intro h r
      rw [List.foldl_cons]
      rcases List.mem_cons.1 h with rfl | h
      · simp only [if_pos hk]
        cases r with
        | none =>
          obtain ⟨a', b', h1, h2, h3⟩ := keep l k.step k.step
          exact ⟨a', b', h1, h2, h3⟩
        | some ab =>
          obtain ⟨a', b', h1, h2, h3⟩ := keep l (min ab.1 k.step) (max ab.2 k.step)
          exact ⟨a', b', h1, by omega, by omega⟩
      · exact ih h _
  exact key _ h none

theorem maxHalo_ge {v : HVar} {k : HKey} {x : Int} (h : (k, x) ∈ v.halos) : x ≤ v.maxHalo k.stage k.step := by
  unfold HVar.maxHalo
  have keep : ∀ (l : List (HKey × Int)) (a : Int), a ≤ l.foldl (fun h e => if e.1.stage = k.stage ∧ e.1.step = k.step then max h e.2 else h) a := by
    intro l
    induction l with
    | nil => intro a; exact le_refl _
    | cons e l ih =>
      intro a
      refine le_trans ?_ (ih _)
      simp only
      split_ifs
      · exact le_max_left _ _
      · exact le_refl _
  have key : ∀ (l : List (HKey × Int)), (k, x) ∈ l → ∀ a, x ≤ l.foldl (fun h e => if e.1.stage = k.stage ∧ e.1.step = k.step then max h e.2 else h) a := by
    intro l
    induction l with
    | nil => intro h; cases h
    | cons e l ih =>
      intro h a
      rcases List.mem_cons.1 h with rfl | h
      · refine le_trans ?_ (keep l _)
        simp only [and_self, if_true]
        exact le_max_right _ _
      · exact ih h _
  exact key _ h 0

theorem stepAlloc_ge {v : HVar} {k : HKey} {x : Int} (h : (k, x) ∈ v.halos) (va oa : Int) :
    v.stageAlloc k.stage ≤ v.stepAlloc true va oa := by
  unfold HVar.stepAlloc
  have hne : v.halos ≠ [] := by rintro h0; rw [h0] at h; cases h
  rw [if_neg (by simp), if_neg hne]
  simp only
  have keep : ∀ (l : List Nat) (a : Int), a ≤ l.foldl (fun m s => max m (v.stageAlloc s)) a := by
    intro l
    induction l with
    | nil => intro a; exact le_refl _
    | cons e l ih => intro a; exact le_trans (le_max_left _ _) (ih _)
  have key : ∀ (l : List Nat), k.stage ∈ l → ∀ a, v.stageAlloc k.stage ≤ l.foldl (fun m s => max m (v.stageAlloc s)) a := by
    intro l
    induction l with
    | nil => intro h; cases h
    | cons e l ih =>
      intro h a
      rcases List.mem_cons.1 h with rfl | h
      · exact le_trans (le_max_right _ _) (keep l _)
      · exact ih h _
  exact key _ (List.mem_map.2 ⟨(k, x), h, rfl⟩) 1

theorem stepAlloc_pos (v : HVar) (b : Bool) (va oa : Int) : 1 ≤ v.stepAlloc b va oa := by
  unfold HVar.stepAlloc
  by_cases h1 : (!b) = true
  · rw [if_pos h1]
  rw [if_neg h1]
  by_cases h2 : v.halos = []
  · rw [if_pos h2]
  rw [if_neg h2]
  · simp only
    have keep : ∀ (l : List Nat) (a : Int), a ≤ l.foldl (fun m s => max m (v.stageAlloc s)) a := by
      intro l
      induction l with
      | nil => intro a; exact le_refl _
      | cons e l ih => intro a; exact le_trans (le_max_left _ _) (ih _)
    exact keep _ 1

/-- The entries written come from equations of the stage. -/
theorem calcHalos_writes {S : HSys} {v st : Nat} {w : Int} (h : (st, w) ∈ (S.calcHalos v).writes) :
    ∃ t ∈ S.stages, t.scr = false ∧ t.id = st ∧ ∃ e ∈ stageEqs S t, e.lhs.var = v := by
  have h1 : (st, w) ∈ (S.phase1 v).writes := by
    unfold HSys.calcHalos at h
    have key : ∀ (l : List HStage) (m : Nat → HVar),
        (l.foldl (fun m st => fun v => (m v).updateVar (S.phase2 S.phase1 st v)) m v).writes = (m v).writes := by
      intro l
      induction l with
      | nil => intro m; rfl
      | cons a l ih => intro m; exact ih _
    rw [key] at h
    exact h
  have hgen : ∀ {β : Type} (f : (Nat → HVar) → β → Nat → HVar) (l : List β) (G : Prop),
      (∀ b ∈ l, ∀ m, (st, w) ∈ (f m b v).writes → (st, w) ∈ (m v).writes ∨ G) → ∀ m, (st, w) ∈ (l.foldl f m v).writes →
      (st, w) ∈ (m v).writes ∨ G := by
    intro β f l G
    induction l with
    | nil => intro _ m h; exact .inl h
    | cons b l ih =>
      intro hf m h
      rcases ih (fun b hb => hf b (List.mem_cons_of_mem _ hb)) _ h with h | h
      · exact hf b List.mem_cons_self m h
      · exact .inr h
  unfold HSys.phase1 at h1
  refine Or.resolve_left (hgen _ _ _ (fun t ht m h => ?_) _ h1) (fun h => (by cases h))
  have ht1 := (List.mem_filter.1 ht).1
  have ht2 : t.scr = false := by simpa using (List.mem_filter.1 ht).2
  refine hgen (fun m (r : HStage) => r.eqs.foldl (phase1Eq t.id) m) (S.reqd t) _ (fun r hr m h => ?_) m h
  refine hgen (phase1Eq t.id) r.eqs _ (fun e he m h => ?_) m h
  have hes : e ∈ stageEqs S t := by
    rw [stageEqs_mem]
    unfold HSys.reqd at hr
    rcases List.mem_cons.1 hr with rfl | hr
    · exact .inl he
    · exact .inr ⟨r, (List.mem_filter.1 hr).1, by simpa using (List.mem_filter.1 hr).2, he⟩
  unfold phase1Eq at h
  have hw : ∀ (l : List Pt) (m : Nat → HVar) (u : Nat),
      (l.foldl (fun m p => setAt m p.var ((m p.var).updateOfs t.id p.step p.dom)) m u).writes = (m u).writes := by
    intro l
    induction l with
    | nil => intro m u; rfl
    | cons p l ih =>
      intro m u
      rw [List.foldl_cons, ih]
      unfold setAt
      by_cases hu : u = p.var
      · simp only [if_pos hu]
        rw [hu]; rfl
      · simp only [if_neg hu]
  have hm := hw (e.lhs :: e.rhs) m
  generalize (e.lhs :: e.rhs).foldl (fun m p => setAt m p.var ((m p.var).updateOfs t.id p.step p.dom)) m = m1 at *
  unfold setAt at h
  by_cases hv : v = e.lhs.var
  · rw [if_pos hv] at h
    cases hs : e.lhs.step with
    | none =>
      rw [hs] at h
      left
      rw [← hm v, hv]; exact h
    | some s =>
      rw [hs] at h
      simp only [HVar.updateWrite] at h
      rcases List.mem_cons.1 h with h | h
      · right
        exact ⟨t, ht1, ht2, by injection h with h _; exact h.symm, e, hes, hv.symm⟩
      · left
        rw [← hm v, hv]
        exact (List.mem_filter.1 h).1
  · rw [if_neg hv] at h
    left
    rw [← hm v]; exact h

theorem lookup_mem' {α : Type} {l : List (Nat × α)} {n : Nat} {o : α} (h : l.lookup n = some o) : (n, o) ∈ l := by
  induction l with
  | nil => cases h
  | cons a l ih =>
    obtain ⟨a1, a2⟩ := a
    rw [List.lookup_cons] at h
    by_cases hn : n = a1
    · subst hn
      simp only [beq_self_eq_true] at h
      cases h
      exact List.mem_cons_self
    · have hb : (n == a1) = false := by simpa using hn
      rw [hb] at h
      exact List.mem_cons_of_mem _ (ih h)

/-- What a read or write tells about the allocation: the range of offsets, and when it is reduced by one. -/
theorem stageAlloc_spec {S : HSys} {st : HStage} (hst : st ∈ S.stages) (hsc : st.scr = false) {v : Nat} {va oa : Int}
    {e : PEq} (he : e ∈ stageEqs S st) {p : Pt} (hp : p ∈ e.lhs :: e.rhs) (hv : p.var = v) (hd : p.dom ≠ []) :
    ∃ first last, (S.calcHalos v).stepRange st.id = some (first, last) ∧
      (∀ k, (∃ e ∈ stageEqs S st, ∃ p ∈ e.lhs :: e.rhs, p.var = v ∧ p.step = some k ∧ p.dom ≠ []) → first ≤ k ∧ k ≤ last) ∧
      (last - first + 1 ≤ (S.calcHalos v).stepAlloc true va oa ∨
        (S.calcHalos v).isWritten st.id = true ∧ first < last ∧ last - first ≤ (S.calcHalos v).stepAlloc true va oa ∧
        (S.calcHalos v).maxHalo st.id first = 0 ∧ (S.calcHalos v).maxHalo st.id last = 0) := by
  have hcov : ∀ e ∈ stageEqs S st, ∀ p ∈ e.lhs :: e.rhs, p.var = v → p.dom ≠ [] → ∃ k x, (k, x) ∈ (S.calcHalos v).halos ∧
      k.stage = st.id ∧ k.step = p.step.getD 0 := by
    intro e he p hp hv hd
    obtain ⟨d, hd'⟩ := List.exists_mem_of_ne_nil _ hd
    obtain ⟨x, hx, _⟩ := access_cov hst hsc he hp (n := d.1) (o := d.2) hd'
    rw [hv] at hx
    exact ⟨_, x, hx, rfl, rfl⟩
  obtain ⟨k, x, hk, hks, hkt⟩ := hcov e he p hp hv hd
  obtain ⟨first, last, hr, h1, h2⟩ := stepRange_mem hk hks
  have hall : ∀ k, (∃ e ∈ stageEqs S st, ∃ p ∈ e.lhs :: e.rhs, p.var = v ∧ p.step = some k ∧ p.dom ≠ []) →
      first ≤ k ∧ k ≤ last := by
    rintro k' ⟨e', he', p', hp', hv', hs', hd'⟩
    obtain ⟨k2, x2, hk2, hks2, hkt2⟩ := hcov e' he' p' hp' hv' hd'
    obtain ⟨f2, l2, hr2, g1, g2⟩ := stepRange_mem hk2 hks2
    rw [hr] at hr2
    cases hr2
    rw [hkt2, hs'] at g1 g2
    exact ⟨g1, g2⟩
  refine ⟨first, last, hr, hall, ?_⟩
  have hge := stepAlloc_ge hk va oa
  rw [hks] at hge
  have hpos := stepAlloc_pos (S.calcHalos v) true va oa
  unfold HVar.stageAlloc at hge
  rw [hr] at hge
  simp only at hge
  by_cases hne : last ≠ first
  · rw [if_pos hne] at hge
    by_cases hc : (S.calcHalos v).isWritten st.id = true ∧ last - first + 1 > 1 ∧ (S.calcHalos v).maxHalo st.id first = 0 ∧
        (S.calcHalos v).maxHalo st.id last = 0
    · rw [if_pos hc] at hge
      exact .inr ⟨hc.1, by omega, by omega, hc.2.2.1, hc.2.2.2⟩
    · rw [if_neg hc] at hge
      exact .inl hge
  · left; omega

/-- If the stage is recorded as written, one of its equations writes the var. -/
theorem isWritten_spec {S : HSys} (hid : (S.stages.map HStage.id).Nodup) {st : HStage} (hst : st ∈ S.stages) {v : Nat}
    (h : (S.calcHalos v).isWritten st.id = true) : ∃ e ∈ stageEqs S st, e.lhs.var = v := by
  obtain ⟨x, hx, hc⟩ := List.any_eq_true.1 h
  simp only [Bool.and_eq_true, decide_eq_true_eq] at hc
  obtain ⟨t, ht, _, htid, e, he, hv⟩ := calcHalos_writes (lookup_mem' hc.2)
  have : t = st := (List.nodup_map_iff_inj_on (List.Nodup.of_map _ hid)).1 hid t ht st hst htid
  exact ⟨e, this ▸ he, hv⟩

end Yask.Comp
