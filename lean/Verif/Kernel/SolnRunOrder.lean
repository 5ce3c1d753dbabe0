import Verif.Kernel.SolnRunPoint
import Verif.Sched.RefLemmas

/-! Helper lemmas: evaluations at points whose order is not fixed do not conflict. -/

namespace Yask.Nano
open Spec Var Comp Spec.Cpp

section
variable {V : Type}

/-- Elements that are set at a point. -/
def PartAt.Sets (p : PartAt) (x : List Int) (l : Nat × Int) : Prop :=
  ∃ e ∈ p.c.eqs, e.1.1 = l.1 ∧ (p.c.vars l.1).g.addrOf (p.elemAt e.1 x) = .ok l.2

/-- Elements that are read at a point. -/
def PartAt.Gets (p : PartAt) (x : List Int) (l : Nat × Int) : Prop :=
  ∃ e ∈ p.c.eqs, ∃ q ∈ e.2.points, q.1 = l.1 ∧ (p.c.vars l.1).g.addrOf (p.elemAt q x) = .ok l.2

theorem evalPt_frame (p : PartAt) (u : V) (A : Arith V) (x : List Int) (m : Nat → Int → V) {l : Nat × Int} (h : ¬ p.Sets x l) :
    p.evalPt u A m x l.1 l.2 = m l.1 l.2 := by
  have key : ∀ (es : List (LPt × Ex LPt)), (∀ e ∈ es, e ∈ p.c.eqs) → ∀ m : Nat → Int → V,
      es.foldl (p.evalEq u A x) m l.1 l.2 = m l.1 l.2 := by
    intro es
    induction es with
    | nil => intro _ _; rfl
    | cons e es ih =>
      intro hes m
      rw [List.foldl_cons, ih fun e he => hes e (List.mem_cons_of_mem _ he)]
      cases ha : (p.c.vars e.1.1).g.addrOf (p.elemAt e.1 x) with
      | ok a =>
        rw [evalEq_at ha, if_neg]
        rintro ⟨h1, h2⟩
        exact h ⟨e, hes e (by simp), h1.symm, by rw [h1, h2]; exact ha⟩
      | throws => unfold PartAt.evalEq; rw [ha]
      | undefined => unfold PartAt.evalEq; rw [ha]
  exact key p.c.eqs (fun _ he => he) m

theorem evalPt_local (p : PartAt) (u : V) (A : Arith V) (x : List Int) (m m' : Nat → Int → V) {l : Nat × Int} (hl : p.Sets x l)
    (h : ∀ l, p.Gets x l → m l.1 l.2 = m' l.1 l.2) : p.evalPt u A m x l.1 l.2 = p.evalPt u A m' x l.1 l.2 := by
  -- agreement on what is read and on what the equations so far have set
  have key : ∀ (es done : List (LPt × Ex LPt)), (∀ e ∈ es, e ∈ p.c.eqs) → ∀ m m' : Nat → Int → V,
      (∀ l, p.Gets x l → m l.1 l.2 = m' l.1 l.2) →
      (∀ e ∈ done, ∀ a, (p.c.vars e.1.1).g.addrOf (p.elemAt e.1 x) = .ok a → m e.1.1 a = m' e.1.1 a) →
      ∀ e ∈ done ++ es, ∀ a, (p.c.vars e.1.1).g.addrOf (p.elemAt e.1 x) = .ok a →
        es.foldl (p.evalEq u A x) m e.1.1 a = es.foldl (p.evalEq u A x) m' e.1.1 a := by
    intro es
    induction es with
    | nil => intro done _ m m' _ h2 e he a ha; exact h2 e (by simpa using he) a ha
    | cons e es ih =>
      intro done hes m m' h1 h2 e' he' a ha
      rw [List.foldl_cons, List.foldl_cons]
      have hval : e.2.value A (p.valAt u m x) = e.2.value A (p.valAt u m' x) := by
        refine value_congr A _ _ e.2 fun q hq => ?_
        unfold PartAt.valAt
        cases hb : (p.c.vars q.1).g.addrOf (p.elemAt q x) with
        | ok b => exact h1 (q.1, b) ⟨e, hes e (by simp), q, hq, rfl, hb⟩
        | throws => rfl
        | undefined => rfl
      have hone : ∀ i b, m i b = m' i b → p.evalEq u A x m e i b = p.evalEq u A x m' e i b := by
        intro i b hb
        cases ha : (p.c.vars e.1.1).g.addrOf (p.elemAt e.1 x) with
        | ok a =>
          rw [evalEq_at ha, evalEq_at ha, hval, hb]
        | throws => unfold PartAt.evalEq; rw [ha]; exact hb
        | undefined => unfold PartAt.evalEq; rw [ha]; exact hb
      refine ih (done ++ [e]) (fun e he => hes e (List.mem_cons_of_mem _ he)) _ _ ?_ ?_ e' (by simpa using he') a ha
      · intro l hl
        exact hone _ _ (h1 l hl)
      · intro e2 he2 b hb
        rw [List.mem_append, List.mem_singleton] at he2
        rcases he2 with he2 | rfl
        · exact hone _ _ (h2 e2 he2 b hb)
        · rw [evalEq_at hb, evalEq_at hb, if_pos ⟨rfl, rfl⟩, if_pos ⟨rfl, rfl⟩, hval]
  obtain ⟨e, he, h1, h2⟩ := hl
  have := key p.c.eqs [] (fun _ h => h) m m' h (by simp) e (by simpa using he) l.2 (by rw [h1]; exact h2)
  rw [h1] at this
  exact this

/-- Evaluations on the storage of the vars. -/
def SolnCode.sem (R : SolnCode) (u : V) (A : Arith V) : ActionSem Task (Nat × Int) V where
  run a m l := (R.partAt a.stage a.part a.step).evalPt u A (fun i b => m (i, b)) a.pt l.1 l.2
  reads a l := (R.partAt a.stage a.part a.step).Gets a.pt l
  writes a l := (R.partAt a.stage a.part a.step).Sets a.pt l
  frame a m l h := evalPt_frame _ u A a.pt _ h
  local_ a m m' l h1 h2 := evalPt_local _ u A a.pt _ _ h1 fun l hl => h2 l hl

/-- Evaluations, one after the other. -/
def SolnCode.evalTasks (R : SolnCode) (u : V) (A : Arith V) (l : List Task) (m : Nat → Int → V) : Nat → Int → V :=
  l.foldl (fun m a => (R.partAt a.stage a.part a.step).evalPt u A m a.pt) m

theorem evalTasks_exec (R : SolnCode) (u : V) (A : Arith V) (l : List Task) (m : Nat → Int → V) :
    R.evalTasks u A l m = fun i b => (R.sem u A).exec l (fun x => m x.1 x.2) (i, b) := by
  induction l generalizing m with
  | nil => rfl
  | cons a l ih =>
    unfold SolnCode.evalTasks ActionSem.exec
    rw [List.foldl_cons, List.foldl_cons]
    exact ih _

/-! ### Where elements are -/

theorem sameElem_get : ∀ {ds : List ApiDim} {a b : List Int}, SameElem ds a b → ∀ {k : Nat} {d : ApiDim}, ds[k]? = some d →
    d.isStep = false → a[k]? = b[k]?
  | d :: ds, i :: is, j :: js, h, 0, d', hd, hs => by
    simp only [List.getElem?_cons_zero, Option.some.injEq] at hd
    subst hd
    unfold SameElem at h
    simp only [hs, Bool.false_eq_true, if_false] at h
    simp [h.1]
  | d :: ds, i :: is, j :: js, h, k + 1, d', hd, hs => by
    unfold SameElem at h
    simp only [List.getElem?_cons_succ] at hd ⊢
    exact sameElem_get h.2 hd hs
  | [], _, _, _, _, _, hd, _ => by simp at hd
  | _ :: _, [], [], h, _, _, _, _ => by simp [SameElem] at h
  | _ :: _, [], _ :: _, h, _, _, _, _ => by simp [SameElem] at h
  | _ :: _, _ :: _, [], h, _, _, _, _ => by simp [SameElem] at h

variable {R : SolnCode} {inner : String} {folds rofs : List Int}

theorem partAt_g (st p : Nat) (t : Int) (i : Nat) : ((R.partAt st p t).c.vars i).g = ((R.code st p).vars i).g := rfl
theorem partAt_eqs (st p : Nat) (t : Int) : (R.partAt st p t).c.eqs = (R.code st p).eqs := rfl

theorem partAt_isRead (st p : Nat) (t : Int) (q : LPt) : (R.partAt st p t).c.IsRead q ↔ (R.code st p).IsRead q := Iff.rfl

/-- The index of an element in a domain dim. -/
theorem elemAt_get {st p : Nat} {t : Int} {q : LPt} {x : List Int} {j k : Nat} {d : String} {o y : Int} (hst : R.step ∉ R.dims)
    (hnd : R.dims.Nodup) (hj : R.dims[j]? = some d) (hk : ((R.code st p).vars q.1).DomainDim k d) (ho : q.2[k]? = some o)
    (hx : x.length = R.dims.length) (hy : x[j]? = some y) : ((R.partAt st p t).elemAt q x)[k]? = some (y + o) := by
  obtain ⟨hn, g, hg, hgk⟩ := hk
  have h1 : ((R.partAt st p t).c.vars q.1).names[k]? = some d := hn
  unfold PartAt.elemAt gridElem
  have hz : (((R.partAt st p t).c.vars q.1).g.dims.map accessDim |>.zip (((R.partAt st p t).c.vars q.1).names.zip q.2))[k]? =
      some (accessDim g, (d, o)) := by
    refine List.getElem?_zip_eq_some.2 ⟨?_, List.getElem?_zip_eq_some.2 ⟨h1, ho⟩⟩
    rw [List.getElem?_map]
    show Option.map accessDim ((R.code st p).vars q.1).g.dims[k]? = _
    rw [hg]
    rfl
  rw [List.getElem?_map, hz]
  · simp only [Option.map_some, Option.some.injEq]
    have h2 : accessDim g = .domain g.varVL g.rankOfs := by unfold accessDim; rw [hgk]
    rw [h2]
    simp only
    congr 1
    have hd : d ∈ R.dims := List.mem_of_getElem? hj
    show (if d = R.step then t else ((R.dims.zip x).lookup d).getD 0) = y
    rw [if_neg (by rintro rfl; exact hst hd), lookup_zip R.dims x hx]
    have : R.dims.idxOf d = j := by
      obtain ⟨hj1, hj2⟩ := List.getElem?_eq_some_iff.1 hj
      rw [← hj2]
      exact List.Nodup.idxOf_getElem hnd j hj1
    rw [this, hy]
    rfl

theorem api_get {v : LoopVar} {k : Nat} {d : String} (h : v.DomainDim k d) : ∃ a : ApiDim, v.g.api[k]? = some a ∧ a.isStep = false := by
  obtain ⟨_, g, hg, hk⟩ := h
  refine ⟨_, by unfold Geom.api; rw [List.getElem?_map, hg]; rfl, ?_⟩
  simp [hk]

/-! ### Conflicts -/

/-- A task that is evaluated. -/
def SolnCode.AtTask (R : SolnCode) (a : Task) : Prop := R.At a.stage a.part a.step a.pt

variable (hf : R.Fits V inner folds rofs) (hi : R.Indep)
include hf hi

omit hi in
theorem dims_len {st p : Nat} (hp : p < R.cfg.nparts st) : R.dims.length = R.cfg.nd := by
  have := (hf.part st p 0 hp).foldLen
  rw [← hf.foldsLen]
  exact this.symm

/-- An element that is accessed at one point and set at another one: the points are near. -/
theorem near_of_same {a b : Task} (ha : R.AtTask a) (hb : R.AtTask b) {q q' : LPt}
    (hq : q ∈ (R.code a.stage a.part).eqs.map (·.1) ∨ (R.code a.stage a.part).IsRead q)
    (hq' : q' ∈ (R.code b.stage b.part).eqs.map (·.1)) (hqq : q.1 = q'.1) (hh : ∀ j < R.cfg.nd, 0 ≤ (R.cfg.dim j).maxHalo)
    (hs : SameElem ((R.code a.stage a.part).vars q.1).g.api ((R.partAt a.stage a.part a.step).elemAt q a.pt)
      ((R.partAt b.stage b.part b.step).elemAt q' b.pt)) :
    Near R.cfg.nd (fun j => (R.cfg.dim j).maxHalo) a.pt b.pt ∧
      (q ∈ (R.code a.stage a.part).eqs.map (·.1) → a.pt = b.pt) := by
  have hlen := dims_len hf ha.1
  have hF := hf.part a.stage a.part a.step ha.1
  have hst : R.step ∉ R.dims := hF.step
  have hnd : R.dims.Nodup := hF.nodup
  have hvar := hf.vars a.stage a.part b.stage b.part ha.1 hb.1 q.1
  have hdd : ∀ k d, ((R.code a.stage a.part).vars q.1).DomainDim k d ↔ ((R.code b.stage b.part).vars q'.1).DomainDim k d := by
    intro k d
    unfold LoopVar.DomainDim
    rw [hvar.1, hvar.2, hqq]
  have key : ∀ j < R.cfg.nd, ∃ o : Int, |o| ≤ (R.cfg.dim j).maxHalo ∧ a.pt.getD j 0 + o = b.pt.getD j 0 ∧
      (q ∈ (R.code a.stage a.part).eqs.map (·.1) → o = 0) := by
    intro j hj
    have hjd : j < R.dims.length := by omega
    have hd : R.dims[j]? = some R.dims[j] := List.getElem?_eq_getElem hjd
    obtain ⟨k, hk⟩ := hi.lhsDims b.stage b.part hb.1 q' hq' R.dims[j] (List.getElem_mem hjd)
    have hk' := (hdd k _).2 hk
    have ho' := hi.lhsZero b.stage b.part hb.1 q' hq' k _ hk
    have hexo : ∃ o, q.2[k]? = some o ∧ |o| ≤ (R.cfg.dim j).maxHalo ∧ (q ∈ (R.code a.stage a.part).eqs.map (·.1) → o = 0) := by
      by_cases hql : q ∈ (R.code a.stage a.part).eqs.map (·.1)
      · exact ⟨0, hi.lhsZero a.stage a.part ha.1 q hql k _ hk', by simpa using hh j hj, fun _ => rfl⟩
      · rcases hq with hq | hq
        · exact absurd hq hql
        · obtain ⟨o, o1, o2⟩ := hi.halo a.stage a.part ha.1 q hq ⟨b.stage, b.part, hb.1, by
            rw [hqq]
            obtain ⟨e, he, rfl⟩ := List.mem_map.1 hq'
            exact List.mem_map.2 ⟨e, he, rfl⟩⟩ j k _ hd hk'
          exact ⟨o, o1, o2, fun h => absurd h hql⟩
    obtain ⟨o, o1, o2, o3⟩ := hexo
    have hla : a.pt.length = R.dims.length := by rw [ha.2.2.1, hlen]
    have hlb : b.pt.length = R.dims.length := by rw [hb.2.2.1, hlen]
    have e1 := elemAt_get (R := R) (st := a.stage) (p := a.part) (t := a.step) (x := a.pt) hst hnd hd hk' o1 hla
      (List.getElem?_eq_getElem (by omega))
    have e2 := elemAt_get (R := R) (st := b.stage) (p := b.part) (t := b.step) (x := b.pt) hst hnd hd hk ho' hlb
      (List.getElem?_eq_getElem (by omega))
    obtain ⟨g, g1, g2⟩ := api_get hk'
    have e3 := sameElem_get hs g1 g2
    rw [e1, e2] at e3
    refine ⟨o, o2, ?_, o3⟩
    rw [List.getD_eq_getElem _ _ (by omega), List.getD_eq_getElem _ _ (by omega)]
    simpa using e3
  refine ⟨fun j hj => ?_, fun hql => ?_⟩
  · obtain ⟨o, o1, o2, _⟩ := key j hj
    rw [abs_le] at o1
    change a.pt.getD j 0 - b.pt.getD j 0 ≤ (R.cfg.dim j).maxHalo ∧ b.pt.getD j 0 - a.pt.getD j 0 ≤ (R.cfg.dim j).maxHalo
    constructor <;> omega
  · refine List.ext_getElem (by rw [ha.2.2.1, hb.2.2.1]) fun j h1 h2 => ?_
    obtain ⟨o, _, o2, o3⟩ := key j (by rw [← ha.2.2.1]; exact h1)
    rw [o3 hql, add_zero, List.getD_eq_getElem _ _ h1, List.getD_eq_getElem _ _ h2] at o2
    exact o2

/-- Elements with the same address are the same. -/
theorem same_of_sets {a b : Task} (ha : R.AtTask a) (hb : R.AtTask b) {q q' : LPt}
    (hq : q ∈ (R.code a.stage a.part).eqs.map (·.1) ∨ (R.code a.stage a.part).IsRead q)
    (hq' : q' ∈ (R.code b.stage b.part).eqs.map (·.1) ∨ (R.code b.stage b.part).IsRead q') (hqq : q.1 = q'.1) {c : Int}
    (h1 : ((R.code a.stage a.part).vars q.1).g.addrOf ((R.partAt a.stage a.part a.step).elemAt q a.pt) = .ok c)
    (h2 : ((R.code b.stage b.part).vars q'.1).g.addrOf ((R.partAt b.stage b.part b.step).elemAt q' b.pt) = .ok c) :
    SameElem ((R.code a.stage a.part).vars q.1).g.api ((R.partAt a.stage a.part a.step).elemAt q a.pt)
      ((R.partAt b.stage b.part b.step).elemAt q' b.pt) := by
  obtain ⟨hv, _⟩ := (hf.code a.stage a.part a.step ha.1).var q hq
  have hok : ((R.code a.stage a.part).vars q.1).g.Ok := hv.ok
  have hs : StepsAlloc ((R.code a.stage a.part).vars q.1).g.api := hv.steps
  have hx := hi.range _ _ _ _ ha q hq
  have hy := hi.range _ _ _ _ hb q' hq'
  have hvar := (hf.vars a.stage a.part b.stage b.part ha.1 hb.1 q.1).1
  rw [← hqq, ← hvar] at h2 hy
  rw [addrOf_eq hok hx hs] at h1
  rw [addrOf_eq hok hy hs] at h2
  injection h1 with h1
  injection h2 with h2
  exact (addr_eq_iff hok hx hy hs).1 (h1.trans h2.symm)

/-- Evaluations whose order is not fixed do not conflict. -/
theorem code_not_conflict (h : R.cfg.Ok) (u : V) (A : Arith V) {dir : Int} (hdir : dir = 1 ∨ dir = -1) {a b : Task} (ha : R.AtTask a)
    (hb : R.AtTask b) (hne : a ≠ b) (h1 : ¬ R.cfg.MustPrecede dir a b) (h2 : ¬ R.cfg.MustPrecede dir b a) :
    ¬ (R.sem u A).Conflict a b := by
  have key : ∀ a b : Task, R.AtTask a → R.AtTask b → a ≠ b → ¬ R.cfg.MustPrecede dir a b → ¬ R.cfg.MustPrecede dir b a → ∀ l,
      ¬ ((R.sem u A).writes a l ∧ ((R.sem u A).reads b l ∨ (R.sem u A).writes b l)) := by
    rintro a b ha hb hne h1 h2 l ⟨⟨e, he, hel, hea⟩, hr⟩
    have hq : ∃ q, q.1 = l.1 ∧ ((R.code b.stage b.part).vars l.1).g.addrOf ((R.partAt b.stage b.part b.step).elemAt q b.pt) = .ok l.2 ∧
        (q ∈ (R.code b.stage b.part).eqs.map (·.1) ∨ ∃ e ∈ (R.code b.stage b.part).eqs, q ∈ e.2.points) := by
      rcases hr with ⟨e', he', q, hq, hql, hqa⟩ | ⟨e', he', hql, hqa⟩
      · exact ⟨q, hql, hqa, .inr ⟨e', he', hq⟩⟩
      · exact ⟨e'.1, hql, hqa, .inl (List.mem_map_of_mem he')⟩
    obtain ⟨q, hql, hqa, hq⟩ := hq
    have hem : e.1 ∈ (R.code a.stage a.part).eqs.map (·.1) := List.mem_map_of_mem he
    have hq2 : q ∈ (R.code b.stage b.part).eqs.map (·.1) ∨ (R.code b.stage b.part).IsRead q := hq
    have hs := same_of_sets hf hi hb ha hq2 (.inl hem) (hql.trans hel.symm) (by rw [hql]; exact hqa) (by rw [hel]; exact hea)
    obtain ⟨hnear, heq⟩ := near_of_same hf hi hb ha hq2 hem (hql.trans hel.symm) h.halo_nonneg hs
    rcases RunCfg.before_or hdir a b with ⟨e1, e2⟩ | hlt | hlt
    · obtain ⟨ta, sa, pa, xa⟩ := a
      obtain ⟨tb, sb, pb, xb⟩ := b
      simp only at e1 e2
      subst e1 e2
      rcases hq with hq | ⟨e', he', hq⟩
      · have := heq hq
        simp only at this
        subst this
        have := (hi.writes _ _ _ _ _ hb ha q hq e.1 hem (hql.trans hel.symm) hs).1
        simp only at this
        subst this
        exact hne rfl
      · obtain ⟨r, hr, rfl⟩ := List.mem_iff_getElem.1 he'
        obtain ⟨r', hr', rfl⟩ := List.mem_iff_getElem.1 he
        obtain ⟨h3, h4, _⟩ := hi.reads _ _ _ _ _ _ hb ha r hr r' hr' q hq (hql.trans hel.symm) hs
        simp only at h3 h4
        subst h3 h4
        exact hne rfl
    · exact h1 ⟨hlt, RunCfg.near_symm hnear⟩
    · exact h2 ⟨hlt, hnear⟩
  rintro ⟨l, hl | hl⟩
  · exact key a b ha hb hne h1 h2 l hl
  · exact key b a hb ha (Ne.symm hne) h2 h1 l hl

/-- Two orders of the same evaluations. -/
theorem evalTasks_eq (h : R.cfg.Ok) (u : V) (A : Arith V) {dir : Int} (hdir : dir = 1 ∨ dir = -1) {t1 t2 : List Task}
    (hn1 : t1.Nodup) (hn2 : t2.Nodup) (hm : ∀ a, a ∈ t1 ↔ a ∈ t2) (hat : ∀ a ∈ t1, R.AtTask a)
    (ho1 : t1.Pairwise fun a b => ¬ R.cfg.MustPrecede dir b a) (ho2 : t2.Pairwise fun a b => ¬ R.cfg.MustPrecede dir b a)
    (m : Nat → Int → V) : R.evalTasks u A t1 m = R.evalTasks u A t2 m := by
  rw [evalTasks_exec, evalTasks_exec,
    exec_eq_of_perm (S := R.sem u A) _ t1 t2 ((List.perm_ext_iff_of_nodup hn1 hn2).2 hm) hn1 ho1 ho2
      (fun a ha b hb hne hab hba => code_not_conflict hf hi h u A hdir (hat a ha) (hat b hb) hne hba hab)]

/-- The points of one part in one step. -/
theorem part_indep (h : R.cfg.Ok) {st p : Nat} {t : Int} : (R.partAt st p t).Indep (R.At st p t) where
  range q hq x hx := hi.range st p t x hx q hq
  writes q hq q' hq' hqq x y hx hy hs := by
    have hh : x = y := (near_of_same (a := ⟨t, st, p, x⟩) (b := ⟨t, st, p, y⟩) hf hi hx hy (.inl hq) hq' hqq h.halo_nonneg hs).2 hq
    subst hh
    exact ⟨(hi.writes st p p t x hx hy q hq q' hq' hqq hs).2, rfl⟩
  reads r hr r' hr' q hq hqq x y hx hy hs := (hi.reads st p p t x y hx hy r hr r' hr' q hq hqq hs).2

end
end Yask.Nano
