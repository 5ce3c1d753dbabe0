import Verif.Mpi.CodeNetExchange
import Verif.Mpi.PassLemmas
import Verif.Kernel.SolnRunTrace

/-! Helper lemmas: a run of the generated code on several ranks does what it does in the model of the ranks. -/

namespace Yask
open Spec Mpi Var Nano Comp Spec.Cpp RunCfg

theorem Mixes.all {α : Type*} (Q : α → Prop) : Mixes fun tr : List α => ∀ a ∈ tr, Q a :=
  ⟨by simp, fun l r t hl hr hi a ha => by
    rcases List.mem_append.1 ((interleave_perm hi).subset ha) with h | h
    · exact hl a h
    · exact hr a h⟩

section
variable {V : Type} {X : CodeNet} {U : USoln V} {L : List (List (List (Fin U.eqs.length)))} {S : Slices} {sz : Nat → Nat}
  {shape : Nat → VarShape} {A : Arith V} {G : RunCfg} {opts : List Setup.ROpts} {minSize : Nat → Nat → Nat} {vdims : Nat → List String}
  {inner : Nat → String} {folds rofs : Nat → List Int}

/-- What is used of the ranks and their code. -/
structure NetCode (X : CodeNet) (U : USoln V) (L : List (List (List (Fin U.eqs.length)))) (S : Slices) (sz : Nat → Nat)
    (shape : Nat → VarShape) (A : Arith V) (G : RunCfg) (opts : List Setup.ROpts) (minSize : Nat → Nat → Nat) (vdims : Nat → List String)
    (inner : Nat → String) (folds rofs : Nat → List Int) : Prop where
  ctx : NetCtx X U L S sz shape A G opts minSize
  legal : Legal U vdims
  runs : Runs G U L
  arr : Arranged U L
  enough : Enough U L sz
  loops : ∀ r < X.P.n, (X.code r).Fits V (inner r) (folds r) (rofs r)
  exprs : ∀ r < X.P.n, (X.code r).Exprs A
  range : ∀ r < X.P.n, (X.code r).InRange

variable (C : NetCode X U L S sz shape A G opts minSize vdims inner folds rofs)
include C

theorem NetCode.cfgOk {r : Nat} (hr : r < X.P.n) : (X.code r).cfg.Ok := by
  rw [C.ctx.fits.cfg r hr]
  exact C.ctx.prep.ok r hr

theorem NetCode.rem {r : Nat} (hr : r < X.P.n) : (X.code r).cfg.tbSteps = 0 ∨ (X.code r).cfg.NoShortRemainder := by
  rw [C.ctx.fits.cfg r hr]
  exact C.ctx.prep.rem r hr

theorem NetCode.runsIn {r : Nat} (hr : r < X.P.n) : RunsIn (X.code r).cfg U L := by
  have hp := C.ctx.prep
  have h1 := hp.nst r hr
  have h2 := hp.nparts r hr
  rw [C.ctx.fits.cfg r hr]
  refine ⟨(hp.cfg_nd r hr).trans C.runs.nd, fun st hs p hpp x hxl hx => ?_, fun st hs p hpp t ht => ?_, fun e he p hpp j hj => ?_⟩
  · have hs : st < (X.P.cfg r).nst := hs
    have hpp : p < (X.P.cfg r).nparts st := hpp
    rw [h1] at hs
    rw [h2] at hpp
    exact ((C.runs.dom st hs p hpp x (hxl.trans (hp.cfg_nd r hr))).1 ((hp.dom r hr st p x).1 hx).1).2
  · have hs : st < (X.P.cfg r).nst := hs
    have hpp : p < (X.P.cfg r).nparts st := hpp
    rw [h1] at hs
    rw [h2] at hpp
    have ht : (X.P.cfg r).stepOk st p t = true := ht
    rw [hp.stepOk r hr] at ht
    exact (C.runs.stepOk st hs p hpp t).1 ht
  · have hj : j < (X.P.cfg r).nd := hj
    rw [hp.cfg_nd r hr] at hj
    have := C.runs.halo e he p hpp j hj
    rw [← (hp.dims r hr j hj).2.1] at this
    exact this

theorem NetCode.indep {r : Nat} (hr : r < X.P.n) : (X.code r).Indep :=
  indep_of_code (C.ctx.code r hr) C.legal (C.runsIn hr) (C.loops r hr) C.arr C.enough (C.range r hr)

/-- The tasks of the inner loops of a rank. -/
def Mpi.CodeNet.tasks (X : CodeNet) (folds rofs : Nat → List Int) (r : Nat) (tr : List CodeAct) : List Task :=
  tr.flatMap (actTasks (X.code r).firstInner (folds r) (rofs r))

theorem NetCode.traces {r : Nat} (hr : r < X.P.n) (dir : Int) (p : Pass) :
    (∀ a, packedCode (X.code r) dir p a → packedPass (X.code r).cfg dir p (X.tasks folds rofs r a) ∧ ∀ c ∈ a, ActOk (X.code r) (folds r) c) ∧
    ∀ b, laterCode (X.code r) dir p b → laterPass (X.code r).cfg dir p (X.tasks folds rofs r b) ∧ ∀ c ∈ b, ActOk (X.code r) (folds r) c := by
  have hnd := (C.cfgOk hr).nd_le
  have hf := C.loops r hr
  have hb : ∀ sect, Becomes (actTasks (X.code r).firstInner (folds r) (rofs r)) (sectCode (X.code r) dir p sect)
      (sectPass (X.code r).cfg dir p sect) := fun sect =>
    becomes_seq _ _ _ _ fun base _ => becomes_calcMega_len _ (evalMicro_becomes hf hnd) _ _ _ _ _ _
  have hQ := Mixes.all (ActOk (X.code r) (folds r))
  have ha : ∀ sect, Always (sectCode (X.code r) dir p sect) fun tr => ∀ a ∈ tr, ActOk (X.code r) (folds r) a := fun sect =>
    always_seq hQ _ _ fun base _ => always_calcMega hnd hQ (evalMicro_acts hf hnd) _ _ _ _ _ _
  exact ⟨fun a h => ⟨becomes_seq _ _ _ _ (fun sect _ => hb sect) a h, always_seq hQ _ _ (fun sect _ => ha sect) a h⟩,
    fun b h => ⟨becomes_seq _ _ _ _ (fun sect _ => hb sect) b h, always_seq hQ _ _ (fun sect _ => ha sect) b h⟩⟩

/-- The inner loops of a pass of a rank. -/
theorem NetCode.pass_rank {r : Nat} (hr : r < X.P.n) {dir : Int} (hdir : dir = 1 ∨ dir = -1) {first : Int} {p : Pass} {m0 cnt : Nat}
    (hp : PassAt (X.code r).cfg first dir p m0 cnt) {a b : List CodeAct} (ha : packedCode (X.code r) dir p a)
    (hb : laterCode (X.code r) dir p b) : (X.tasks folds rofs r (a ++ b)).Nodup ∧ ∀ t ∈ X.tasks folds rofs r (a ++ b), (X.code r).AtTask t := by
  have h1 := ((C.traces hr dir p).1 a ha).1
  have h2 := ((C.traces hr dir p).2 b hb).1
  have hi := hp.isPass (C.cfgOk hr) (C.rem hr) hdir h1 h2
  have e : X.tasks folds rofs r (a ++ b) = X.tasks folds rofs r a ++ X.tasks folds rofs r b := List.flatMap_append
  rw [e]
  refine ⟨hi.nodup, fun t ht => ?_⟩
  obtain ⟨_, _, _, _, ⟨v1, v2, v3, v4⟩, _⟩ := (hi.mem t).1 ht
  exact ⟨v1, v2, v4, v3⟩

theorem NetCode.exec {r : Nat} (hr : r < X.P.n) (u : V) {tr : List CodeAct} (hok : ∀ c ∈ tr, ActOk (X.code r) (folds r) c)
    (hnd : (X.tasks folds rofs r tr).Nodup) (hat : ∀ t ∈ X.tasks folds rofs r tr, (X.code r).AtTask t) (mem : Nat → Int → V) :
    (X.code r).exec u A tr mem = .ok ((X.code r).evalTasks u A (X.tasks folds rofs r tr) mem) :=
  exec_tasks (C.cfgOk hr) (C.loops r hr) (C.indep hr) u A (C.exprs r hr) tr hok hnd hat mem

omit C in
/-- A run of the inner loop that evaluates something. -/
theorem act_of_task {fi : Bool} {fs rs : List Int} {c : CodeAct} {t : Task} (h : t ∈ actTasks fi fs rs c) :
    t.step = c.step ∧ t.stage = c.stage ∧ t.part = c.part ∧ 0 < c.run.n ∧ c.run.mask ≠ 0#64 := by
  unfold actTasks at h
  obtain ⟨x, hx, rfl⟩ := List.mem_map.1 h
  refine ⟨rfl, rfl, rfl, ?_⟩
  unfold runPoints at hx
  simp only [List.mem_flatMap, List.mem_range, List.mem_filterMap] at hx
  obtain ⟨j, hj, i, _, hi⟩ := hx
  refine ⟨by omega, fun h0 => ?_⟩
  rw [h0] at hi
  simp at hi

variable [Inhabited V]

/-- One pass. -/
theorem pass_sim (u : V) {dir : Int} (hdir : dir = 1 ∨ dir = -1) {first : Int} {p : Pass} {m0 cnt : Nat}
    (hp : ∀ r < X.P.n, PassAt (X.code r).cfg first dir p m0 cnt) {c : CState V} {s : NState V} (h : NetRel X U S sz c s)
    {o : Outcome (CState V)} (ho : X.PassTo u A dir p c o) :
    ∃ o', (X.netIn S).PassTo (solnStencil C.runs C.legal C.arr C.enough) dir p s o' ∧
      ∀ s', o' = .ok s' → ∃ c', o = .ok c' ∧ NetRel X U S sz c' s' := by
  obtain ⟨a, b, mk, htr, ho⟩ := ho
  have hcfg : ∀ r < X.P.n, (X.netIn S).cfg r = (X.code r).cfg := fun r hr => by
    rw [C.ctx.fits.cfg r hr]
    exact sliced_full C.ctx.fits.var C.ctx.fits.onto r
  have hok : ∀ r < X.P.n, (∀ c ∈ a r, ActOk (X.code r) (folds r) c) ∧ ∀ c ∈ b r, ActOk (X.code r) (folds r) c := fun r hr =>
    ⟨((C.traces hr dir p).1 _ (htr r hr).1).2, ((C.traces hr dir p).2 _ (htr r hr).2.1).2⟩
  have hpr : ∀ r (hr : r < X.P.n), _ := fun r hr => C.pass_rank hr hdir (hp r hr) (htr r hr).1 (htr r hr).2.1
  refine ⟨_, ⟨fun r => X.tasks folds rofs r (a r), fun r => X.tasks folds rofs r (b r), fun r β => mk r (S.var β.1, β.2), fun r hr => ?_, rfl⟩, ?_⟩
  · rw [hcfg r hr]
    refine ⟨((C.traces hr dir p).1 _ (htr r hr).1).1, ((C.traces hr dir p).2 _ (htr r hr).2.1).1, ?_, ?_⟩
    · intro t ht β hw
      obtain ⟨ac, hac, ht⟩ := List.mem_flatMap.1 ht
      obtain ⟨e1, e2, e3, e4, e5⟩ := act_of_task ht
      obtain ⟨e, he, rfl, _⟩ := hw
      refine (htr r hr).2.2.1 ac hac e4 e5 _ ?_
      rw [← e1, ← e2, ← e3]
      exact C.ctx.fits.outs t.stage t.part e he t.step
    · intro β hβ
      exact (htr r hr).2.2.2 _ hβ
  · intro s' hs'
    rcases ho with ⟨m1, m2, hm, ho⟩ | ⟨⟨r, hr, hbad⟩, _⟩
    · have hsrc : NetRel X U S sz ⟨m1, fun r β => c.self r β || mk r β, fun r β => c.others r β || X.net.passOuts dir p β⟩
          (s.computed (solnStencil C.runs C.legal C.arr C.enough) (X.netIn S) dir p (fun r => X.tasks folds rofs r (a r))
            fun r β => mk r (S.var β.1, β.2)) := by
        refine ⟨fun r hr => ?_, fun r v hv t => ?_, fun r v hv t => ?_⟩
        · have e : X.tasks folds rofs r (a r ++ b r) = X.tasks folds rofs r (a r) ++ X.tasks folds rofs r (b r) := List.flatMap_append
          have hq := hpr r hr
          rw [e] at hq
          have hat : ∀ t ∈ X.tasks folds rofs r (a r), (X.code r).AtTask t := fun t ht => hq.2 t (List.mem_append_left _ ht)
          have he := C.exec hr u (hok r hr).1 (List.nodup_append.1 hq.1).1 hat (c.mem r)
          rw [(hm r hr).1] at he
          injection he with he
          show Rep U (X.slices S r) sz (m1 r) _
          rw [he]
          exact sim_tasks (C.ctx.code r hr) C.legal C.runs (C.runsIn hr) (C.loops r hr) (C.indep hr) (C.cfgOk hr) C.arr C.enough u _ hat
            (h.copy r hr)
        · show (s.self r (v, t) || mk r (S.var v, t)) = _
          rw [h.self r v hv t]
        · show (s.others r (v, t) || X.net.passOuts dir p (S.var v, t)) = _
          rw [h.others r v hv t]
      have hcur : NetRel X U S sz ⟨m2, fun r β => c.self r β || mk r β, fun r β => c.others r β || X.net.passOuts dir p β⟩
          ((s.computed (solnStencil C.runs C.legal C.arr C.enough) (X.netIn S) dir p (fun r => X.tasks folds rofs r (a r))
            fun r β => mk r (S.var β.1, β.2)).further (solnStencil C.runs C.legal C.arr C.enough) fun r => X.tasks folds rofs r (b r)) := by
        refine ⟨fun r hr => ?_, hsrc.self, hsrc.others⟩
        have e : X.tasks folds rofs r (a r ++ b r) = X.tasks folds rofs r (a r) ++ X.tasks folds rofs r (b r) := List.flatMap_append
        have hq := hpr r hr
        rw [e] at hq
        have hat : ∀ t ∈ X.tasks folds rofs r (b r), (X.code r).AtTask t := fun t ht => hq.2 t (List.mem_append_right _ ht)
        have he := C.exec hr u (hok r hr).2 (List.nodup_append.1 hq.1).2.1 hat (m1 r)
        rw [(hm r hr).2] at he
        injection he with he
        show Rep U (X.slices S r) sz (m2 r) _
        rw [he]
        exact sim_tasks (C.ctx.code r hr) C.legal C.runs (C.runsIn hr) (C.loops r hr) (C.indep hr) (C.cfgOk hr) C.arr C.enough u _ hat
          (hsrc.copy r hr)
      obtain ⟨c', e1, e2⟩ := exchange_sim C.ctx hsrc hcur hs'
      exact ⟨c', ho.trans e1, e2⟩
    · exfalso
      rw [C.exec hr u (fun ac hac => (List.mem_append.1 hac).elim ((hok r hr).1 ac) ((hok r hr).2 ac)) (hpr r hr).1 (hpr r hr).2] at hbad
      cases hbad

/-- Several passes. -/
theorem passes_sim (u : V) {dir : Int} (hdir : dir = 1 ∨ dir = -1) {first : Int} : ∀ (ps : List Pass) {m m' : Nat},
    PassChain G first dir ps m m' → ∀ {c : CState V} {s : NState V}, NetRel X U S sz c s → ∀ {o : Outcome (CState V)},
    X.PassesTo u A dir ps c o → ∃ o', (X.netIn S).PassesTo (solnStencil C.runs C.legal C.arr C.enough) dir ps s o' ∧
      ∀ s', o' = .ok s' → ∃ c', o = .ok c' ∧ NetRel X U S sz c' s'
  | [], _, _, _, c, s, h, o, ho => ⟨_, rfl, fun s' hs' => ⟨c, ho, by injection hs' with hs'; rw [← hs']; exact h⟩⟩
  | p :: ps, m, m', hch, c, s, h, o, ho => by
    obtain ⟨cnt, h1, h2⟩ := hch
    obtain ⟨o1, ho1, ho2⟩ := ho
    obtain ⟨o1', e1, e2⟩ := pass_sim C u hdir (fun r hr => h1.congr
      (by rw [C.ctx.fits.cfg r hr]; exact (C.ctx.prep.steps r hr).symm)
      (by rw [C.ctx.fits.cfg r hr]; exact (C.ctx.prep.nst r hr).symm)) h ho1
    cases o1' with
    | ok s1 =>
      obtain ⟨c1, rfl, hc1⟩ := e2 s1 rfl
      rcases ho2 with ⟨c1', e3, ho2⟩ | ⟨e3, _⟩
      · injection e3 with e3
        subst e3
        obtain ⟨o', f1, f2⟩ := passes_sim u hdir ps h2 hc1 ho2
        exact ⟨o', ⟨_, e1, Or.inl ⟨s1, rfl, f1⟩⟩, f2⟩
      · cases e3
    | throws => exact ⟨.throws, ⟨_, e1, Or.inr ⟨rfl, rfl⟩⟩, fun _ h => by cases h⟩
    | undefined => exact ⟨.undefined, ⟨_, e1, Or.inr ⟨rfl, rfl⟩⟩, fun _ h => by cases h⟩

theorem run_sim (u : V) (first last : Int) {c : CState V} {s : NState V} (h : NetRel X U S sz c s) {o : Outcome (CState V)}
    (ho : X.RunTo u A first last c o) :
    ∃ o', (X.netIn S).RunTo (solnStencil C.runs C.legal C.arr C.enough) first last s o' ∧
      ∀ s', o' = .ok s' → ∃ c', o = .ok c' ∧ NetRel X U S sz c' s' := by
  have hp := C.ctx.prep
  have hn : 0 < X.P.n := by
    rw [hp.n]
    exact List.length_pos_iff.2 hp.some_rank
  have hcfg : ∀ r < X.P.n, (X.netIn S).cfg r = (X.code r).cfg := fun r hr => by
    rw [C.ctx.fits.cfg r hr]
    exact sliced_full C.ctx.fits.var C.ctx.fits.onto r
  have hst : ∀ r < X.P.n, (X.code r).cfg.wfSteps = G.wfSteps := fun r hr => by
    rw [C.ctx.fits.cfg r hr]; exact hp.steps r hr
  have hns : ∀ r < X.P.n, (X.code r).cfg.nst = G.nst := fun r hr => by
    rw [C.ctx.fits.cfg r hr]; exact hp.nst r hr
  have hpass : ∀ r < X.P.n, passes (X.code r).cfg first last = passes (X.code 0).cfg first last := fun r hr =>
    passes_congr ((hst r hr).trans (hst 0 hn).symm) ((hns r hr).trans (hns 0 hn).symm) _ _
  have hpass' : ∀ r < (X.netIn S).n, passes ((X.netIn S).cfg r) first last = passes ((X.netIn S).cfg 0) first last := fun r hr => by
    rw [hcfg r hr, hcfg 0 hn]; exact hpass r hr
  have hch : PassChain G first (stepDir first last) (passes (X.code 0).cfg first last) 0 (numSteps first last * (X.code 0).cfg.nst) :=
    (passes_chain (C.cfgOk hn) first last).congr (hst 0 hn) (hns 0 hn)
  have h0 : NetRel X U S sz { c with others := fun _ _ => true } { s with others := fun _ _ => true } :=
    ⟨h.copy, h.self, fun _ _ _ _ => rfl⟩
  unfold CodeNet.RunTo at ho
  simp only at ho
  rw [if_pos hpass] at ho
  obtain ⟨o1, rfl, ho⟩ := ho
  unfold Net.RunTo
  simp only
  simp only [if_pos hpass']
  cases he : (X.netIn S).exchangeFrom { s with others := fun _ _ => true } { s with others := fun _ _ => true } with
  | ok s1 =>
    obtain ⟨c1, e1, e2⟩ := exchange_sim C.ctx h0 h0 he
    rcases ho with ⟨c1', e3, ho⟩ | ⟨e3, _⟩
    · rw [e1] at e3
      injection e3 with e3
      subst e3
      obtain ⟨o', f1, f2⟩ := passes_sim C u (stepDir_cases first last) _ hch e2 ho
      refine ⟨o', ⟨_, rfl, Or.inl ⟨s1, rfl, ?_⟩⟩, f2⟩
      rw [hcfg 0 hn]
      exact f1
    · rw [e1] at e3
      cases e3
  | throws => exact ⟨.throws, ⟨_, rfl, Or.inr ⟨rfl, rfl⟩⟩, fun _ h => by cases h⟩
  | undefined => exact ⟨.undefined, ⟨_, rfl, Or.inr ⟨rfl, rfl⟩⟩, fun _ h => by cases h⟩

end

/-- Where the evaluations of a pass are. -/
theorem pass_where {c : RunCfg} {first dir : Int} {p : Pass} {m0 cnt : Nat} (hp : PassAt c first dir p m0 cnt) {t : List Task}
    (ht : IsPass c first dir m0 cnt t) {a : Task} (ha : a ∈ t) : ∃ i < p.nt, a.step = p.t0 + dir * i ∧ a.stage ∈ p.stages := by
  obtain ⟨s', hs', a1, a2, _⟩ := (ht.mem a).1 ha
  rw [hp.cnt] at hs'
  have hlen : 0 < p.stages.length := by
    rcases Nat.eq_zero_or_pos p.stages.length with e | e
    · rw [e] at hs'; simp at hs'
    · exact e
  have hi : s' / p.stages.length < p.nt := by rw [Nat.div_lt_iff_lt_mul hlen]; exact hs'
  have hq := Nat.mod_lt s' hlen
  have hdm : s' / p.stages.length * p.stages.length + s' % p.stages.length = s' := by
    rw [Nat.mul_comm]; exact Nat.div_add_mod s' _
  obtain ⟨e1, e2⟩ := hp.pair _ hi _ hq
  rw [hdm] at e1 e2
  refine ⟨_, hi, a1.trans e1.symm, ?_⟩
  rw [a2, ← e2, List.getD_eq_getElem _ _ hq]
  exact List.getElem_mem hq

/-- A run of the inner loop with vectors evaluates something. -/
theorem task_of_act {R : SolnCode} {fi : Bool} {fs rs : List Int} (hl : rs.length = fs.length) {c : CodeAct} (h : ActOk R fs c) (h0 : 0 < c.run.n)
    (h1 : c.run.mask ≠ 0#64) : ∃ t, t ∈ actTasks fi fs rs c := by
  obtain ⟨k, hk, hb⟩ := h.2.1 h1
  unfold actTasks runPoints
  rw [baseDims_fold fs rs hl]
  refine ⟨_, List.mem_map_of_mem (a := vecPoint (baseDims fs rs) (advance c.run.first 0) (unlayoutVals fi fs k)) (List.mem_flatMap.2 ⟨0, List.mem_range.2 h0, List.mem_filterMap.2 ⟨k, List.mem_range.2 ?_, ?_⟩⟩)⟩
  · exact hk
  · exact if_pos hb

section
variable {V : Type} {X : CodeNet} {U : USoln V} {L : List (List (List (Fin U.eqs.length)))} {S : Slices} {sz : Nat → Nat}
  {shape : Nat → VarShape} {A : Arith V} {G : RunCfg} {opts : List Setup.ROpts} {minSize : Nat → Nat → Nat} {vdims : Nat → List String}
  {inner : Nat → String} {folds rofs : Nat → List Int} (C : NetCode X U L S sz shape A G opts minSize vdims inner folds rofs)
include C

/-- There are executions of a pass. -/
theorem pass_code_exists (u : V) {dir : Int} (hdir : dir = 1 ∨ dir = -1) {first : Int} {p : Pass} {m0 cnt : Nat}
    (hp : ∀ r < X.P.n, PassAt (X.code r).cfg first dir p m0 cnt) (c : CState V) : ∃ o, X.PassTo u A dir p c o := by
  have hn : 0 < X.P.n := by
    rw [C.ctx.prep.n]
    exact List.length_pos_iff.2 C.ctx.prep.some_rank
  have hev : ∀ r t st bx, ∃ tr, (X.code r).evalMicro t st bx tr := by
    intro r t st bx
    unfold SolnCode.evalMicro
    refine RunCfg.exists_seq _ _ fun p _ => ?_
    split
    · generalize microRuns _ _ _ _ _ _ _ = o
      cases o with
      | none => exact ⟨[], trivial⟩
      | some runs => exact ⟨_, doPar_list _ _⟩
    · exact ⟨[], rfl⟩
  have hsect : ∀ r < X.P.n, ∀ L : List RunCfg.Sect, ∃ tr, doSeq (L.map (sectCode (X.code r) dir p)) tr := fun r hr L =>
    RunCfg.exists_seq _ _ fun sect _ => RunCfg.exists_seq _ _ fun base _ =>
      RunCfg.exists_calcMega (C.cfgOk hr).nd_le (hev r) _ _ _ _ _ _
  have hex : ∀ r, ∃ a b, r < X.P.n → packedCode (X.code r) dir p a ∧ laterCode (X.code r) dir p b := by
    intro r
    by_cases hr : r < X.P.n
    · obtain ⟨a, ha⟩ := hsect r hr ((X.code r).cfg.sections.filter fun s => decide (s ≠ .interior))
      obtain ⟨b, hb⟩ := hsect r hr ((X.code r).cfg.sections.filter fun s => decide (s = .interior))
      exact ⟨a, b, fun _ => ⟨ha, hb⟩⟩
    · exact ⟨[], [], fun h => absurd h hr⟩
  choose a b hab using hex
  have hpr : ∀ r (hr : r < X.P.n), _ := fun r hr => C.pass_rank hr hdir (hp r hr) (hab r hr).1 (hab r hr).2
  have hexec : ∀ r, ∃ m1 m2, r < X.P.n → (X.code r).exec u A (a r) (c.mem r) = .ok m1 ∧ (X.code r).exec u A (b r) m1 = .ok m2 := by
    intro r
    by_cases hr : r < X.P.n
    · have e : X.tasks folds rofs r (a r ++ b r) = X.tasks folds rofs r (a r) ++ X.tasks folds rofs r (b r) := List.flatMap_append
      have hq := hpr r hr
      rw [e] at hq
      exact ⟨_, _, fun _ => ⟨C.exec hr u ((C.traces hr dir p).1 _ (hab r hr).1).2 (List.nodup_append.1 hq.1).1
        (fun t ht => hq.2 t (List.mem_append_left _ ht)) _, C.exec hr u ((C.traces hr dir p).2 _ (hab r hr).2).2
        (List.nodup_append.1 hq.1).2.1 (fun t ht => hq.2 t (List.mem_append_right _ ht)) _⟩⟩
    · exact ⟨fun _ _ => u, fun _ _ => u, fun h => absurd h hr⟩
  choose m1 m2 hm using hexec
  refine ⟨_, a, b, fun _ β => X.net.passOuts dir p β, fun r hr => ⟨(hab r hr).1, (hab r hr).2, ?_, fun _ h => h⟩, Or.inl ⟨m1, m2, hm, rfl⟩⟩
  intro ac hac h0 h1 β hβ
  have hok := ((C.traces hr dir p).1 _ (hab r hr).1).2 ac hac
  have hF := (C.loops r hr).part ac.stage ac.part ac.step hok.1
  obtain ⟨t, ht⟩ := task_of_act (fi := (X.code r).firstInner) (rs := rofs r) (by rw [hF.rofsLen, hF.foldLen]) hok h0 h1
  obtain ⟨e1, e2, e3, _⟩ := act_of_task ht
  have hi := (hp r hr).isPass (C.cfgOk hr) (C.rem hr) hdir ((C.traces hr dir p).1 _ (hab r hr).1).1 ((C.traces hr dir p).2 _ (hab r hr).2).1
  obtain ⟨i, hi1, hi2, hi3⟩ := pass_where (hp r hr) hi (a := t) (List.mem_append_left _ (List.mem_flatMap.2 ⟨ac, hac, ht⟩))
  unfold Net.passOuts
  rw [List.any_eq_true]
  refine ⟨i, List.mem_range.2 hi1, ?_⟩
  rw [List.any_eq_true]
  refine ⟨t.stage, hi3, ?_⟩
  show X.stageOuts t.stage (p.t0 + dir * i) β = true
  unfold CodeNet.stageOuts
  rw [List.any_eq_true]
  refine ⟨ac.part, List.mem_range.2 ?_, ?_⟩
  · have hnp : ∀ q < X.P.n, (X.code q).cfg.nparts = G.nparts := fun q hq => by
      rw [C.ctx.fits.cfg q hq]; exact C.ctx.prep.nparts q hq
    rw [e2, hnp 0 hn, ← hnp r hr]
    exact hok.1
  · rw [← hi2, e1, e2]
    exact hβ

/-- There are executions. -/
theorem run_code_exists (u : V) (first last : Int) (c : CState V) : ∃ o, X.RunTo u A first last c o := by
  have hp := C.ctx.prep
  have hn : 0 < X.P.n := by
    rw [hp.n]
    exact List.length_pos_iff.2 hp.some_rank
  have hst : ∀ r < X.P.n, (X.code r).cfg.wfSteps = G.wfSteps := fun r hr => by
    rw [C.ctx.fits.cfg r hr]; exact hp.steps r hr
  have hns : ∀ r < X.P.n, (X.code r).cfg.nst = G.nst := fun r hr => by
    rw [C.ctx.fits.cfg r hr]; exact hp.nst r hr
  have hpass : ∀ r < X.P.n, passes (X.code r).cfg first last = passes (X.code 0).cfg first last := fun r hr =>
    passes_congr ((hst r hr).trans (hst 0 hn).symm) ((hns r hr).trans (hns 0 hn).symm) _ _
  have hps : ∀ (ps : List Pass) {m m' : Nat} (_ : PassChain G first (stepDir first last) ps m m') (c : CState V),
      ∃ o, X.PassesTo u A (stepDir first last) ps c o := by
    intro ps
    induction ps with
    | nil => intro _ _ _ c; exact ⟨_, rfl⟩
    | cons p ps ih =>
      rintro m m' ⟨cnt, h1, h2⟩ c
      obtain ⟨o1, ho1⟩ := pass_code_exists C u (stepDir_cases first last) (fun r hr => h1.congr (hst r hr).symm (hns r hr).symm) c
      cases o1 with
      | ok s1 =>
        obtain ⟨o, ho⟩ := ih h2 s1
        exact ⟨o, _, ho1, Or.inl ⟨s1, rfl, ho⟩⟩
      | throws => exact ⟨.throws, .throws, ho1, Or.inr ⟨rfl, rfl⟩⟩
      | undefined => exact ⟨.undefined, .undefined, ho1, Or.inr ⟨rfl, rfl⟩⟩
  have hch := (passes_chain (C.cfgOk hn) first last).congr (hst 0 hn) (hns 0 hn)
  unfold CodeNet.RunTo
  simp only [if_pos hpass]
  cases he : X.exchangeFrom { c with others := fun _ _ => true } { c with others := fun _ _ => true } with
  | ok s1 =>
    obtain ⟨o, ho⟩ := hps _ hch s1
    exact ⟨o, _, rfl, Or.inl ⟨s1, rfl, ho⟩⟩
  | throws => exact ⟨.throws, _, rfl, Or.inr ⟨rfl, rfl⟩⟩
  | undefined => exact ⟨.undefined, _, rfl, Or.inr ⟨rfl, rfl⟩⟩

omit C in
theorem stores_val {W : History V} {t : Int} {g : (Nat × Nat) × List Int → V} (h : Stores U sz W t g) {v : Nat} {s : Int}
    (hs : StoredAt U sz v t s) (x : List Int) : g (Spec.stepSlot U sz v s, x) = W v s x := by
  unfold StoredAt at hs
  split_ifs at hs with hst
  · obtain ⟨j, hj, rfl⟩ := hs
    exact h.2 v x hst j hj
  · subst hs
    rw [← h.1 v x (by simpa using hst)]
    unfold Spec.stepSlot
    simp [hst]

/-- What the storage holds. -/
theorem holds_rep {W : History V} {c : CState V} {r : Nat} (hr : r < X.P.n) {g : (Nat × Nat) × List Int → V}
    (h : Rep U (X.slices S r) sz (c.mem r) g) {v : Nat} (hv : v < S.nv) {s : Int} (hs : U.hasStep v = false → s = 0) {x : List Int}
    (hx : x.length = U.dims.length) :
    Holds X U S W c r v s x ↔
      (InRangeButStep (X.geo r (S.var v)).api ((X.slices S r).elem U.dims v s x) → g (Spec.stepSlot U sz v s, x) = W v s x) := by
  have hok := geo_ok (C.ctx.code r hr) hv
  have hal := geo_steps (C.ctx.code r hr) C.ctx.pos hv
  unfold Holds
  constructor
  · intro h1 hin
    obtain ⟨b, hb, k2, _⟩ := readAt_eq hok hal hin (c.mem r (S.var v))
    rw [← h v hv s hs x hx hin b hb]
    have := h1 hin
    have k2 : readAt (X.geo r (S.var v)) (c.mem r (S.var v)) ((X.slices S r).elem U.dims v s x) = .ok (c.mem r (S.var v) b) := k2
    rw [k2] at this
    injection this
  · intro h1 hin
    obtain ⟨b, hb, k2, _⟩ := readAt_eq hok hal hin (c.mem r (S.var v))
    refine k2.trans ?_
    congr 1
    exact (h v hv s hs x hx hin b hb).trans (h1 hin)

open Classical in
/-- The state of the model of the ranks that the storage holds, with values of `W` elsewhere. -/
noncomputable def Mpi.CodeNet.start (X : CodeNet) (U : USoln V) (S : Slices) (sz : Nat → Nat) (W : History V) (first : Int) (c : CState V) : NState V where
  copy r l := if l.1.1 < S.nv ∧ (U.hasStep l.1.1 = false → l.1.2 = 0) ∧ l.1.2 < sz l.1.1 ∧ l.2.length = U.dims.length ∧
      InRangeButStep (X.geo r (S.var l.1.1)).api ((X.slices S r).elem U.dims l.1.1 l.1.2 l.2)
    then memIn U (X.slices S r) (c.mem r) l else memOf U sz W first l
  self r β := c.self r (S.var β.1, β.2)
  others r β := c.others r (S.var β.1, β.2)

theorem start_rel (W : History V) (first : Int) (c : CState V) : NetRel X U S sz c (X.start U S sz W first c) := by
  refine ⟨fun r hr => ?_, fun _ _ _ _ => rfl, fun _ _ _ _ => rfl⟩
  intro v hv s hs x hx hin b hb
  rw [memIn_rep (C.ctx.code r hr) C.ctx.pos (c.mem r) v hv s hs x hx hin b hb]
  have hp := C.ctx.pos v
  refine (if_pos ⟨hv, fun h => ?_, ?_, hx, ?_⟩).symm
  · unfold Spec.stepSlot
    rw [show (Spec.stepSlot U sz v s).1 = v from rfl] at h
    simp [h]
  · show (Spec.stepSlot U sz v s).2 < sz v
    unfold Spec.stepSlot
    have h1 := Int.emod_lt_of_pos s (b := (sz v : Int)) (by omega)
    have h2 := Int.emod_nonneg s (b := (sz v : Int)) (by omega)
    dsimp only
    split_ifs <;> omega
  · show InRangeButStep (X.geo r (S.var v)).api ((X.slices S r).elem U.dims v ((Spec.stepSlot U sz v s).2 : Nat) x)
    by_cases hst : U.hasStep v = true
    · unfold Spec.stepSlot
      simp only [hst, if_true]
      rw [Int.toNat_of_nonneg (Int.emod_nonneg _ (by omega))]
      exact inRange_same (same_step (C.ctx.code r hr) hv fun _ => (Int.emod_emod_of_dvd s (dvd_refl _)).symm) hin
    · have := hs (by simpa using hst)
      subst this
      unfold Spec.stepSlot
      rw [if_neg hst]
      exact hin

/-- Where the storage holds values of `W`, the state of the model has them. -/
theorem start_val (W : History V) (first : Int) (c : CState V) {r : Nat} (hr : r < X.P.n) (β : Nat × Nat) (x : List Int)
    (h : β.1 < S.nv → x.length = U.dims.length → ∀ s, StoredAt U sz β.1 first s → Spec.stepSlot U sz β.1 s = β → Holds X U S W c r β.1 s x) :
    (X.start U S sz W first c).copy r (β, x) = memOf U sz W first (β, x) := by
  obtain ⟨v, t⟩ := β
  by_cases hc : v < S.nv ∧ (U.hasStep v = false → t = 0) ∧ t < sz v ∧ x.length = U.dims.length ∧
      InRangeButStep (X.geo r (S.var v)).api ((X.slices S r).elem U.dims v t x)
  · obtain ⟨hv, h0, h1, hx, hin⟩ := hc
    have hst := memOf_stores C.legal C.ctx.pos W first
    have hrel := (start_rel C W first c).copy r hr
    obtain ⟨s, hs, e1, e2⟩ : ∃ s, StoredAt U sz v first s ∧ Spec.stepSlot U sz v s = (v, t) ∧ (U.hasStep v = true → s % (sz v : Int) = (t : Int) % (sz v : Int)) := by
      by_cases hs : U.hasStep v = true
      · obtain ⟨j, hj⟩ := Int.eq_ofNat_of_zero_le (Int.emod_nonneg (U.dir * (first - t)) (b := (sz v : Int)) (by omega))
        have hlt := Int.emod_lt_of_pos (U.dir * (first - t)) (b := (sz v : Int)) (by omega)
        have hm := stored_mod (first := first) (s := t) (n := (sz v : Int)) C.legal.dir
        refine ⟨first - U.dir * ((U.dir * (first - t)) % (sz v : Int)), ?_, ?_, fun _ => hm⟩
        · unfold StoredAt
          rw [if_pos hs]
          exact ⟨j, by omega, by rw [hj]⟩
        · unfold Spec.stepSlot
          rw [if_pos hs, hm, Int.emod_eq_of_lt (by omega) (by omega)]
          rfl
      · refine ⟨0, ?_, ?_, fun h => absurd h hs⟩
        · unfold StoredAt; rw [if_neg hs]
        · unfold Spec.stepSlot; rw [if_neg hs, h0 (by simpa using hs)]
    have hs0 : U.hasStep v = false → s = 0 := by
      intro h
      unfold StoredAt at hs
      rwa [if_neg (by simp [h])] at hs
    have hin2 : InRangeButStep (X.geo r (S.var v)).api ((X.slices S r).elem U.dims v s x) := by
      by_cases hs' : U.hasStep v = true
      · exact inRange_same (same_step (C.ctx.code r hr) hv fun _ => (e2 hs').symm) hin
      · have h2 : U.hasStep v = false := by simpa using hs'
        rw [hs0 h2]
        rw [h0 h2] at hin
        exact hin
    have := (holds_rep C hr hrel hv hs0 hx).1 (h hv hx s hs e1) hin2
    rw [e1] at this
    rw [this, ← stores_val hst hs x, e1]
  · exact if_neg hc

end
end Yask
