import Verif.Compiler.ScrLink

/-!
# Lemmas: halos, slots and the set-up of the kernel for equations with scratch vars
-/

namespace Yask
open Spec Comp RunCfg Relation

section
variable {Val κ : Type} {X : XSoln Val} {P : Lots X.Idx κ} {Q : Lots Nat Unit} {o : X.Opts κ} {vdims : Nat → List String}

/-- The stage as the halo analysis sees it. -/
def Spec.XSoln.hstage (X : XSoln Val) (P : Lots X.Idx κ) (Q : Lots Nat Unit) (s : Nat) : HStage :=
  ⟨s, Q.scr s, (Q.items s).map fun p => (P.items p).map X.hpeq⟩

theorem mem_hstages {st : HStage} : st ∈ (X.hsys P Q).stages ↔ ∃ s ∈ Q.g.all, st = X.hstage P Q s := by
  unfold XSoln.hsys
  rw [List.mem_map]
  exact ⟨fun ⟨s, h1, h2⟩ => ⟨s, h1, h2.symm⟩, fun ⟨s, h1, h2⟩ => ⟨s, h1, h2.symm⟩⟩

theorem mem_hstage_eqs {s : Nat} {e : PEq} : e ∈ (X.hstage P Q s).eqs ↔ ∃ pid ∈ Q.items s, ∃ x ∈ P.items pid, e = X.hpeq x := by
  unfold HStage.eqs XSoln.hstage
  rw [List.mem_flatten]
  constructor
  · rintro ⟨part, h1, h2⟩
    obtain ⟨pid, h3, rfl⟩ := List.mem_map.1 h1
    obtain ⟨x, h4, rfl⟩ := List.mem_map.1 h2
    exact ⟨pid, h3, x, h4, rfl⟩
  · rintro ⟨pid, h3, x, h4, rfl⟩
    exact ⟨_, List.mem_map_of_mem h3, List.mem_map_of_mem h4⟩

theorem mem_scrDeps {s t : Nat} : t ∈ (X.hsys P Q).scrDeps s ↔ t ∈ Q.g.all ∧ Q.g.scr.isDepOn s t = true := by
  unfold XSoln.hsys
  rw [List.mem_filter]

/-- An equation that reads a scratch var needs the equations of the scratch var. -/
theorem reads_scr (hl : X.Legal vdims) (hall : ∀ e, e ∈ o.order) {x y : X.Idx} {p : Pt} (hp : p ∈ (X.eqn x).rhs) (hs : X.isScr p.var = true)
    (hv : (X.eqn y).lhs.var = p.var) : (∃ k, y = .inr k) ∧ (X.sys o).Reads ((X.sys o).lhs x) ((X.sys o).lhs y) := by
  cases y with
  | inl e =>
    have := (hl.lhs _ (List.getElem_mem e.2)).1
    have hv' : (X.eqs[e.1]'e.2).lhs.var = p.var := hv
    rw [hv', hs] at this
    cases this
  | inr k =>
    refine ⟨⟨k, rfl⟩, ?_⟩
    rw [scr_step hl (o := o) (x := x) hp hv]
    exact ⟨x, hall _, rfl, List.mem_map_of_mem (f := fun p : Pt => (p.var, p.step)) hp⟩

theorem xstaged_of_compile (hl : X.Legal vdims) (hall : ∀ e, e ∈ o.order) (hC : Compiled (X.sys o) P Q) : Staged (X.hsys P Q) X.isScr vdims where
  ids := by
    have : (X.hsys P Q).stages.map HStage.id = Q.g.all := by
      unfold XSoln.hsys
      simp only [List.map_map]
      conv_rhs => rw [← List.map_id Q.g.all]
      rfl
    rw [this]
    exact hC.qnd
  kind st hst e he := by
    obtain ⟨s, hs, rfl⟩ := mem_hstages.1 hst
    obtain ⟨pid, hp, x, hx, rfl⟩ := mem_hstage_eqs.1 he
    exact (hC.scr s hs pid hp x hx).symm
  closed st hst hsc r hr hreq e he p hp hscr t ht e' he' hv := by
    obtain ⟨s, hs, rfl⟩ := mem_hstages.1 hst
    obtain ⟨r, hr', rfl⟩ := mem_hstages.1 hr
    obtain ⟨t, ht', rfl⟩ := mem_hstages.1 ht
    obtain ⟨pid, hpid, x, hx, rfl⟩ := mem_hstage_eqs.1 he
    obtain ⟨qid, hqid, y, hy, rfl⟩ := mem_hstage_eqs.1 he'
    obtain ⟨⟨k, rfl⟩, hrd⟩ := reads_scr (o := o) hl hall (x := x) (y := y) hp hscr hv
    obtain ⟨-, -, -, g4⟩ := hC.needs x _ (needs_of hall hC (.single hrd)) r hr' t ht' pid hpid qid hqid hx hy
    have himm := (g4 (scr_inr hl k)).2
    refine mem_scrDeps.2 ⟨ht', ?_⟩
    rcases hreq with h | h
    · have : r = s := congrArg HStage.id h
      subst this
      exact hC.qimm _ _ himm
    · exact hC.qtrans _ _ _ (mem_scrDeps.1 h).2 himm
  order := by
    unfold XSoln.hsys
    rw [List.pairwise_map]
    refine hC.qorder.imp_of_mem fun {s t} hs ht h e he p hp hscr e' he' hv => ?_
    obtain ⟨pid, hpid, x, hx, rfl⟩ := (mem_hstage_eqs (X := X) (P := P) (Q := Q)).1 he
    obtain ⟨qid, hqid, y, hy, rfl⟩ := (mem_hstage_eqs (X := X) (P := P) (Q := Q)).1 he'
    obtain ⟨-, hrd⟩ := reads_scr (o := o) hl hall (x := x) (y := y) hp hscr hv
    obtain ⟨-, g2, -, -⟩ := hC.needs x y (needs_of hall hC (.single hrd)) s hs t ht pid hpid qid hqid hx hy
    exact h pid hpid qid hqid g2
  self st hst e he p hp hscr e' he' hv := by
    obtain ⟨s, hs, rfl⟩ := mem_hstages.1 hst
    obtain ⟨pid, hpid, x, hx, rfl⟩ := mem_hstage_eqs.1 he
    obtain ⟨qid, hqid, y, hy, rfl⟩ := mem_hstage_eqs.1 he'
    obtain ⟨-, hrd⟩ := reads_scr (o := o) hl hall (x := x) (y := y) hp hscr hv
    exact (hC.needs x y (needs_of hall hC (.single hrd)) s hs s hs pid hpid qid hqid hx hy).2.2.1 rfl
  used e he p hp n := by
    obtain ⟨st, hst, he⟩ := List.mem_flatMap.1 he
    obtain ⟨s, hs, rfl⟩ := mem_hstages.1 hst
    obtain ⟨pid, hpid, x, hx, rfl⟩ := mem_hstage_eqs.1 he
    refine hl.args (X.eqn x) ?_ p hp n
    cases x with
    | inl e => exact List.mem_append_left _ (List.getElem_mem _)
    | inr e => exact List.mem_append_right _ (List.getElem_mem _)
  full v w hv n hn := hl.sdims v hv n (hl.inDims w n hn)

/-- All equations are in the input of the halo analysis. -/
theorem mem_allEqs_x (hall : ∀ e, e ∈ o.order) (hC : Compiled (X.sys o) P Q) (x : X.Idx) : X.hpeq x ∈ allEqs (X.hsys P Q) := by
  obtain ⟨s, hs, pid, hps, -, hx⟩ := placed hall hC x
  exact List.mem_flatMap.2 ⟨_, mem_hstages.2 ⟨s, hs, rfl⟩, mem_hstage_eqs.2 ⟨pid, hps, x, hx, rfl⟩⟩

theorem at_zero {p : Pt} {n : String} (h : n ∉ p.dom.map Prod.fst) : p.at n = 0 := by
  unfold Pt.at
  cases hlk : p.dom.lookup n with
  | none => rfl
  | some z =>
    obtain ⟨l1, l2, hz, _⟩ := List.lookup_eq_some_iff.1 hlk
    exact absurd (List.mem_map.2 ⟨(n, z), by rw [hz]; simp, rfl⟩) h

theorem leads_used (hl : X.Legal vdims) {e : UEq Val} (he : e ∈ X.eqs) {p : Pt} (h : X.Leads e p) (n : String) :
    n ∈ p.dom.map Prod.fst ↔ n ∈ vdims p.var := by
  obtain ⟨e0, he0, p0, hp0, hv0, -, hd0⟩ := XSoln.leads_orig he h
  rw [hd0, hv0]
  exact hl.args e0 he0 p0 (List.mem_cons_of_mem _ hp0) n

theorem leads_needed (hl : X.Legal vdims) (hall : ∀ e, e ∈ o.order) (hC : Compiled (X.sys o) P Q) {e : UEq Val} (he : e ∈ X.eqs) {p : Pt}
    (h : X.Leads e p) : Needed (allEqs (X.hsys P Q)) X.isScr p.var p.at := by
  induction h with
  | @direct p hp =>
    obtain ⟨i, hi, rfl⟩ := List.getElem_of_mem he
    exact .direct (mem_allEqs_x hall hC (.inl ⟨i, hi⟩)) (hl.lhs _ (List.getElem_mem hi)).1 hp
  | @through p k q h1 h2 hk hv hq ih =>
    obtain ⟨i, hi, rfl⟩ := List.getElem_of_mem hk
    have := Needed.scratch (e := X.hpeq (.inr ⟨i, hi⟩)) ih h2 (mem_allEqs_x hall hC (.inr ⟨i, hi⟩)) hv hq
    have hat : (Pt.from q p).at = fun n => p.at n + q.at n := by
      funext n
      by_cases hn : n ∈ q.dom.map Prod.fst
      · rw [from_at hn]; omega
      · have h3 : n ∉ X.dims := fun hd => hn ((hl.args _ (List.mem_append_right _ (List.getElem_mem hi)) q (List.mem_cons_of_mem _ hq) n).2
          (hl.full _ (List.getElem_mem hi) q hq n hd))
        have h4 : n ∉ p.dom.map Prod.fst := fun hp => h3 (hl.inDims _ n ((leads_used hl he h1 n).1 hp))
        rw [at_zero hn, at_zero h4, at_zero]
        · rfl
        · rw [from_keys]; exact hn
    rw [hat]
    exact this

theorem writeHalo_ge {m : Nat → HVar} {part : List PEq} {e : PEq} (he : e ∈ part) (n : String) (left : Bool) :
    (m e.lhs.var).size n left ≤ writeHalo m part n left := by
  have mono : ∀ (l : List PEq) (a : Int), a ≤ l.foldl (fun h e => max h ((m e.lhs.var).size n left)) a := by
    intro l
    induction l with
    | nil => intro a; exact le_refl _
    | cons f l ih => intro a; exact le_trans (le_max_left _ _) (ih _)
  unfold writeHalo
  generalize (0 : Int) = a
  induction part generalizing a with
  | nil => cases he
  | cons f l ih =>
    rcases List.mem_cons.1 he with rfl | h
    · exact le_trans (le_max_right _ _) (mono l _)
    · exact ih h _

theorem xruns_of_setUp {G : RunCfg} {C : ScrCfg} (hl : X.Legal vdims) (hall : ∀ e, e ∈ o.order) (hC : Compiled (X.sys o) P Q)
    (hs : SetUp G C X P Q) : XRuns G C X (X.mainL P Q) (X.scrK P Q) where
  nd := hs.nd
  nst := by rw [hs.nst]; unfold XSoln.mainL; rw [List.length_map]
  nparts st h := by
    rw [hs.nparts st h]
    unfold XSoln.mainL
    rw [getD_map_nil (fun st : List (List X.Idx) => st.map fun part => part.filterMap Sum.getLeft?) rfl, List.length_map]
  dom st p x := by
    rw [hs.dom]
    refine and_congr Iff.rfl ⟨fun h e he => h _ (mem_mainL.1 he), fun h e he => ?_⟩
    obtain ⟨e, rfl⟩ := main_inl hl hC he
    exact h e (mem_mainL.2 he)
  stepOk st p t := by
    rw [hs.stepOk]
    refine ⟨fun h e he => h _ (mem_mainL.1 he), fun h e he => ?_⟩
    obtain ⟨e, rfl⟩ := main_inl hl hC he
    exact h e (mem_mainL.2 he)
  empty := hs.empty
  sdom k y h e he := hs.sdom k y h _ (mem_scrK.1 he)
  sbox k y h1 h2 := by
    refine hs.sbox k y h1 fun e he => ?_
    obtain ⟨e, rfl⟩ := scr_inr' hl hC he
    exact h2 e (mem_scrK.2 he)
  sstep k t := by
    rw [hs.sstep]
    refine ⟨fun h e he => h _ (mem_scrK.1 he), fun h e he => ?_⟩
    obtain ⟨e, rfl⟩ := scr_inr' hl hC he
    exact h e (mem_scrK.2 he)
  width e he p hp k e' he' hv j hj := by
    have hjn : X.dims.getD j "" ∈ X.dims := by
      have hj' : j < X.dims.length := hs.nd ▸ hj
      rw [List.getD_eq_getElem _ _ hj']
      exact List.getElem_mem _
    have hsc : X.isScr p.var = true := by
      have := (hl.slhs _ (List.getElem_mem e'.2)).1
      rw [← hv]; exact this
    have hN := needed_halo (xstaged_of_compile hl hall hC) (leads_needed hl hall hC he hp) _ (hl.sdims _ hsc _ hjn)
    have hm : X.hpeq (.inr e') ∈ ((kernelScr P Q).getD k []).map X.hpeq := List.mem_map_of_mem (mem_scrK.1 he')
    have h1 := writeHalo_ge (m := (X.hsys P Q).calcHalos) hm (X.dims.getD j "") true
    have h2 := writeHalo_ge (m := (X.hsys P Q).calcHalos) hm (X.dims.getD j "") false
    rw [← hs.wl k j] at h1
    rw [← hs.wr k j] at h2
    have hv' : (X.hpeq (.inr e')).lhs.var = p.var := hv
    rw [hv'] at h1 h2
    exact ⟨by linarith [hN.1], by linarith [hN.2]⟩
  halo e he p hp hsc j hj := by
    obtain ⟨e0, he0, p0, hp0, hv0, -, -⟩ := XSoln.leads_orig he hp
    have g1 := hs.halo e0 he0 p0 hp0 (hv0 ▸ hsc) j hj true
    have g2 := hs.halo e0 he0 p0 hp0 (hv0 ▸ hsc) j hj false
    rw [← hv0] at g1 g2
    by_cases hn : X.dims.getD j "" ∈ vdims p.var
    · have hN := needed_halo (xstaged_of_compile hl hall hC) (leads_needed hl hall hC he hp) _ hn
      exact ⟨by linarith [hN.1], by linarith [hN.2]⟩
    · rw [at_zero fun h => hn ((leads_used hl he hp _).1 h)]
      have := size_nonneg ((X.hsys P Q).calcHalos p.var) (X.dims.getD j "") true
      constructor <;> linarith

/-! ### Slots -/

theorem mainStages_hsys : mainStages (X.hsys P Q) = (mainIds Q).map (X.hstage P Q) := by
  unfold mainStages XSoln.hsys mainIds
  rw [List.filter_map]
  rfl

theorem mem_stageEqs_inl {i p : Nat} {e : Fin X.eqs.length} (h : e ∈ ((X.mainL P Q).getD i []).getD p []) :
    ∃ s ∈ Q.g.all, (mainStages (X.hsys P Q))[i]? = some (X.hstage P Q s) ∧ (∃ pid ∈ Q.items s, (Sum.inl e : X.Idx) ∈ P.items pid) := by
  obtain ⟨s, pid, h1, h2, h3⟩ := mem_kernelStages.1 (mem_mainL.1 h)
  refine ⟨s, (mem_mainIds.1 (List.mem_of_getElem? h1)).1, ?_, pid, List.mem_of_getElem? h2, h3⟩
  rw [mainStages_hsys, List.getElem?_map, h1]
  rfl

/-- What is read through scratch vars is read by equations that are evaluated with the stage. -/
theorem leads_stage (hl : X.Legal vdims) (hall : ∀ e, e ∈ o.order) (hC : Compiled (X.sys o) P Q) {e : Fin X.eqs.length} {i p : Nat}
    (h : e ∈ ((X.mainL P Q).getD i []).getD p []) {q : Pt} (hq : X.Leads X.eqs[e] q) :
    ∃ st, (mainStages (X.hsys P Q))[i]? = some st ∧ ∃ y, X.hpeq y ∈ stageEqs (X.hsys P Q) st ∧ ∃ p0 ∈ (X.eqn y).rhs, q.var = p0.var ∧
      q.step = p0.step ∧ (y = .inl e ∧ p0 = q ∨ ∃ k, y = .inr k) := by
  obtain ⟨s, hs, hst, pid, hps, hx⟩ := mem_stageEqs_inl h
  refine ⟨_, hst, ?_⟩
  cases hq with
  | @direct p hp => exact ⟨.inl e, List.mem_append_left _ (mem_hstage_eqs.2 ⟨pid, hps, _, hx, rfl⟩), q, hp, rfl, rfl, Or.inl ⟨rfl, rfl⟩⟩
  | @through p k q h1 h2 hk hv hq =>
    obtain ⟨a, ha, rfl⟩ := List.getElem_of_mem hk
    have hr := leads_reads (o := o) hl hall e h1
    have hlhs : (X.sys o).lhs (.inr ⟨a, ha⟩) = (p.var, p.step) := by
      obtain ⟨e0, he0, p0, hp0, hv0, hs0, -⟩ := XSoln.leads_orig (List.getElem_mem e.2) h1
      rw [hv0, hs0]
      rw [hv0] at hv
      rcases List.mem_append.1 he0 with he0 | he0
      · obtain ⟨b, hb, rfl⟩ := List.getElem_of_mem he0
        exact scr_step hl (x := .inl ⟨b, hb⟩) hp0 hv
      · obtain ⟨b, hb, rfl⟩ := List.getElem_of_mem he0
        exact scr_step hl (x := .inr ⟨b, hb⟩) hp0 hv
    rw [← hlhs] at hr
    obtain ⟨t, ht, qid, hqt, -, hy⟩ := placed hall hC (.inr ⟨a, ha⟩)
    obtain ⟨-, -, -, g4⟩ := hC.needs _ _ (needs_of hall hC hr) s hs t ht pid hps qid hqt hx hy
    refine ⟨.inr ⟨a, ha⟩, List.mem_append_right _ (List.mem_flatMap.2 ⟨X.hstage P Q t, List.mem_filter.2 ⟨mem_hstages.2 ⟨t, ht, rfl⟩,
      decide_eq_true (mem_scrDeps.2 ⟨ht, hC.qimm _ _ (g4 (scr_inr hl _)).2⟩)⟩, mem_hstage_eqs.2 ⟨qid, hqt, _, hy, rfl⟩⟩), q, hq, rfl, rfl,
      Or.inr ⟨_, rfl⟩⟩

/-- What the absence of overwritten values (C47) means for the slots. -/
theorem xenough_of_fresh {sz : Nat → Nat} (hl : X.Legal vdims) (hall : ∀ e, e ∈ o.order) (hC : Compiled (X.sys o) P Q)
    (ha : X.Arranged (X.mainL P Q) (X.scrK P Q) (kernelChildren P Q)) (hpos : ∀ v, 0 < sz v) (first : Int)
    (hst : ∀ v, ¬ MayReadStale (X.hsys P Q) v (sz v) first X.dir)
    (hro : ∀ e ∈ X.eqs ++ X.scr, ∀ p ∈ e.rhs, (∀ e' ∈ X.eqs, e'.lhs.var ≠ p.var) → ∀ k, p.step = some k → -(sz p.var : Int) < k * X.dir) :
    X.Enough (X.mainL P Q) sz where
  pos := hpos
  range := by
    intro e he p hp k hk
    by_cases hw : ∀ e' ∈ X.eqs, e'.lhs.var ≠ p.var
    · obtain ⟨e0, he0, p0, hp0, hv0, hs0, -⟩ := XSoln.leads_orig he hp
      rw [hv0] at hw ⊢
      exact hro e0 he0 p0 hp0 hw k (hs0 ▸ hk)
    push Not at hw
    obtain ⟨e', he', hv'⟩ := hw
    obtain ⟨a, ha1, rfl⟩ := List.getElem_of_mem he
    obtain ⟨b, hb1, rfl⟩ := List.getElem_of_mem he'
    obtain ⟨i, pi, hi⟩ := ha.mem ⟨a, ha1⟩
    obtain ⟨j, pj, hj⟩ := ha.mem ⟨b, hb1⟩
    obtain ⟨st, s1, y, s2, p0, hp0, hv0, hs0, -⟩ := leads_stage hl hall hC hi hp
    obtain ⟨s', hs', s1', pid', hps', hx'⟩ := mem_stageEqs_inl hj
    by_contra hc
    have hs := hpos p.var
    refine hst p.var ⟨0, j, X.hpeq (.inl ⟨b, hb1⟩), X.dir, ((-(k * X.dir)) % (sz p.var : Int)).toNat + 1, i, _, p0, k,
      ⟨_, s1', List.mem_append_left _ (mem_hstage_eqs.2 ⟨pid', hps', _, hx', rfl⟩)⟩, hv',
      (hl.lhs _ (List.getElem_mem hb1)).2.1, ⟨st, s1, s2⟩, hp0, hv0.symm, hs0 ▸ hk, Or.inl (by omega), ?_⟩
    have h1 := Int.emod_nonneg (-(k * X.dir)) (b := (sz p.var : Int)) (by omega)
    have h3 := Int.mul_ediv_add_emod (-(k * X.dir)) (sz p.var : Int)
    have h4 : 1 ≤ -(k * X.dir) / (sz p.var : Int) := by
      rw [Int.le_ediv_iff_mul_le (by omega)]; omega
    have h5 : (sz p.var : Int) ≤ sz p.var * (-(k * X.dir) / (sz p.var : Int)) := by
      have := mul_le_mul_of_nonneg_left h4 (show (0 : Int) ≤ sz p.var by omega)
      omega
    unfold Replaces
    push_cast
    rw [Int.toNat_of_nonneg h1]
    generalize -(k * X.dir) / (sz p.var : Int) = q at *
    generalize hm : -(k * X.dir) % (sz p.var : Int) = r at *
    have hdd : X.dir * X.dir = 1 := by rcases hl.dir with hd | hd <;> rw [hd] <;> rfl
    have e1 : first + X.dir * 0 + X.dir - (first + X.dir * (r + 1) + k) = X.dir * (sz p.var * q) := by
      rcases hl.dir with hd | hd <;> rw [hd] at h3 ⊢ <;> linarith
    rw [e1]
    refine ⟨?_, ⟨X.dir * q, by ring⟩⟩
    rw [show X.dir * (sz p.var * q) * X.dir = (X.dir * X.dir) * (sz p.var * q) by ring, hdd]
    omega
  oldest := by
    intro e e' i p i' p' h1 h2 hii q hq hv k hk hkd
    obtain ⟨st, s1, y, s2, p0, hp0, hv0, hs0, hy⟩ := leads_stage hl hall hC h1 hq
    obtain ⟨s', hs', s1', pid', hps', hx'⟩ := mem_stageEqs_inl h2
    have hs := hpos q.var
    have hdd : X.dir * X.dir = 1 := by rcases hl.dir with hd | hd <;> rw [hd] <;> rfl
    by_contra hc
    refine hst q.var ⟨0, i', X.hpeq (.inl e'), X.dir, 0, i, _, p0, k,
      ⟨_, s1', List.mem_append_left _ (mem_hstage_eqs.2 ⟨pid', hps', _, hx', rfl⟩)⟩, hv.symm,
      (hl.lhs _ (List.getElem_mem e'.2)).2.1, ⟨st, s1, s2⟩, hp0, hv0.symm, hs0 ▸ hk, Or.inr ⟨rfl, ?_⟩, ?_⟩
    · rcases Nat.lt_or_ge i' i with h | h
      · exact Or.inl h
      · refine Or.inr ⟨by omega, ?_⟩
        rintro ⟨g1, g2⟩
        rcases hy with ⟨rfl, rfl⟩ | ⟨k', rfl⟩
        · refine hc ⟨?_, ?_⟩
          · intro n
            unfold Pt.at
            cases hlk : p0.dom.lookup n with
            | none => rfl
            | some z =>
              obtain ⟨l1, l2, hz, _⟩ := List.lookup_eq_some_iff.1 hlk
              exact g2 (n, z) (by rw [hz]; simp)
          · rw [hv]
            exact (congrArg (fun e : PEq => e.lhs.var) g1).symm
        · have a1 := (hl.lhs _ (List.getElem_mem e'.2)).1
          have a2 := (hl.slhs _ (List.getElem_mem k'.2)).1
          have a3 : (X.eqs[e'.1]'e'.2).lhs.var = (X.scr[k'.1]'k'.2).lhs.var := congrArg (fun e : PEq => e.lhs.var) g1
          rw [a3, a2] at a1
          cases a1
    · unfold Replaces
      have e1 : (first + X.dir * ((0 : Nat) : Int) + X.dir - (first + X.dir * ((0 : Nat) : Int) + k)) = X.dir * sz q.var := by
        push_cast
        rcases hl.dir with hd | hd <;> rw [hd] at hkd ⊢ <;> linarith
      rw [e1]
      refine ⟨?_, ⟨X.dir, by ring⟩⟩
      rw [show X.dir * (sz q.var : Int) * X.dir = (X.dir * X.dir) * sz q.var by ring, hdd]
      omega

end
end Yask
