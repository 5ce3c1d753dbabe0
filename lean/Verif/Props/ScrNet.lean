import Verif.Mpi.ScrNetLemmas
import Verif.Compiler.ScrNetLink
import Verif.Props.Net
import Verif.Props.ScrSoln

/-!
# Properties C60 and C69 on several ranks with scratch vars

The model is `Verif.Mpi.ScrNetModel`; `InlinedOn` says that on each rank the stencil is the one with substituted scratch vars (`Scr.Inlined`).
-/

namespace Yask
open Spec Comp RunCfg Mpi

section
variable {G : RunCfg} {SVar Val : Type*} {X : Nat → Scr Slot SVar Val} {P : Prep} {opts : List Setup.ROpts} {minSize : Nat → Nat → Nat}
  {shape : Nat → VarShape} {outs : Nat → Int → Slot → Bool}

/-- C69, on any number of ranks: with any tile sizes on each rank, with or without overlap of computation and communication, for every
interleaving of the threads and whatever scratch vars contain at first, a run with scratch vars is a run of the stencil with substituted
scratch vars: the vars, their flags and the messages are the same. Missing: what C01 misses. -/
theorem C69_ranks_substitution_partial (hp : Prepared G P opts minSize shape) {S : Stencil G Slot Val}
    (hs : ∀ r < P.n, (X r).Supplied ((P.net outs).cfg r)) (hi : InlinedOn X (prep_divided hp outs) S) {first last : Int} {s : NState Val}
    {o : Outcome (NState Val)} (ho : (P.net outs).ScrRunTo X first last s o) : (P.net outs).RunTo S first last s o := by
  have hn : 0 < (P.net outs).n := by
    show 0 < P.n
    rw [hp.n]
    exact List.length_pos_iff.2 hp.some_rank
  exact scr_run (prep_divided hp outs) hn hs hi ho

/-- C69, on any number of ranks: a run with scratch vars ends, and then every rank has, at its own points and in the halos it received, the values
that `run_ref` with scratch vars computes on the overall domain, whatever scratch vars contain at first. Missing: as in `C01_ranks_partial`; and
reads through scratch vars must reach only exchanged neighbours (`FitsVars`; see `C56_corner_wrong`). -/
theorem C69_ranks_equal_reference_partial (hp : Prepared G P opts minSize shape) (hG : G.Ok) {S : Stencil G Slot Val} (hf : FitsVars S P shape outs)
    (hs : ∀ r < P.n, (X r).Supplied ((P.net outs).cfg r)) (hi : InlinedOn X (prep_divided hp outs) S)
    {XG : Scr Slot SVar Val} (hsG : XG.Supplied G) (hiG : XG.Inlined S) {first last : Int} {tr : List STask} (ht : XG.runRef G first last tr)
    (m : Scr.Mem Slot SVar Val) (s : NState Val) (hown : OwnCurrent (P.net outs) (OwnPoint P shape) s m.vars)
    (hcl : CleanHalosCurrent (P.net outs) s m.vars) (o : Outcome (NState Val)) (ho : (P.net outs).ScrRunTo X first last s o) :
    ∃ s', o = .ok s' ∧ OwnCurrent (P.net outs) (OwnPoint P shape) s' (XG.exec tr m).vars ∧ AllHalosCurrent (P.net outs) s' (XG.exec tr m).vars := by
  rw [C69_reference hG hsG hiG ht m]
  exact C01_ranks_partial hp S hf first last m.vars s hown hcl o (C69_ranks_substitution_partial hp hs hi ho)

theorem exists_evBox (X : Scr Slot SVar Val) (c : RunCfg) (t : Int) (st : Nat) (bx : Box) : ∃ tr, X.evBox c t st bx tr := by
  refine doSeq_exists _ fun L hL => ?_
  rcases List.mem_cons.1 hL with rfl | hL
  · exact ⟨_, rfl⟩
  · obtain ⟨it, -, rfl⟩ := List.mem_map.1 hL
    rcases it with k | p
    · exact ⟨_, doPar_list _ _⟩
    · exact ⟨_, doPar_list _ _⟩

/-- There are executions. -/
theorem C69_ranks_executions_exist (hp : Prepared G P opts minSize shape) {S : Stencil G Slot Val} (hf : FitsVars S P shape outs)
    (hs : ∀ r < P.n, (X r).Supplied ((P.net outs).cfg r)) (hi : InlinedOn X (prep_divided hp outs) S) (first last : Int) (s : NState Val) :
    ∃ o, (P.net outs).ScrRunTo X first last s o := by
  have hn : 0 < (P.net outs).n := by
    show 0 < P.n
    rw [hp.n]
    exact List.length_pos_iff.2 hp.some_rank
  have hd := prep_divided hp outs
  have hl := prep_linked hp outs hf
  have hpass : ∀ r < (P.net outs).n, passes ((P.net outs).cfg r) first last = passes ((P.net outs).cfg 0) first last := fun r hr =>
    passes_congr ((hd.steps r hr).trans (hd.steps 0 hn).symm) ((hd.nst r hr).trans (hd.nst 0 hn).symm) _ _
  have hps : ∀ (ps : List Pass) {m m' : Nat} (_ : PassChain G first (stepDir first last) ps m m') (s : NState Val),
      ∃ o, (P.net outs).ScrPassesTo X (stepDir first last) ps s o := by
    intro ps
    induction ps with
    | nil => intro _ _ _ s; exact ⟨_, rfl⟩
    | cons p ps ih =>
      rintro m m' ⟨cnt, h1, h2⟩ s
      have hmega : ∀ r, r < (P.net outs).n → ∀ sect, ∃ t,
          sectPassWith ((X r).evBox ((P.net outs).cfg r)) ((P.net outs).cfg r) (stepDir first last) p sect t := fun r hr sect =>
        exists_seq _ _ fun base _ => exists_calcMega (hd.ok r hr).nd_le (exists_evBox _ _) _ _ _ _ _ _
      have hu : ∀ r, ∃ u, r < (P.net outs).n → packedPassWith ((X r).evBox ((P.net outs).cfg r)) ((P.net outs).cfg r) (stepDir first last) p u := by
        intro r
        by_cases hr : r < (P.net outs).n
        · have h : ∃ u, packedPassWith ((X r).evBox ((P.net outs).cfg r)) ((P.net outs).cfg r) (stepDir first last) p u :=
            exists_seq _ _ fun sect _ => hmega r hr sect
          obtain ⟨u, hu⟩ := h
          exact ⟨u, fun _ => hu⟩
        · exact ⟨[], fun h => absurd h hr⟩
      have hv : ∀ r, ∃ u, r < (P.net outs).n → laterPassWith ((X r).evBox ((P.net outs).cfg r)) ((P.net outs).cfg r) (stepDir first last) p u := by
        intro r
        by_cases hr : r < (P.net outs).n
        · have h : ∃ u, laterPassWith ((X r).evBox ((P.net outs).cfg r)) ((P.net outs).cfg r) (stepDir first last) p u :=
            exists_seq _ _ fun sect _ => hmega r hr sect
          obtain ⟨u, hu⟩ := h
          exact ⟨u, fun _ => hu⟩
        · exact ⟨[], fun h => absurd h hr⟩
      choose u hu using hu
      choose v hv using hv
      have ho1 : ∃ o1, (P.net outs).ScrPassTo X (stepDir first last) p s o1 := by
        refine ⟨_, u, v, fun r _ l => s.copy 0 ((0, 0), l.2), fun _ => (P.net outs).passOuts (stepDir first last) p, fun r hr => ?_, rfl⟩
        refine ⟨hu r hr, hv r hr, fun bx a ha β hw => ?_, fun β hβ => hβ⟩
        have hat : PassAt ((P.net outs).cfg r) first (stepDir first last) p m cnt := h1.congr (hd.steps r hr).symm (hd.nst r hr).symm
        obtain ⟨-, c3, -, c5, c6⟩ := Scr.pass_facts (hd.ok r hr) (hd.rem r hr) (stepDir_cases first last) (hs r hr) hat (hu r hr) (hv r hr)
        have hip := hat.isPass (hd.ok r hr) (hd.rem r hr) (stepDir_cases first last) c5 c6
        have hreg : (X r).Regular ((P.net outs).cfg r) (.main bx a) := c3 _ (List.mem_append_left _ ha)
        refine pass_outs hl hat hip (a := a) (List.mem_append_left _ ?_) (((hi r hr).writes a hreg.1 β).2 hw)
        exact List.mem_flatMap.2 ⟨_, ha, List.mem_singleton_self a⟩
      obtain ⟨o1, ho1⟩ := ho1
      cases o1 with
      | ok s1 =>
        obtain ⟨o, ho⟩ := ih h2 s1
        exact ⟨o, _, ho1, Or.inl ⟨s1, rfl, ho⟩⟩
      | throws => exact ⟨.throws, .throws, ho1, Or.inr ⟨rfl, rfl⟩⟩
      | undefined => exact ⟨.undefined, .undefined, ho1, Or.inr ⟨rfl, rfl⟩⟩
  have hch : PassChain G first (stepDir first last) (passes ((P.net outs).cfg 0) first last) 0 (numSteps first last * G.nst) := by
    have := (passes_chain (hd.ok 0 hn) first last).congr (hd.steps 0 hn) (hd.nst 0 hn)
    rwa [hd.nst 0 hn] at this
  unfold Net.ScrRunTo
  simp only [if_pos hpass]
  cases he : (P.net outs).exchangeFrom { s with others := fun _ _ => true } { s with others := fun _ _ => true } with
  | ok s1 =>
    obtain ⟨o, ho⟩ := hps _ hch s1
    exact ⟨o, _, rfl, Or.inl ⟨s1, rfl, ho⟩⟩
  | throws => exact ⟨.throws, _, rfl, Or.inr ⟨rfl, rfl⟩⟩
  | undefined => exact ⟨.undefined, _, rfl, Or.inr ⟨rfl, rfl⟩⟩

end

section
variable {Val κ : Type} [DecidableEq κ] {X : XSoln Val} {sz : Nat → Nat} {vdims : Nat → List String} {G : RunCfg} {C : ScrCfg} {o : X.Opts κ}
  {ordL : List (Nat × Option Int) → List (Nat × Option Int)} {ordE : List X.Idx → List X.Idx} {ordP ordS : List Nat → List Nat}
  {P : Lots X.Idx κ} {Q : Lots Nat Unit} {R : Prep} {Cr : Nat → ScrCfg} {opts : List Setup.ROpts} {minSize : Nat → Nat → Nat}
  {shape : Nat → VarShape} {outs : Nat → Int → Slot → Bool}

/-- C60 with scratch vars, on any number of ranks: whatever the compiler accepts, with slots that are enough (C47), with vars as announced by the
compiler and ranks set up for its stages, parts and scratch parts, whatever the scratch vars contain at first, in every execution of
`run_solution` on the ranks from the stored steps of a history of the equations: the run ends, and then each rank has at its own points the
stored steps at the end of the run. There are executions. Missing: reads through scratch vars that `Reached` excludes, and as in
`C60_scratch_run_partial` and `C01_ranks_partial`. -/
theorem C60_scratch_ranks_partial [Inhabited Val] (ho : Listed o)
    (hkey : ∀ e e', o.key e = o.key e' → (X.eqn e).domIf = (X.eqn e').domIf ∧ (X.eqn e).stepIf = (X.eqn e').stepIf)
    (hor : Orders (X := X) ordL ordE ordP ordS) (h : (X.sys o).compileAll ordL ordE ordP ordS = .ok (P, Q)) (hl : X.Legal vdims)
    (hc : X.Covered (InWhole G)) {first last : Int} (hdir : Along X.dir first last)
    (hpos : ∀ v, 0 < sz v) (hst : ∀ v, ¬ MayReadStale (X.hsys P Q) v (sz v) first X.dir)
    (hro : ∀ e ∈ X.eqs ++ X.scr, ∀ p ∈ e.rhs, (∀ e' ∈ X.eqs, e'.lhs.var ≠ p.var) → ∀ k, p.step = some k → -(sz p.var : Int) < k * X.dir)
    (hs : SetUp G C X P Q) (hp : Prepared G R opts minSize shape) (hsR : SetUpRanks G R Cr X P Q) (hA : XAnnounced G X P Q vdims sz R shape outs)
    (hR : Reached X R) (s : NState Val) :
    (∃ out, (R.net outs).ScrRunTo (fun r => X.kernel (X.mainL P Q) (X.scrK P Q) sz (Cr r)) first last s out) ∧
    ∀ W A, X.Evolves (InWhole G) sz first (numSteps first last) W A → ∀ g, Stores X.toUSoln sz W first g →
      OwnCurrent (R.net outs) (OwnPoint R shape) s g → CleanHalosCurrent (R.net outs) s g →
      ∀ out, (R.net outs).ScrRunTo (fun r => X.kernel (X.mainL P Q) (X.scrK P Q) sz (Cr r)) first last s out →
        ∃ s', out = .ok s' ∧ ∀ r < R.n, ∀ v x, OwnPoint R shape r v x →
          (X.hasStep v = false → s'.copy r ((v, 0), x) = W v 0 x) ∧
          (X.hasStep v = true → ∀ j : Nat, j < sz v →
            s'.copy r (stepSlot X.toUSoln sz v (first + X.dir * numSteps first last - X.dir * j), x) =
              W v (first + X.dir * numSteps first last - X.dir * j) x) := by
  have hC := compiled_x ho hor h
  have ha := C60_scratch_stages ho hkey hor h hl
  have hn := C60_scratch_slots ho hkey hor h hl hpos first hst hro
  have hr := xruns_of_setUp hl ho.all hC hs
  obtain ⟨d, hd⟩ := hl.acyclic
  have hf := xfits_announced hl ho.all hC ha hs hr hn hR hA d
  have har : ∀ r < R.n, X.Arranged (X.mainL P Q) (X.scrK P Q) (Cr r).children := fun r h' => by rw [hsR.children r h']; exact ha
  have hhas : ∀ r < R.n, X.Has ((R.net outs).cfg r) (InWhole G) (Cr r) (X.mainL P Q) (X.scrK P Q) := fun r h' =>
    has_on_rank hl ho.all hC hs hp hsR h'
  have hsup : ∀ r < R.n, (X.kernel (X.mainL P Q) (X.scrK P Q) sz (Cr r)).Supplied ((R.net outs).cfg r) := fun r h' =>
    XSoln.kernel_supplied hl (har r h') hc (hhas r h')
  have hinl : InlinedOn (fun r => X.kernel (X.mainL P Q) (X.scrK P Q) sz (Cr r)) (prep_divided hp outs) (XSoln.inlStencil hl ha hr hn d) :=
    fun r h' => XSoln.kernel_inlined hl (har r h') hc (hhas r h') hd rfl rfl rfl
  refine ⟨C69_ranks_executions_exist hp hf hsup hinl first last s, fun W A hW g hg hown hcl out hout => ?_⟩
  obtain ⟨s', rfl, h1, -⟩ := C01_ranks_partial hp _ hf first last g s hown hcl out (C69_ranks_substitution_partial hp hsup hinl hout)
  have h2 := C60_reference (XSoln.inl_legal hl (X.fuel d)) (XSoln.inl_arranged ha (X.fuel d)) (XSoln.inl_enough hn (X.fuel d))
    (XSoln.inl_runs hr (X.fuel d)) hdir (XSoln.inl_evolves hl hc hr.nd hd hW) hg
  refine ⟨s', rfl, fun r hr' v x hx => ⟨fun hv => ?_, fun hv j hj => ?_⟩⟩
  · rw [h1 r hr' (v, 0) x hx]
    exact h2.1 v x hv
  · rw [h1 r hr' (stepSlot X.toUSoln sz v _) x hx]
    exact h2.2 v x hv j hj

end

/-! ### An example: the two ranks of `exNetPrep`, with a scratch var

`a(x) = 2 * u(t,x)` and `u(t+1,x) = a(x-1) + a(x) + a(x+1)`; `a` is evaluated one point beyond the rank and its extension. -/

def exScrNet (lo hi : Int) : Scr Slot Unit Int where
  children _ _ := [0]
  empty _ _ := false
  wl _ _ := 1
  wr _ _ := 1
  sdom k y := decide (k = 0 ∧ lo - 1 ≤ y.getD 0 0 ∧ y.getD 0 0 < hi + 1)
  sstep _ _ := true
  outs k _ := k = 0
  sreadsB _ t y _ β q := β = (0, (t % 2).toNat) ∧ q = y
  sreadsS _ _ _ _ _ _ := False
  sval _ t y m _ _ := 2 * m ((0, (t % 2).toNat), y)
  sval_local _ _ _ _ _ _ _ _ h _ := congrArg (2 * ·) (h _ _ ⟨rfl, rfl⟩)
  writes a β := β = (0, ((a.step + 1) % 2).toNat) ∧ a.part = 0 ∧ a.pt.length = 1
  readsB _ _ _ := False
  readsS a _ y := y = [a.pt.getD 0 0 - 1] ∨ y = [a.pt.getD 0 0] ∨ y = [a.pt.getD 0 0 + 1]
  value a _ f _ := f ((), [a.pt.getD 0 0 - 1]) + f ((), [a.pt.getD 0 0]) + f ((), [a.pt.getD 0 0 + 1])

/-- With substituted scratch var. -/
def exScrNetS : Stencil exNetG Slot Int where
  writes := exNetStencil.writes
  reads := exNetStencil.reads
  value a m _ := 2 * m ((0, (a.step % 2).toNat), [a.pt.getD 0 0 - 1]) + 2 * m ((0, (a.step % 2).toNat), [a.pt.getD 0 0]) +
    2 * m ((0, (a.step % 2).toNat), [a.pt.getD 0 0 + 1])
  reads_near := exNetStencil.reads_near
  value_local := by
    rintro a m m' β h
    simp only [h _ _ ⟨rfl, Or.inl rfl⟩, h _ _ ⟨rfl, Or.inr (Or.inl rfl)⟩, h _ _ ⟨rfl, Or.inr (Or.inr rfl)⟩]
  indep := exNetStencil.indep

/-- The scratch parts of each rank. -/
def exScrNetX (r : Nat) : Scr Slot Unit Int := exScrNet ((exNetCfg r).extBeg 0) ((exNetCfg r).extEnd 0)

theorem exScrNet_needs {lo hi : Int} {a : Task} {v : Unit} {y : List Int} (h : (exScrNet lo hi).Needs a v y) :
    y = [a.pt.getD 0 0 - 1] ∨ y = [a.pt.getD 0 0] ∨ y = [a.pt.getD 0 0 + 1] := by
  cases h with
  | direct h => exact h
  | through _ _ h => exact absurd h id

theorem exScrNet_supplied {c : RunCfg} (hnd : c.nd = 1) (lo hi : Int)
    (hdom : ∀ st p x, c.dom st p x = true → lo ≤ x.getD 0 0 ∧ x.getD 0 0 < hi) : (exScrNet lo hi).Supplied c where
  one a ha v y hn := by
    have hx := hdom _ _ _ ha.2.2.1
    refine ⟨0, List.mem_singleton_self 0, ⟨rfl, decide_eq_true ⟨rfl, ?_⟩, rfl⟩, fun k' hk => hk.1⟩
    rcases exScrNet_needs hn with rfl | rfl | rfl <;> simp only [List.getD_cons_zero] <;> omega
  near a ha v y k hn hk := by
    refine ⟨?_, fun j hj => ?_⟩
    · rw [hnd]
      rcases exScrNet_needs hn with rfl | rfl | rfl <;> rfl
    · obtain rfl : j = 0 := by omega
      show -1 ≤ _ ∧ _ ≤ (1 : Int)
      rcases exScrNet_needs hn with rfl | rfl | rfl <;> simp only [List.getD_cons_zero] <;> omega
  order _ _ _ _ _ _ _ _ _ _ _ _ _ h _ := absurd h id
  empty _ _ h := absurd h Bool.false_ne_true

theorem exScrNet_inlined {c : RunCfg} (lo hi : Int) {S : Stencil c Slot Int} (h1 : S.writes = exScrNetS.writes) (h2 : S.reads = exScrNetS.reads)
    (h3 : S.value = exScrNetS.value) (hdom : ∀ st p x, c.dom st p x = true → lo ≤ x.getD 0 0 ∧ x.getD 0 0 < hi) : (exScrNet lo hi).Inlined S where
  writes a _ β := by rw [h1]; exact Iff.rfl
  direct _ _ _ _ h := absurd h id
  through a _ v y k β q hn hk hr := by
    obtain ⟨rfl, rfl⟩ := hr
    rw [h2]
    exact ⟨rfl, exScrNet_needs hn⟩
  value a ha β hw m f hf := by
    rw [h3]
    have hx := hdom _ _ _ ha.2.2.1
    have hv : ∀ i, ([i] = [a.pt.getD 0 0 - 1] ∨ [i] = [a.pt.getD 0 0] ∨ [i] = [a.pt.getD 0 0 + 1]) →
        f ((), [i]) = 2 * m ((0, (a.step % 2).toNat), [i]) := by
      intro i hi'
      refine hf () [i] 0 (.direct hi') ⟨rfl, decide_eq_true ⟨rfl, ?_⟩, rfl⟩
      simp only [List.cons.injEq, and_true] at hi'
      simp only [List.getD_cons_zero]
      omega
    show f ((), _) + f ((), _) + f ((), _) = 2 * _ + 2 * _ + 2 * _
    rw [hv _ (Or.inl rfl), hv _ (Or.inr (Or.inl rfl)), hv _ (Or.inr (Or.inr rfl))]

theorem exScrNet_dom (r : Nat) (hr : r < 2) (st p : Nat) (x : List Int) (h : ((exNetPrep.net exNetOuts).cfg r).dom st p x = true) :
    (exNetCfg r).extBeg 0 ≤ x.getD 0 0 ∧ x.getD 0 0 < (exNetCfg r).extEnd 0 :=
  ((exNet_prepared.dom r hr st p x).1 h).2 0 (by decide)

theorem exScrNet_fits : FitsVars exScrNetS exNetPrep exNetShape exNetOuts where
  writes := exNet_fits.writes
  reads := exNet_fits.reads

theorem exScrNet_ranks_supplied : ∀ r < exNetPrep.n, (exScrNetX r).Supplied ((exNetPrep.net exNetOuts).cfg r) :=
  fun r hr => exScrNet_supplied rfl _ _ (exScrNet_dom r hr)

theorem exScrNet_ranks_inlined : InlinedOn exScrNetX (prep_divided exNet_prepared exNetOuts) exScrNetS :=
  fun r hr => exScrNet_inlined _ _ rfl rfl rfl (exScrNet_dom r hr)

/-- Three steps on two ranks: there are runs, and each leaves on the ranks what the reference with scratch vars computes on all 40 points. -/
example (m : Scr.Mem Slot Unit Int) : ∃ s' tr, (exNetPrep.net exNetOuts).ScrRunTo exScrNetX 0 2
      { copy := fun _ => m.vars, self := fun _ _ => true, others := fun _ _ => true } (.ok s') ∧
    (exScrNet 0 40).runRef exNetG 0 2 tr ∧
    OwnCurrent (exNetPrep.net exNetOuts) (OwnPoint exNetPrep exNetShape) s' ((exScrNet 0 40).exec tr m).vars := by
  have hdom : ∀ st p x, exNetG.dom st p x = true → (0 : Int) ≤ x.getD 0 0 ∧ x.getD 0 0 < 40 := fun st p x h =>
    (exNet_prepared.inside st p x h) 0 (by decide)
  have hok : exNetG.Ok := demoCfg_ok 1 1 1 40 40 40 40 1 2 0 (by decide)
  obtain ⟨tr, ht⟩ := (C69_executions_exist (X := exScrNet 0 40) hok 0 2).2
  obtain ⟨o, ho⟩ := C69_ranks_executions_exist exNet_prepared exScrNet_fits exScrNet_ranks_supplied exScrNet_ranks_inlined 0 2
    { copy := fun _ => m.vars, self := fun _ _ => true, others := fun _ _ => true }
  obtain ⟨s', rfl, h1, -⟩ := C69_ranks_equal_reference_partial exNet_prepared hok exScrNet_fits exScrNet_ranks_supplied exScrNet_ranks_inlined
    (exScrNet_supplied rfl 0 40 hdom) (exScrNet_inlined 0 40 (S := exScrNetS) rfl rfl rfl hdom) ht m _ (fun _ _ _ _ _ => rfl)
    (fun _ _ _ _ _ _ _ => rfl) o ho
  exact ⟨s', tr, ho, ht, h1⟩

/-! ### The same from equations -/

/-- `u(t+1,x) = a(x-1) - a(x+1)`. -/
def exYu : UEq Int := ⟨⟨0, some 1, [("x", 0)]⟩, [⟨1, none, [("x", -1)]⟩, ⟨1, none, [("x", 1)]⟩], fun _ => true, fun _ => true,
  fun _ _ l => l.getD 0 0 - l.getD 1 0⟩
/-- `a(x) = 2 * u(t,x) if x >= 10`. -/
def exYa : UEq Int := ⟨⟨1, none, [("x", 0)]⟩, [⟨0, some 0, [("x", 0)]⟩], fun x => decide (10 ≤ x.getD 0 0), fun _ => true,
  fun _ _ l => 2 * l.getD 0 0⟩
/-- `a(x) = 7 if x < 10`. -/
def exYa' : UEq Int := ⟨⟨1, none, [("x", 0)]⟩, [], fun x => decide (x.getD 0 0 < 10), fun _ => true, fun _ _ _ => 7⟩
def exY : XSoln Int := { dims := ["x"], dir := 1, hasStep := fun v => decide (v = 0), eqs := [exYu], isScr := fun v => decide (v = 1), scr := [exYa, exYa'] }
def exYo : exY.Opts Nat where
  order := [.inl ⟨0, by decide⟩, .inr ⟨0, by decide⟩, .inr ⟨1, by decide⟩]
  key := fun | .inl _ => 0 | .inr e => e.1 + 1
  clash _ _ := false
  compat _ _ := true
  bundle := true
  user := []

/-- The parts and stages that the compiler makes. -/
def exYPQ : Lots exY.Idx Nat × Lots Nat Unit := match (exY.sys exYo).compileAll id id id id with
  | .ok r => r
  | _ => ({}, {})

theorem exY_ok : ((exY.sys exYo).compileAll id id id id).isOk = true := by decide +kernel

theorem exY_compiles : (exY.sys exYo).compileAll id id id id = .ok (exYPQ.1, exYPQ.2) := by
  have h := exY_ok
  unfold exYPQ
  cases e : (exY.sys exYo).compileAll id id id id with
  | ok r => rfl
  | throws => rw [e] at h; cases h
  | undefined => rw [e] at h; cases h

theorem exY_listed : Listed exYo := ⟨by decide +kernel, by
  intro e
  match e with
  | .inl ⟨0, _⟩ => exact List.mem_cons_self
  | .inr ⟨0, _⟩ => exact List.mem_cons_of_mem _ List.mem_cons_self
  | .inr ⟨1, _⟩ => exact List.mem_cons_of_mem _ (List.mem_cons_of_mem _ List.mem_cons_self)⟩

theorem exY_key : ∀ e e', exYo.key e = exYo.key e' → (exY.eqn e).domIf = (exY.eqn e').domIf ∧ (exY.eqn e).stepIf = (exY.eqn e').stepIf := by
  have h : ∀ e e', exYo.key e = exYo.key e' → e = e' := by decide +kernel
  intro e e' he
  rw [h e e' he]
  exact ⟨rfl, rfl⟩

theorem exY_orders : Orders (X := exY) id id id id := ⟨fun _ => .refl _, fun _ => .refl _, fun _ => .refl _, fun _ => .refl _⟩

theorem exY_args : ∀ e ∈ exY.eqs ++ exY.scr, ∀ p ∈ e.lhs :: e.rhs, p.dom.map Prod.fst = ["x"] := by decide +kernel
theorem exY_steps : ∀ e ∈ exY.eqs ++ exY.scr, ∀ p ∈ e.rhs, p.step = some 0 ∨ p.step = none := by decide +kernel

theorem exY_legal : exY.Legal fun _ => ["x"] where
  dir := Or.inl rfl
  dims := by decide
  lhs := by
    intro e he
    simp only [exY, List.mem_cons, List.not_mem_nil, or_false] at he
    subst he
    refine ⟨rfl, rfl, fun n => ?_⟩
    simp only [exYu, Pt.at, List.lookup]
    split <;> rfl
  slhs := by
    intro e he
    simp only [exY, List.mem_cons, List.not_mem_nil, or_false] at he
    rcases he with rfl | rfl <;> refine ⟨rfl, rfl, fun n => ?_⟩ <;> simp only [exYa, exYa', Pt.at, List.lookup] <;> split <;> rfl
  step := by decide +kernel
  rhs := by
    intro e he p hp k hk
    show k * 1 ≤ 1
    rcases exY_steps e he p hp with h | h <;> rw [h] at hk
    · injection hk; omega
    · cases hk
  args := by
    intro e he p hp n
    rw [exY_args e he p hp]
  inDims := fun _ _ h => h
  sdims := fun _ _ _ h => h
  full := fun _ _ _ _ _ h => h
  one := by
    intro i j e e' h1 h2 _ _ _ _ _ _ _
    obtain ⟨l1, -⟩ := List.getElem?_eq_some_iff.1 h1
    obtain ⟨l2, -⟩ := List.getElem?_eq_some_iff.1 h2
    have : exY.eqs.length = 1 := rfl
    omega
  sone := by
    intro i j e e' h1 h2 _ t x c1 _ c2 _
    obtain ⟨l1, g1⟩ := List.getElem?_eq_some_iff.1 h1
    obtain ⟨l2, g2⟩ := List.getElem?_eq_some_iff.1 h2
    have hlen : exY.scr.length = 2 := rfl
    rw [hlen] at l1 l2
    have hi : i = 0 ∨ i = 1 := by omega
    have hj : j = 0 ∨ j = 1 := by omega
    rcases hi with rfl | rfl <;> rcases hj with rfl | rfl
    · rfl
    · obtain rfl : exYa = e := g1
      obtain rfl : exYa' = e' := g2
      have a := of_decide_eq_true c1
      have b := of_decide_eq_true c2
      omega
    · obtain rfl : exYa' = e := g1
      obtain rfl : exYa = e' := g2
      have a := of_decide_eq_true c1
      have b := of_decide_eq_true c2
      omega
    · rfl
  acyclic := ⟨id, by decide +kernel⟩

theorem exY_covered (D : List Int → Prop) : exY.Covered D := by
  intro e _ t x _ _ p _ hs
  have hv : p.var = 1 := of_decide_eq_true hs
  by_cases hx : 10 ≤ (shiftPt exY.dims x p).getD 0 0
  · exact ⟨exYa, by simp [exY], hv.symm, decide_eq_true hx, rfl⟩
  · exact ⟨exYa', by simp [exY], hv.symm, decide_eq_true (by omega), rfl⟩

theorem exY_fresh (t0 : Int) (v : Nat) : ¬ MayReadStale (exY.hsys exYPQ.1 exYPQ.2) v (2 : Nat) t0 exY.dir := by
  rintro ⟨n', i, e', w, n, j, e, p, k, ⟨st', hi, he'⟩, -, hw, ⟨st, hj, he⟩, hp, -, hk, hprec, hpos, hdvd⟩
  have hm : ∀ st ∈ mainStages (exY.hsys exYPQ.1 exYPQ.2), ∀ e ∈ stageEqs (exY.hsys exYPQ.1 exYPQ.2) st,
      (e.lhs.step = some 1 ∨ e.lhs.step = none) ∧ ∀ p ∈ e.rhs, p.step = some 0 ∨ p.step = none := by decide +kernel
  have h1 := (hm st' (List.mem_of_getElem? hi) e' he').1
  have h2 := (hm st (List.mem_of_getElem? hj) e he).2 p hp
  rw [hw] at h1
  rw [hk] at h2
  have h1 : w = 1 := by simpa using h1
  have h2 : k = 0 := by simpa using h2
  subst h1 h2
  have hd : exY.dir = 1 := rfl
  rw [hd] at hpos hdvd
  have hle : n' ≤ n := by rcases hprec with h | ⟨h, _⟩ <;> omega
  push_cast at hdvd
  omega

/-- Scratch parts as the compiler makes them, valid between `lo` and `hi` where their conditions hold. -/
def exYC (lo hi : Int) : ScrCfg where
  children := kernelChildren exYPQ.1 exYPQ.2
  empty _ _ := false
  wl k j := writeHalo (exY.hsys exYPQ.1 exYPQ.2).calcHalos (((kernelScr exYPQ.1 exYPQ.2).getD k []).map exY.hpeq) (exY.dims.getD j "") true
  wr k j := writeHalo (exY.hsys exYPQ.1 exYPQ.2).calcHalos (((kernelScr exYPQ.1 exYPQ.2).getD k []).map exY.hpeq) (exY.dims.getD j "") false
  sdom k y := decide (InIvl (y.getD 0 0) (lo, hi)) && ((kernelScr exYPQ.1 exYPQ.2).getD k []).all fun e => (exY.eqn e).domIf y
  sstep _ _ := true

theorem exY_stages : kernelStages exYPQ.1 exYPQ.2 = [[[Sum.inl ⟨0, by decide⟩]]] := by decide +kernel
theorem exY_scr : kernelScr exYPQ.1 exYPQ.2 = [[Sum.inr ⟨0, by decide⟩], [Sum.inr ⟨1, by decide⟩]] := by decide +kernel

theorem exY_width (lo hi : Int) (k j : Nat) (hj : j < 1) : (exYC lo hi).wl k j ≤ 1 ∧ (exYC lo hi).wr k j ≤ 1 := by
  obtain rfl : j = 0 := by omega
  match k with
  | 0 => exact (by decide +kernel : (exYC 0 0).wl 0 0 ≤ 1 ∧ (exYC 0 0).wr 0 0 ≤ 1)
  | 1 => exact (by decide +kernel : (exYC 0 0).wl 1 0 ≤ 1 ∧ (exYC 0 0).wr 1 0 ≤ 1)
  | k + 2 =>
    have : (kernelScr exYPQ.1 exYPQ.2).getD (k + 2) [] = [] := by rw [exY_scr]; rfl
    simp only [exYC, this]
    decide +kernel

theorem exY_stepIf (e : exY.Idx) (t : Int) : (exY.eqn e).stepIf t = true := by
  have hl : ∀ e ∈ exY.eqs ++ exY.scr, e.stepIf t = true := by
    intro e he
    simp only [exY, List.cons_append, List.nil_append, List.mem_cons, List.not_mem_nil, or_false] at he
    rcases he with rfl | rfl | rfl <;> rfl
  cases e with
  | inl e => exact hl _ (List.mem_append_left _ (List.getElem_mem _))
  | inr e => exact hl _ (List.mem_append_right _ (List.getElem_mem _))

theorem exY_setUp : SetUp exNetG (exYC (-1) 41) exY exYPQ.1 exYPQ.2 where
  nd := rfl
  nst := by rw [exY_stages]; rfl
  nparts := by
    intro st hst
    obtain rfl : st = 0 := by have : st < 1 := hst; omega
    rw [exY_stages]; rfl
  dom := by
    intro st p x
    constructor
    · intro h
      refine ⟨of_decide_eq_true h, fun e he => ?_⟩
      obtain ⟨e, rfl⟩ := main_inl exY_legal (compiled_x exY_listed exY_orders exY_compiles) he
      have : exY.eqn (.inl e) = exYu := List.mem_singleton.1 (show exY.eqs[e] ∈ [exYu] from List.getElem_mem _)
      rw [this]; rfl
    · rintro ⟨h, -⟩
      exact decide_eq_true h
  stepOk st p t := ⟨fun _ e _ => exY_stepIf e t, fun _ => rfl⟩
  children := rfl
  empty _ _ h := absurd h Bool.false_ne_true
  sdom k y h e he := List.all_eq_true.1 (Bool.and_eq_true_iff.1 h).2 e he
  sbox k y hy h := by
    refine Bool.and_eq_true_iff.2 ⟨decide_eq_true ?_, List.all_eq_true.2 h⟩
    have h1 := hy 0 (by decide)
    have h2 := exY_width (-1) 41 k 0 (by decide)
    simp only [InIvl, exNetG, demoCfg, demoDim] at h1 ⊢
    omega
  sstep k t := ⟨fun _ e _ => exY_stepIf e t, fun _ => rfl⟩
  wl _ _ := rfl
  wr _ _ := rfl
  halo := by
    have h : ∀ e ∈ exY.eqs ++ exY.scr, ∀ p ∈ e.rhs, exY.isScr p.var = false → ∀ left,
        ((exY.hsys exYPQ.1 exYPQ.2).calcHalos p.var).size "x" left ≤ 1 := by decide +kernel
    intro e he p hp hs j hj left
    obtain rfl : j = 0 := by have : j < 1 := hj; omega
    exact h e he p hp hs left

/-- Scratch parts on each rank. -/
def exYCr (r : Nat) : ScrCfg := exYC ((exNetCfg r).extBeg 0 - 1) ((exNetCfg r).extEnd 0 + 1)

theorem exY_setUpRanks : SetUpRanks exNetG exNetPrep exYCr exY exYPQ.1 exYPQ.2 where
  children _ _ := rfl
  empty _ _ _ _ h := absurd h Bool.false_ne_true
  sdom r _ k y h e he := List.all_eq_true.1 (Bool.and_eq_true_iff.1 h).2 e he
  sbox r _ k y hy h := by
    refine Bool.and_eq_true_iff.2 ⟨decide_eq_true ?_, List.all_eq_true.2 h⟩
    have h1 := hy 0 (by decide)
    have h2 := exY_width ((exNetCfg r).extBeg 0 - 1) ((exNetCfg r).extEnd 0 + 1) k 0 (by decide)
    have h3 : (exNetPrep.cfg r) = exNetCfg r := rfl
    rw [h3] at h1
    have h4 : exYCr r = exYC ((exNetCfg r).extBeg 0 - 1) ((exNetCfg r).extEnd 0 + 1) := rfl
    rw [h4] at h1
    unfold InIvl at h1 ⊢
    simp only at h1 ⊢
    omega
  sstep r _ k t := ⟨fun _ e _ => exY_stepIf e t, fun _ => rfl⟩
  wl _ _ _ _ := rfl
  wr _ _ _ _ := rfl

theorem exY_announced : XAnnounced exNetG exY exYPQ.1 exYPQ.2 (fun _ => ["x"]) (fun _ => 2) exNetPrep exNetShape exNetOuts where
  vars := by decide +kernel
  slots _ _ := rfl
  used v _ j hj := by
    obtain rfl : j = 0 := by have : j < 1 := hj; omega
    rfl
  lh v hv j hj := by
    obtain rfl : j = 0 := by have : j < 1 := hj; omega
    obtain rfl : v = 0 := by have : v < 1 := hv; omega
    decide +kernel
  rh v hv j hj := by
    obtain rfl : j = 0 := by have : j < 1 := hj; omega
    obtain rfl : v = 0 := by have : v < 1 := hv; omega
    decide +kernel
  dist v hv := by
    obtain rfl : v = 0 := by have : v < 1 := hv; omega
    decide +kernel
  outs st p e _ t := by
    have : exY.eqs[e] = exYu := List.mem_singleton.1 (show exY.eqs[e] ∈ [exYu] from List.getElem_mem _)
    rw [this]
    exact decide_eq_true rfl
  full _ _ _ h := h

theorem exY_reached : Reached exY exNetPrep := by
  intro e he p hp _
  obtain ⟨e0, he0, p0, hp0, -, -, hk⟩ := XSoln.leads_orig he hp
  rw [exY_args e0 he0 p0 (List.mem_cons_of_mem _ hp0)] at hk
  have hz : ∀ n, n ≠ "x" → p.at n = 0 := by
    intro n hn
    obtain ⟨v, s, dom⟩ := p
    match dom, hk with
    | [(a, b)], hk =>
      have : a = "x" := by simpa using hk
      subst this
      simp only [Pt.at, List.lookup]
      rw [beq_eq_false_iff_ne.2 hn]
      rfl
  rcases le_total (p.at "x") 0 with h | h
  · refine Or.inl fun n => ?_
    by_cases hn : n = "x"
    · rw [hn]; exact h
    · rw [hz n hn]
  · refine Or.inr (Or.inl fun n => ?_)
    by_cases hn : n = "x"
    · rw [hn]; exact h
    · rw [hz n hn]

/-- Three steps from any memory on two ranks: there is a history of the equations that starts with it, and runs that compute it. -/
example (g : Slot × List Int → Int) : ∃ W A s', exY.Evolves (InWhole exNetG) (fun _ => 2) 0 3 W A ∧ Stores exY.toUSoln (fun _ => 2) W 0 g ∧
    (exNetPrep.net exNetOuts).ScrRunTo (fun r => exY.kernel (exY.mainL exYPQ.1 exYPQ.2) (exY.scrK exYPQ.1 exYPQ.2) (fun _ => 2) (exYCr r)) 0 2
      { copy := fun _ => g, self := fun _ _ => true, others := fun _ _ => true } (.ok s') ∧
    ∀ r < 2, ∀ x, OwnPoint exNetPrep exNetShape r 0 x → s'.copy r ((0, 1), x) = W 0 3 x := by
  have hro : ∀ e ∈ exY.eqs ++ exY.scr, ∀ p ∈ e.rhs, (∀ e' ∈ exY.eqs, e'.lhs.var ≠ p.var) → ∀ k, p.step = some k →
      -(((fun _ => 2 : Nat → Nat) p.var : Nat) : Int) < k * exY.dir := by
    intro e he p hp _ k hk
    rcases exY_steps e he p hp with h | h <;> rw [h] at hk
    · injection hk with hk; subst hk; show (-2 : Int) < 0 * 1; decide
    · cases hk
  have h := C60_scratch_ranks_partial (sz := fun _ => 2) (Cr := exYCr) exY_listed exY_key exY_orders exY_compiles exY_legal (exY_covered (InWhole exNetG))
    (first := 0) (last := 2) (show (0 : Int) ≤ (2 - 0) * 1 by decide) (fun _ => by decide) (exY_fresh 0) hro exY_setUp exNet_prepared exY_setUpRanks
    exY_announced exY_reached { copy := fun _ => g, self := fun _ _ => true, others := fun _ _ => true }
  obtain ⟨W, A, h1, h2⟩ := (C60_scratch_run_partial (sz := fun _ => 2) (C := exYC (-1) 41) exY_listed exY_key exY_orders exY_compiles exY_legal
    (exY_covered (InWhole exNetG)) (first := 0) (last := 2) (show (0 : Int) ≤ (2 - 0) * 1 by decide) (fun _ => by decide) (exY_fresh 0) hro exY_setUp
    (demoCfg_ok 1 1 1 40 40 40 40 1 2 0 (by decide)) (demoCfg_single 1 1 1 40 40 40 40 1 2 0) (Or.inl rfl)).1 g
  obtain ⟨out, hout⟩ := h.1
  obtain ⟨s', rfl, hs'⟩ := h.2 W A h1 g h2 (fun _ _ _ _ _ => rfl) (fun _ _ _ _ _ _ _ => rfl) out hout
  exact ⟨W, A, s', h1, h2, hout, fun r hr x hx => (hs' r hr 0 x hx).2 rfl 0 (by decide)⟩

/-- Rank 1 evaluates `a` from point 18 on: its own points start at 20, its extension at 19. -/
example : ((exScrNetX 1).sdom 0 [17], (exScrNetX 1).sdom 0 [18]) = (false, true) := by decide +kernel

end Yask
