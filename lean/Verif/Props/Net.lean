import Verif.Mpi.PassLemmas
import Verif.Mpi.PrepLemmas
import Verif.Sched.SeqTrace
import Verif.Props.Sched

/-!
# C01: `run_solution` on several ranks

The model is `Verif.Mpi.NetModel`, the vocabulary of the statements is in `Verif.Spec.NetSpec`.
-/

namespace Yask
open Spec RunCfg Mpi

variable {G : RunCfg} {Val : Type*} {N : Net} {own : Nat → Nat → List Int → Prop}

/-- C01, on any number of ranks, given the regions they exchange: if every rank has the values of one global memory `g` at its own
points, and in halos whose owner has not marked a change, then in every execution (any tile sizes on each rank, any overlap of
computation and communication, any thread interleaving) `run_solution` ends, and then every rank has, at its own points, the
values that the reference evaluation of the overall domain computes from `g`; so it has at the points received from
others.  The configurations excluded are those with a short remainder block (`C05_short_remainder_race`). -/
theorem C01_ranks_given_regions_partial (hd : Divided G N) (S : Stencil G Slot Val) (hl : Linked S N own) (hn : 0 < N.n)
    (first last : Int) (g : Slot × List Int → Val) (s : NState Val) (hown : OwnCurrent N own s g) (hcl : CleanHalosCurrent N s g)
    (o : Outcome (NState Val)) (ho : N.RunTo S first last s o) :
    ∃ s', o = .ok s' ∧ OwnCurrent N own s' (S.sem.exec (G.runRef first last) g) ∧
      AllHalosCurrent N s' (S.sem.exec (G.runRef first last) g) := by
  have hpass : ∀ r < N.n, passes (N.cfg r) first last = passes (N.cfg 0) first last := fun r hr =>
    passes_congr ((hd.steps r hr).trans (hd.steps 0 hn).symm) ((hd.nst r hr).trans (hd.nst 0 hn).symm) _ _
  unfold Net.RunTo at ho
  simp only at ho
  rw [if_pos hpass] at ho
  obtain ⟨o1, rfl, ho⟩ := ho
  obtain ⟨s1, e, a1, a2, a3⟩ := exchange_current hl { s with others := fun _ _ => true } { s with others := fun _ _ => true }
    (fun _ => true) g (fun _ _ _ _ _ _ => rfl) (fun _ _ _ _ _ _ _ => rfl) rfl rfl hown
    (fun r hr nb β x hg => hown nb (hl.nbr_lt r hr nb hg.1) β x (hl.gets_own r hr nb β x hg))
    (fun r hr nb β x hg h => hcl r hr nb β x hg (by simpa using h))
  rcases ho with ⟨s1', e1, ho⟩ | ⟨e1, _⟩
  · rw [e] at e1
    cases e1
    have hch : PassChain G first (stepDir first last) (passes (N.cfg 0) first last) 0 (numSteps first last * G.nst) := by
      have := (passes_chain (hd.ok 0 hn) first last).congr (hd.steps 0 hn) (hd.nst 0 hn)
      rwa [hd.nst 0 hn] at this
    obtain ⟨s', e', b1, b2, _⟩ := passes_current hd hl (stepDir_cases first last) g _ hch s1 a1 a2 a3 ho
    refine ⟨s', e', ?_, ?_⟩
    · rw [runRef_layers]; exact b1
    · rw [runRef_layers]; exact b2
  · rw [e] at e1
    cases e1

/-- There are executions: in particular with a single thread on each rank. -/
theorem C01_ranks_executions_exist (hd : Divided G N) (S : Stencil G Slot Val) (hl : Linked S N own) (hn : 0 < N.n)
    (first last : Int) (s : NState Val) : ∃ o, N.RunTo S first last s o := by
  have hpass : ∀ r < N.n, passes (N.cfg r) first last = passes (N.cfg 0) first last := fun r hr =>
    passes_congr ((hd.steps r hr).trans (hd.steps 0 hn).symm) ((hd.nst r hr).trans (hd.nst 0 hn).symm) _ _
  have hps : ∀ (ps : List Pass) {m m' : Nat} (_ : PassChain G first (stepDir first last) ps m m') (s : NState Val),
      ∃ o, N.PassesTo S (stepDir first last) ps s o := by
    intro ps
    induction ps with
    | nil => intro _ _ _ s; exact ⟨_, rfl⟩
    | cons p ps ih =>
      rintro m m' ⟨cnt, h1, h2⟩ s
      obtain ⟨o1, ho1⟩ := pass_exists hd hl (stepDir_cases first last)
        (fun r hr => h1.congr (hd.steps r hr).symm (hd.nst r hr).symm) s
      cases o1 with
      | ok s1 =>
        obtain ⟨o, ho⟩ := ih h2 s1
        exact ⟨o, _, ho1, Or.inl ⟨s1, rfl, ho⟩⟩
      | throws => exact ⟨.throws, .throws, ho1, Or.inr ⟨rfl, rfl⟩⟩
      | undefined => exact ⟨.undefined, .undefined, ho1, Or.inr ⟨rfl, rfl⟩⟩
  have hch : PassChain G first (stepDir first last) (passes (N.cfg 0) first last) 0 (numSteps first last * G.nst) := by
    have := (passes_chain (hd.ok 0 hn) first last).congr (hd.steps 0 hn) (hd.nst 0 hn)
    rwa [hd.nst 0 hn] at this
  unfold Net.RunTo
  simp only [if_pos hpass]
  cases he : N.exchangeFrom { s with others := fun _ _ => true } { s with others := fun _ _ => true } with
  | ok s1 =>
    obtain ⟨o, ho⟩ := hps _ hch s1
    exact ⟨o, _, rfl, Or.inl ⟨s1, rfl, ho⟩⟩
  | throws => exact ⟨.throws, _, rfl, Or.inr ⟨rfl, rfl⟩⟩
  | undefined => exact ⟨.undefined, _, rfl, Or.inr ⟨rfl, rfl⟩⟩

/-- C01, on any number of ranks: after `prepare_solution()`, if every rank has the values of one global memory `g` at its own
points, and in halos whose owner has not marked a change, then in every execution (any tile sizes on each rank, with or without
overlap of computation and communication, any thread interleaving) `run_solution` ends, and then every rank has, at its own
points and in the halos it received, the values that the reference evaluation of the overall domain computes from `g`.
Missing: ranks that do not begin at multiples of the vector lengths (false there, `C29_misaligned_wrong`), temporal blocks
that are too short (false, `C05_short_remainder_race`). Written vars have all domain dims; the compiler rejects others
(`C75_meaning_partial`). -/
theorem C01_ranks_partial {P : Prep} {opts : List Setup.ROpts} {minSize : Nat → Nat → Nat} {shape : Nat → VarShape}
    (hp : Prepared G P opts minSize shape) (S : Stencil G Slot Val) {outs : Nat → Int → Slot → Bool} (hf : FitsVars S P shape outs)
    (first last : Int) (g : Slot × List Int → Val) (s : NState Val) (hown : OwnCurrent (P.net outs) (OwnPoint P shape) s g)
    (hcl : CleanHalosCurrent (P.net outs) s g) (o : Outcome (NState Val)) (ho : (P.net outs).RunTo S first last s o) :
    ∃ s', o = .ok s' ∧ OwnCurrent (P.net outs) (OwnPoint P shape) s' (S.sem.exec (G.runRef first last) g) ∧
      AllHalosCurrent (P.net outs) s' (S.sem.exec (G.runRef first last) g) := by
  have hn : 0 < (P.net outs).n := by
    show 0 < P.n
    rw [hp.n]
    exact List.length_pos_iff.2 hp.some_rank
  exact C01_ranks_given_regions_partial (prep_divided hp outs) S (prep_linked hp outs hf) hn first last g s hown hcl o ho

/-! ### An example: two ranks of 20 points, two steps per wave-front, overlap of computation and communication -/

def exNetOpts : List Setup.ROpts := [⟨[2], [0], [0], [20]⟩, ⟨[2], [0], [0], [20]⟩]

def exNetRanks : Setup.RankRes :=
  match Setup.placeRanks true (fun _ => 1) 1 (fun _ _ => none) (fun _ _ => 2) exNetOpts with
  | .ok r => r
  | _ => ⟨[], fun _ _ => 0, fun _ _ => 0, fun _ _ => 0, fun _ _ => 0, fun _ _ => none⟩

/-- The overall domain as one rank. -/
def exNetG : RunCfg := demoCfg 1 (demoDim 1 1 40 40 40 40) 1 2 0

/-- The configuration of a rank: tiles differ between the ranks. -/
def exNetCfg (k : Nat) : RunCfg :=
  { nd := 1
    dim := fun _ => { fold := 1, maxHalo := 1, rankBeg := 20 * k, rankSize := 20, megaSize := 10 - k, blockSize := 5, microSize := 5 + k
                      nranks := 2, firstRank := k == 0, lastRank := k == 1, intBeg := 0, intEnd := 0 }
    nst := 1, megaSteps := 2, blockSteps := 0, roundTb := false, overlap := true
    stageBB := fun _ _ => (20 * k - if k = 0 then 0 else 1, 20 * k + 20 + if k = 1 then 0 else 1)
    nparts := fun _ => 1
    dom := fun st p x => exNetG.dom st p x &&
      decide (InIvl (x.getD 0 0) ((20 * k - if k = 0 then 0 else 1), (20 * k + 20 + if k = 1 then 0 else 1)))
    stepOk := fun _ _ _ => true }

/-- A var with halos of one point and two step slots. -/
def exNetVar : NVar where
  rank k :=
    { used := fun _ => true
      isFirst := fun j => decide (exNetRanks.idx k j = 0)
      isLast := fun j => decide (exNetRanks.idx k j = exNetRanks.num.getD j 0 - 1)
      dim := fun j => Var.DimG.resized false true false
        { kind := .domain, domain := exNetRanks.lsz k j, lHalo := 1, rHalo := 1, rankOfs := exNetRanks.ofs k j
          lExt := if exNetRanks.idx k j = 0 then 0 else 1
          rExt := if exNetRanks.idx k j = exNetRanks.num.getD j 0 - 1 then 0 else 1
          solnVL := 1, varVL := 1 } }
  maxDist := 1
  slots := 2

def exNetPrep : Prep where
  fi := true
  nd := 1
  fold := fun _ => 1
  n := 2
  ranks := exNetRanks
  nvars := 1
  var := fun _ => exNetVar
  forceScalar := false
  minExt := 3
  cfg := exNetCfg

def exNetShape (_ : Nat) : VarShape := ⟨fun _ => true, fun _ => 1, fun _ => 1, fun _ => 1⟩

/-- The value at the next step is the sum of the values at the point and at its two neighbours. -/
def exNetStencil : Stencil exNetG Slot Int where
  writes a β := β = (0, ((a.step + 1) % 2).toNat) ∧ a.part = 0 ∧ a.pt.length = 1
  reads a β q := β = (0, (a.step % 2).toNat) ∧ (q = [a.pt.getD 0 0 - 1] ∨ q = [a.pt.getD 0 0] ∨ q = [a.pt.getD 0 0 + 1])
  value a m _ := m ((0, (a.step % 2).toNat), [a.pt.getD 0 0 - 1]) + m ((0, (a.step % 2).toNat), [a.pt.getD 0 0]) +
    m ((0, (a.step % 2).toNat), [a.pt.getD 0 0 + 1])
  reads_near := by
    rintro a β q ⟨_, h⟩ j hj
    obtain rfl : j = 0 := by simp only [exNetG, demoCfg] at hj; omega
    rcases h with rfl | rfl | rfl <;> simp [exNetG, demoCfg, demoDim]
  value_local := by
    rintro a m m' β h
    simp only [h _ _ ⟨rfl, Or.inl rfl⟩, h _ _ ⟨rfl, Or.inr (Or.inl rfl)⟩, h _ _ ⟨rfl, Or.inr (Or.inr rfl)⟩]
  indep := by
    rintro ⟨s1, g1, p1, x1⟩ ⟨s2, g2, p2, x2⟩ hne h1 h2 β ⟨w1, w2, w3⟩
    dsimp only at *
    subst h1 h2
    refine ⟨fun h => ?_, ?_⟩
    · have := h.1.symm.trans w1
      rw [Prod.mk.injEq] at this
      omega
    · rintro ⟨⟨_, v2, v3⟩, rfl⟩
      exact hne (by rw [w2, v2])

/-- The slot that a step writes. -/
def exNetOuts (_ : Nat) (step : Int) (β : Slot) : Bool := decide (β = (0, ((step + 1) % 2).toNat))

theorem exNet_prepared : Prepared exNetG exNetPrep exNetOpts (fun _ _ => 2) exNetShape := by
  have h0 : ∀ j, j < exNetG.nd → j = 0 := by intro j hj; simp only [exNetG, demoCfg] at hj; omega
  have h2 : ∀ k, k < exNetPrep.n → k = 0 ∨ k = 1 := by intro k hk; simp only [exNetPrep] at hk; omega
  have hb : ∀ k, k < exNetPrep.n → (exNetCfg k).extBeg 0 = (20 * k - if k = 0 then 0 else 1) ∧
      (exNetCfg k).extEnd 0 = (20 * k + 20 + if k = 1 then 0 else 1) := by
    intro k hk
    rcases h2 k hk with rfl | rfl <;> decide +kernel
  refine
    { some_rank := by decide, n := rfl, placed := ?_, nd := rfl, ok := ?_, rem := ?_, cfg_nd := fun _ _ => rfl, nst := fun _ _ => rfl
      nparts := fun _ _ => rfl, stepOk := fun _ _ => rfl, steps := fun _ _ => rfl, dims := ?_, whole := ?_, min := ?_, inside := ?_
      dom := ?_, vars := ?_, aligned := fun _ _ _ _ _ _ _ => Int.one_dvd _ }
  · have h : (Setup.placeRanks true (fun _ => 1) 1 (fun _ _ => none) (fun _ _ => 2) exNetOpts).isOk = true := by decide +kernel
    show Setup.placeRanks true (fun _ => 1) 1 (fun _ _ => none) (fun _ _ => 2) exNetOpts = .ok exNetRanks
    unfold exNetRanks
    cases hc : Setup.placeRanks true (fun _ => 1) 1 (fun _ _ => none) (fun _ _ => 2) exNetOpts with
    | ok r => rfl
    | throws => rw [hc] at h; cases h
    | undefined => rw [hc] at h; cases h
  · intro k hk
    have hdx : ∀ st p x, (exNetPrep.full k).dom st p x = true → ∀ j < 1,
        InIvl (x.getD j 0) ((20 * k - if k = 0 then 0 else 1), (20 * k + 20 + if k = 1 then 0 else 1)) := by
      intro st p x hx
      have : (exNetCfg k).dom st p x = true := hx
      simp only [exNetCfg, Bool.and_eq_true, decide_eq_true_eq] at this
      intro j hj
      obtain rfl : j = 0 := by omega
      exact this.2
    refine
      { nd_le := by show 1 ≤ 8; decide, fold_pos := fun _ _ => by show (0 : Int) < 1; decide
        halo_nonneg := fun _ _ => by show (0 : Int) ≤ 1; decide, rank_pos := fun _ _ => by show (0 : Int) < 20; decide
        mega_pos := ?_, block_pos := fun _ _ => by show (0 : Int) < 5; decide, block_ge := fun _ _ _ => by show (1 : Int) ≤ 5; decide
        micro_pos := ?_, mega_steps := by show (0 : Int) ≤ 2; decide, block_steps := by show (0 : Int) ≤ 0; decide
        dom_bb := hdx, dom_ext := ?_, ext_ranks := fun _ _ _ _ => by show (1 : Int) < 2; decide }
    · intro j _
      show (0 : Int) < 10 - k
      rcases h2 k hk with rfl | rfl <;> decide
    · intro j _
      show (0 : Int) < 5 + k
      rcases h2 k hk with rfl | rfl <;> decide
    · intro st p x hx j hj
      obtain rfl := h0 j hj
      have := hdx st p x hx 0 (by decide)
      rw [show (exNetPrep.full k).extBeg 0 = (exNetCfg k).extBeg 0 from rfl, show (exNetPrep.full k).extEnd 0 = (exNetCfg k).extEnd 0 from rfl,
        (hb k hk).1, (hb k hk).2]
      exact this
  · intro k hk
    exact Or.inl rfl
  · intro k hk j hj
    obtain rfl := h0 j hj
    rcases h2 k hk with rfl | rfl <;> decide +kernel
  · intro j hj
    obtain rfl := h0 j hj
    decide +kernel
  · intro k hk j hj
    obtain rfl := h0 j hj
    rcases h2 k hk with rfl | rfl <;> decide +kernel
  · intro st p x hx j hj
    exact of_decide_eq_true hx j hj
  · intro k hk st p x
    have e1 : (exNetPrep.cfg k) = exNetCfg k := rfl
    rw [e1]
    constructor
    · intro hx
      simp only [exNetCfg, Bool.and_eq_true, decide_eq_true_eq] at hx
      refine ⟨hx.1, ?_⟩
      intro j hj
      obtain rfl := h0 j hj
      rw [(hb k hk).1, (hb k hk).2]
      exact hx.2
    · rintro ⟨h1, h3⟩
      simp only [exNetCfg, Bool.and_eq_true, decide_eq_true_eq]
      refine ⟨h1, ?_⟩
      have := h3 0 (by decide)
      rw [(hb k hk).1, (hb k hk).2] at this
      exact this
  · intro v _
    have hx : exNetPrep.ext 0 = 1 := by decide +kernel
    have hx' : ∀ j < exNetPrep.nd, exNetPrep.ext j = 1 := fun j hj => by rw [h0 j hj]; exact hx
    refine
      { used_eq := fun _ _ => rfl, isFirst := fun _ _ _ _ => rfl, isLast := fun _ _ _ _ => rfl
        ext_nonneg := fun j hj => by rw [hx' j hj]; decide
        fold_pos := fun _ _ => by show (0 : Int) < 1; decide, vl_eq := fun _ _ => Or.inl rfl
        min_l := fun k _ j hj _ => by rw [hx' j hj]; show (1 : Int) + 1 ≤ 2; decide
        min_r := fun k _ j hj _ => by rw [hx' j hj]; show (1 : Int) + 1 ≤ 2; decide
        dims := ?_ }
    intro k hk j hj _
    rw [hx' j hj]
    refine ⟨_, false, true, false, rfl, ?_, rfl, fun _ => rfl, rfl, rfl, rfl, rfl, rfl, rfl, rfl, rfl, rfl⟩
    obtain rfl := h0 j hj
    rcases h2 k hk with rfl | rfl <;> decide +kernel

theorem exNet_fits : FitsVars exNetStencil exNetPrep exNetShape exNetOuts where
  writes := by
    rintro a β ⟨rfl, _, _⟩
    exact ⟨by show 0 < 1; decide, decide_eq_true rfl, fun _ _ => rfl⟩
  reads := by
    rintro a γ x ⟨rfl, h⟩
    refine ⟨by show 0 < 1; decide, ?_, ?_, ?_⟩
    · show (a.step % 2).toNat < 2
      omega
    · intro j hj _
      obtain rfl : j = 0 := by simp only [exNetG, demoCfg] at hj; omega
      rcases h with rfl | rfl | rfl <;> simp [exNetShape] <;> omega
    · show ((((List.range 1).filter _).length : Nat) : Int) ≤ 1
      have := List.length_filter_le (fun j => decide ((exNetShape 0).used j = true ∧ x.getD j 0 ≠ a.pt.getD j 0)) (List.range 1)
      simp only [List.length_range] at this
      exact_mod_cast this

/-- The two ranks run three steps (a wave-front of two, then one of one step) from any values that agree. -/
example (g : Slot × List Int → Int) : ∃ s', (exNetPrep.net exNetOuts).RunTo exNetStencil 0 2
    { copy := fun _ => g, self := fun _ _ => true, others := fun _ _ => true } (.ok s') ∧
    OwnCurrent (exNetPrep.net exNetOuts) (OwnPoint exNetPrep exNetShape) s' (exNetStencil.sem.exec (exNetG.runRef 0 2) g) := by
  obtain ⟨o, ho⟩ := C01_ranks_executions_exist (prep_divided exNet_prepared exNetOuts) exNetStencil
    (prep_linked exNet_prepared exNetOuts exNet_fits) (by decide) 0 2 { copy := fun _ => g, self := fun _ _ => true, others := fun _ _ => true }
  obtain ⟨s', rfl, h1, _⟩ := C01_ranks_partial exNet_prepared exNetStencil exNet_fits 0 2 g _ (fun _ _ _ _ _ => rfl)
    (fun _ _ _ _ _ _ _ => rfl) o ho
  exact ⟨s', ho, h1⟩

/-- Rank 0 receives points 20 to 21 of rank 1 (halo and extension) and computes its interior without them. -/
example : ((exNetPrep.net exNetOuts).box 0 1 0 [20], (exNetPrep.net exNetOuts).box 0 1 0 [21], (exNetPrep.net exNetOuts).box 0 1 0 [22],
    exNetPrep.interior 0 0, exNetPrep.interior 1 0) = (true, true, false, (0, 17), (23, 40)) := by decide +kernel

end Yask
