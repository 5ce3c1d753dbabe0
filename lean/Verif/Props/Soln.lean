import Verif.Compiler.SolnLink
import Verif.Props.Net
import Verif.Props.CompAlloc

/-!
# Property C60: a run computes the values that the stencil equations define
-/

namespace Yask
open Spec Comp Mpi RunCfg

section
variable {Val : Type} [Inhabited Val] {U : USoln Val} {L : List (List (List (Fin U.eqs.length)))} {sz : Nat → Nat} {vdims : Nat → List String}
  {G : RunCfg} {κ : Type} [DecidableEq κ]

/-- C60: the equations define values: for every initial memory there is a history that satisfies the equations and starts with it. -/
theorem C60_values_exist (hl : Legal U vdims) (ha : Arranged U L) (hn : Enough U L sz) (inDom : List Int → Prop) (first : Int)
    (g : (Nat × Nat) × List Int → Val) (n : Nat) : ∃ W, Evolves U inDom sz first n W ∧ Stores U sz W first g :=
  exists_history hl ha hn inDom first g n

/-- The stages that the compiler makes of a legal solution keep the dependences. -/
theorem C60_stages (o : SolnOpts U.eqs.length κ)
    (hkey : ∀ e e', o.key e = o.key e' → U.eqs[e].domIf = U.eqs[e'].domIf ∧ U.eqs[e].stepIf = U.eqs[e'].stepIf)
    {ordL : List (Nat × Option Int) → List (Nat × Option Int)} (hL : ∀ l, (ordL l).Perm l)
    {ordE : List (Fin U.eqs.length) → List (Fin U.eqs.length)} (hE : ∀ l, (ordE l).Perm l) {ordP ordS : List Nat → List Nat}
    (hP : ∀ l, (ordP l).Perm l) (hQ : ∀ l, (ordS l).Perm l) (h : (U.sys o).compile ordL ordE ordP ordS = .ok L) : Arranged U L :=
  arranged_of_compile o hkey hL hE hP hQ h

/-- If no value may be overwritten before it is read (C47), there are enough slots. `hro`: vars that no equation writes are
read at stored steps only. -/
theorem C60_slots (hl : Legal U vdims) (ha : Arranged U L) (hpos : ∀ v, 0 < sz v) (first : Int)
    (hst : ∀ v, ¬ MayReadStale (U.stages L) v (sz v) first U.dir)
    (hro : ∀ e ∈ U.eqs, ∀ p ∈ e.rhs, (∀ e' ∈ U.eqs, e'.lhs.var ≠ p.var) → ∀ k, p.step = some k → -(sz p.var : Int) < k * U.dir) :
    Enough U L sz := enough_of_fresh hl ha hpos first hst hro

/-- The steps of a run in the direction of the equations. -/
def Along (dir first last : Int) : Prop := 0 ≤ (last - first) * dir

theorem along_steps {dir first last : Int} (hd : dir = 1 ∨ dir = -1) (h : Along dir first last) (G : RunCfg) :
    G.runRef first last = (List.range (numSteps first last)).flatMap fun (i : Nat) => G.runRef (first + dir * i) (first + dir * i) := by
  by_cases he : first = last
  · subst he
    have h1 : numSteps first first = 1 := by simp [numSteps]
    rw [h1]
    simp
  · have : stepDir first last = dir := by
      unfold Along at h
      unfold stepDir
      rcases hd with rfl | rfl
      · rw [if_pos (by omega)]
      · rw [if_neg (by omega)]
    rw [runRef_steps, this]

/-- C60, reference evaluation: `run_ref` from a memory that holds the stored steps of a history of the equations leaves the memory
that holds the stored steps at the end of the run. -/
theorem C60_reference (hl : Legal U vdims) (ha : Arranged U L) (hn : Enough U L sz) (hr : Runs G U L) {first last : Int}
    (hdir : Along U.dir first last) {W : History Val} (hW : Evolves U (InWhole G) sz first (numSteps first last) W)
    {g : (Nat × Nat) × List Int → Val} (hg : Stores U sz W first g) :
    Stores U sz W (first + U.dir * numSteps first last) ((solnStencil hr hl ha hn).sem.exec (G.runRef first last) g) := by
  rw [along_steps hl.dir hdir]
  exact run_stores hr hl ha hn hW hg _ (Nat.le_refl _)

/-- C60, on one rank: whatever the compiler accepts, with slots that are enough (C47), in every legal configuration and for every
interleaving of the threads, `run_solution` from the stored steps of a history of the equations ends with the stored steps at the
end of the run. Missing: scratch vars (`C60_scratch_run_partial`), misc dims, and what C01 misses. -/
theorem C60_run_partial (o : SolnOpts U.eqs.length κ)
    (hkey : ∀ e e', o.key e = o.key e' → U.eqs[e].domIf = U.eqs[e'].domIf ∧ U.eqs[e].stepIf = U.eqs[e'].stepIf)
    {ordL : List (Nat × Option Int) → List (Nat × Option Int)} (hL : ∀ l, (ordL l).Perm l)
    {ordE : List (Fin U.eqs.length) → List (Fin U.eqs.length)} (hE : ∀ l, (ordE l).Perm l) {ordP ordS : List Nat → List Nat}
    (hP : ∀ l, (ordP l).Perm l) (hQ : ∀ l, (ordS l).Perm l) (hc : (U.sys o).compile ordL ordE ordP ordS = .ok L)
    (hl : Legal U vdims) {first last : Int} (hdir : Along U.dir first last) (hpos : ∀ v, 0 < sz v)
    (hst : ∀ v, ¬ MayReadStale (U.stages L) v (sz v) first U.dir)
    (hro : ∀ e ∈ U.eqs, ∀ p ∈ e.rhs, (∀ e' ∈ U.eqs, e'.lhs.var ≠ p.var) → ∀ k, p.step = some k → -(sz p.var : Int) < k * U.dir)
    (hr : Runs G U L) (hG : G.Ok) (hsr : G.SingleRank) (hrem : G.tbSteps = 0 ∨ G.NoShortRemainder) {W : History Val}
    (hW : Evolves U (InWhole G) sz first (numSteps first last) W) {g : (Nat × Nat) × List Int → Val} (hg : Stores U sz W first g)
    {tr : List Task} (ht : G.runSolution first last tr) :
    Stores U sz W (first + U.dir * numSteps first last)
      ((solnStencil hr hl (C60_stages o hkey hL hE hP hQ hc)
        (C60_slots hl (C60_stages o hkey hL hE hP hQ hc) hpos first hst hro)).sem.exec tr g) := by
  rw [C01_run_equals_reference_partial G hG hsr hrem _ first last tr ht g]
  exact C60_reference hl _ _ hr hdir hW hg

/-- C60, on any number of ranks: whatever the compiler accepts, with slots that are enough (C47) and vars as announced by the
compiler, in every execution of `run_solution` on the ranks, from the stored steps of a history of the equations: the run ends, and
then each rank has at its own points the stored steps at the end of the run. Missing: as in `C60_run_partial` and
`C01_ranks_partial`. -/
theorem C60_ranks_partial (o : SolnOpts U.eqs.length κ)
    (hkey : ∀ e e', o.key e = o.key e' → U.eqs[e].domIf = U.eqs[e'].domIf ∧ U.eqs[e].stepIf = U.eqs[e'].stepIf)
    {ordL : List (Nat × Option Int) → List (Nat × Option Int)} (hL : ∀ l, (ordL l).Perm l)
    {ordE : List (Fin U.eqs.length) → List (Fin U.eqs.length)} (hE : ∀ l, (ordE l).Perm l) {ordP ordS : List Nat → List Nat}
    (hP : ∀ l, (ordP l).Perm l) (hQ : ∀ l, (ordS l).Perm l) (hc : (U.sys o).compile ordL ordE ordP ordS = .ok L)
    (hl : Legal U vdims) {first last : Int} (hdir : Along U.dir first last) (hpos : ∀ v, 0 < sz v)
    (hst : ∀ v, ¬ MayReadStale (U.stages L) v (sz v) first U.dir)
    (hro : ∀ e ∈ U.eqs, ∀ p ∈ e.rhs, (∀ e' ∈ U.eqs, e'.lhs.var ≠ p.var) → ∀ k, p.step = some k → -(sz p.var : Int) < k * U.dir)
    (hr : Runs G U L) {P : Prep} {opts : List Setup.ROpts} {minSize : Nat → Nat → Nat} {shape : Nat → VarShape}
    (hp : Prepared G P opts minSize shape) {outs : Nat → Int → Slot → Bool} (hA : Announced G U L vdims sz P shape outs)
    {W : History Val} (hW : Evolves U (InWhole G) sz first (numSteps first last) W) {g : Slot × List Int → Val} (hg : Stores U sz W first g)
    (s : NState Val) (hown : OwnCurrent (P.net outs) (OwnPoint P shape) s g) (hcl : CleanHalosCurrent (P.net outs) s g)
    (out : Outcome (NState Val))
    (ho : (P.net outs).RunTo (solnStencil hr hl (C60_stages o hkey hL hE hP hQ hc)
      (C60_slots hl (C60_stages o hkey hL hE hP hQ hc) hpos first hst hro)) first last s out) :
    ∃ s', out = .ok s' ∧ ∀ r < P.n, ∀ v x, OwnPoint P shape r v x →
      (U.hasStep v = false → s'.copy r ((v, 0), x) = W v 0 x) ∧
      (U.hasStep v = true → ∀ j : Nat, j < sz v →
        s'.copy r (stepSlot U sz v (first + U.dir * numSteps first last - U.dir * j), x) =
          W v (first + U.dir * numSteps first last - U.dir * j) x) := by
  have hn := C60_slots hl (C60_stages o hkey hL hE hP hQ hc) hpos first hst hro
  obtain ⟨s', rfl, h1, _⟩ := C01_ranks_partial hp _ (fits_announced hr hl (C60_stages o hkey hL hE hP hQ hc) hn hA) first last g s hown hcl out ho
  have h2 := C60_reference hl (C60_stages o hkey hL hE hP hQ hc) hn hr hdir hW hg
  refine ⟨s', rfl, fun r hr' v x hx => ⟨fun hv => ?_, fun hv j hj => ?_⟩⟩
  · rw [h1 r hr' (v, 0) x hx]
    exact h2.1 v x hv
  · rw [h1 r hr' (stepSlot U sz v _) x hx]
    exact h2.2 v x hv j hj

end

/-! ### An example with two vars and a condition, in two stages -/

/-- `u(t+1,x) = v(t,x-1) + u(t,x)`. -/
def exPairU : UEq Int := ⟨⟨0, some 1, [("x", 0)]⟩, [⟨1, some 0, [("x", -1)]⟩, ⟨0, some 0, [("x", 0)]⟩], fun _ => true, fun _ => true,
  fun _ _ l => l.getD 0 0 + l.getD 1 0⟩
/-- `v(t+1,x) = u(t+1,x+1) - v(t,x) if x >= 3`. -/
def exPairV : UEq Int := ⟨⟨1, some 1, [("x", 0)]⟩, [⟨0, some 1, [("x", 1)]⟩, ⟨1, some 0, [("x", 0)]⟩], fun x => decide (3 ≤ x.getD 0 0), fun _ => true,
  fun _ _ l => l.getD 0 0 - l.getD 1 0⟩
def exPair : USoln Int := ⟨["x"], 1, fun _ => true, [exPairV, exPairU]⟩
def exPairOpts : SolnOpts exPair.eqs.length Nat := ⟨fun e => e.1, fun _ _ => false, fun _ _ => true, true, []⟩
/-- The second equation comes first. -/
def exPairL : List (List (List (Fin exPair.eqs.length))) := [[[⟨1, by decide⟩]], [[⟨0, by decide⟩]]]

theorem exPair_compiles : (exPair.sys exPairOpts).compile id id id id = .ok exPairL := by decide +kernel

theorem exPair_legal : Legal exPair fun _ => ["x"] where
  dir := Or.inl rfl
  dims := by decide
  lhs := by
    intro e he
    simp only [exPair, List.mem_cons, List.not_mem_nil, or_false] at he
    rcases he with rfl | rfl <;> refine ⟨rfl, fun n => ?_⟩ <;> simp only [exPairU, exPairV, Pt.at, List.lookup] <;> split <;> rfl
  step := by decide +kernel
  rhs := by
    have h : ∀ e ∈ exPair.eqs, ∀ p ∈ e.rhs, p.step = some 0 ∨ p.step = some 1 := by decide +kernel
    intro e he p hp k hk
    show k * 1 ≤ 1
    rcases h e he p hp with h | h <;> rw [h] at hk <;> injection hk <;> omega
  args := by
    have h : ∀ e ∈ exPair.eqs, ∀ p ∈ e.lhs :: e.rhs, p.dom.map Prod.fst = ["x"] := by decide +kernel
    intro e he p hp n
    rw [h e he p hp]
  inDims := fun _ _ h => h
  one := by
    have h : ∀ i j : Fin 2, (exPair.eqs[i.1]'i.2).lhs.var = (exPair.eqs[j.1]'j.2).lhs.var → i = j := by decide +kernel
    intro i j e e' h1 h2 hv _ _ _ _ _ _
    obtain ⟨l1, g1⟩ := List.getElem?_eq_some_iff.1 h1
    obtain ⟨l2, g2⟩ := List.getElem?_eq_some_iff.1 h2
    have := h ⟨i, l1⟩ ⟨j, l2⟩ (by
      show (exPair.eqs[i]'l1).lhs.var = (exPair.eqs[j]'l2).lhs.var
      rw [g1, g2]; exact hv)
    exact congrArg Fin.val this

/-- The step allocation of the compiler. -/
def exPairSz (v : Nat) : Nat := (((exPair.stages exPairL).calcHalos v).stepAlloc true 0 0).toNat

/-- One slot for each var. -/
example : exPairSz 0 = 1 ∧ exPairSz 1 = 1 := by decide +kernel

theorem exPair_enough (t0 : Int) (v : Nat) : ¬ MayReadStale (exPair.stages exPairL) v (exPairSz v) t0 exPair.dir := by
  have hsz : (exPairSz v : Int) = ((exPair.stages exPairL).calcHalos v).stepAlloc true 0 0 :=
    Int.toNat_of_nonneg (by have := stepAlloc_pos ((exPair.stages exPairL).calcHalos v) true 0 0; omega)
  rw [hsz]
  have hall : ∀ e ∈ allEqs (exPair.stages exPairL), e = ⟨exPairU.lhs, exPairU.rhs⟩ ∨ e = ⟨exPairV.lhs, exPairV.rhs⟩ := by decide +kernel
  have hms : mainStages (exPair.stages exPairL) = [⟨0, false, [[⟨exPairU.lhs, exPairU.rhs⟩]]⟩, ⟨1, false, [[⟨exPairV.lhs, exPairV.rhs⟩]]⟩] := by
    decide +kernel
  have hse : ∀ (j : Nat) (st : HStage), (mainStages (exPair.stages exPairL))[j]? = some st →
      j = 0 ∧ st = ⟨0, false, [[⟨exPairU.lhs, exPairU.rhs⟩]]⟩ ∨ j = 1 ∧ st = ⟨1, false, [[⟨exPairV.lhs, exPairV.rhs⟩]]⟩ := by
    intro j st h
    rw [hms] at h
    match j, h with
    | 0, h => exact Or.inl ⟨rfl, by simpa using h.symm⟩
    | 1, h => exact Or.inr ⟨rfl, by simpa using h.symm⟩
    | j + 2, h => simp at h
  have hs0 : stageEqs (exPair.stages exPairL) ⟨0, false, [[⟨exPairU.lhs, exPairU.rhs⟩]]⟩ = [⟨exPairU.lhs, exPairU.rhs⟩] := by decide +kernel
  have hs1 : stageEqs (exPair.stages exPairL) ⟨1, false, [[⟨exPairV.lhs, exPairV.rhs⟩]]⟩ = [⟨exPairV.lhs, exPairV.rhs⟩] := by decide +kernel
  refine C47_alloc_partial (dir := exPair.dir) (by decide +kernel) (Or.inl rfl) ?_ ?_ ?_ ?_ 0 0 t0
  · have h : ∀ e ∈ allEqs (exPair.stages exPairL), ∀ p ∈ e.lhs :: e.rhs, p.dom ≠ [] := by decide +kernel
    exact fun e he p hp _ => h e he p hp
  · have h : ∀ e ∈ allEqs (exPair.stages exPairL), e.lhs.step = some exPair.dir := by decide +kernel
    exact fun e he _ => h e he
  · intro e he p hp _ k hk
    have h : ∀ e ∈ allEqs (exPair.stages exPairL), ∀ p ∈ e.rhs, p.step = some 0 ∨ p.step = some 1 := by decide +kernel
    show k * 1 ≤ 1
    rcases h e he p hp with h | h <;> rw [h] at hk <;> injection hk <;> omega
  · intro j st hj e he p hp hv k hk hne
    rcases hse j st hj with ⟨rfl, rfl⟩ | ⟨rfl, rfl⟩
    · rw [hs0, List.mem_singleton] at he
      subst he
      simp only [exPairU, List.mem_cons, List.not_mem_nil, or_false] at hp
      rcases hp with rfl | rfl
      · obtain rfl : 1 = v := hv
        obtain rfl : 0 = k := by simpa using hk
        refine Or.inr ⟨⟨_, by rw [hs0]; exact List.mem_singleton_self _, _, List.mem_cons_of_mem _ List.mem_cons_self, rfl, rfl⟩, ?_⟩
        intro i sti hi hle e' he'
        rcases hse i sti hi with ⟨rfl, rfl⟩ | ⟨rfl, rfl⟩
        · rw [hs0, List.mem_singleton] at he'
          subst he'
          decide
        · omega
      · obtain rfl : 0 = v := hv
        obtain rfl : 0 = k := by simpa using hk
        refine Or.inl ⟨⟨_, by rw [hs0]; exact List.mem_singleton_self _, _, List.mem_cons_self, rfl, rfl⟩, ?_⟩
        intro _ i sti hi hle e' he' _
        rcases hse i sti hi with ⟨rfl, rfl⟩ | ⟨rfl, rfl⟩
        · rw [hs0, List.mem_singleton] at he'
          exact ⟨rfl, he'⟩
        · omega
    · rw [hs1, List.mem_singleton] at he
      subst he
      simp only [exPairV, List.mem_cons, List.not_mem_nil, or_false] at hp
      rcases hp with rfl | rfl
      · exact absurd (by simpa using hk.symm : k = 1) hne
      · obtain rfl : 1 = v := hv
        obtain rfl : 0 = k := by simpa using hk
        refine Or.inl ⟨⟨_, by rw [hs1]; exact List.mem_singleton_self _, _, List.mem_cons_self, rfl, rfl⟩, ?_⟩
        intro _ i sti hi hle e' he' hv'
        rcases hse i sti hi with ⟨rfl, rfl⟩ | ⟨rfl, rfl⟩
        · rw [hs0, List.mem_singleton] at he'
          subst he'
          exact absurd hv' (by decide)
        · rw [hs1, List.mem_singleton] at he'
          exact ⟨rfl, he'⟩

/-- 40 points; mega-blocks of 20 and blocks of 10 points, wave-fronts of 2 steps. -/
def exPairG : RunCfg :=
  { demoCfg 1 (demoDim 1 1 40 20 10 10) 2 2 0 with
    nparts := fun st => (exPairL.getD st []).length
    dom := fun st p x => (demoCfg 1 (demoDim 1 1 40 20 10 10) 2 2 0).dom st p x &&
      ((exPairL.getD st []).getD p []).all fun e => exPair.eqs[e].domIf x }

theorem exPair_runs : Runs exPairG exPair exPairL where
  nd := rfl
  nst := rfl
  nparts _ _ := rfl
  dom := by
    intro st _ p _ x _
    have e1 : exPairG.dom st p x = ((demoCfg 1 (demoDim 1 1 40 20 10 10) 2 2 0).dom st p x &&
      ((exPairL.getD st []).getD p []).all fun e => exPair.eqs[e].domIf x) := rfl
    rw [e1, Bool.and_eq_true, List.all_eq_true]
    exact and_congr ⟨fun h => of_decide_eq_true h, fun h => decide_eq_true h⟩ Iff.rfl
  stepOk := by
    intro st _ p _ t
    have h : ∀ e : Fin exPair.eqs.length, exPair.eqs[e].stepIf t = true := by
      intro e
      match e with
      | ⟨0, _⟩ => rfl
      | ⟨1, _⟩ => rfl
    exact ⟨fun _ e _ => h e, fun _ => rfl⟩
  halo := by
    have h : ∀ e ∈ exPair.eqs, ∀ p ∈ e.rhs, -1 ≤ p.at "x" ∧ p.at "x" ≤ 1 := by decide +kernel
    intro e he p hp j hj
    obtain rfl : j = 0 := by have : j < 1 := hj; omega
    exact h e he p hp

theorem exPairG_ok : exPairG.Ok :=
  let h := demoCfg_ok 1 1 1 40 20 10 10 2 2 0 (by decide)
  { nd_le := h.nd_le, fold_pos := h.fold_pos, halo_nonneg := h.halo_nonneg, rank_pos := h.rank_pos, mega_pos := h.mega_pos
    block_pos := h.block_pos, block_ge := h.block_ge, micro_pos := h.micro_pos, mega_steps := h.mega_steps, block_steps := h.block_steps
    dom_bb := fun st p x hx => h.dom_bb st p x (Bool.and_eq_true _ _ ▸ hx).1
    dom_ext := fun st p x hx => h.dom_ext st p x (Bool.and_eq_true _ _ ▸ hx).1
    ext_ranks := h.ext_ranks }

theorem exPair_key : ∀ e e', exPairOpts.key e = exPairOpts.key e' →
    exPair.eqs[e].domIf = exPair.eqs[e'].domIf ∧ exPair.eqs[e].stepIf = exPair.eqs[e'].stepIf := by
  intro e e' h
  have : e = e' := Fin.ext h
  subst this
  exact ⟨rfl, rfl⟩

theorem exPair_pos : ∀ v, 0 < exPairSz v := by
  intro v
  have := stepAlloc_pos ((exPair.stages exPairL).calcHalos v) true 0 0
  unfold exPairSz
  omega

theorem exPair_ro : ∀ e ∈ exPair.eqs, ∀ p ∈ e.rhs, (∀ e' ∈ exPair.eqs, e'.lhs.var ≠ p.var) → ∀ k, p.step = some k →
    -(exPairSz p.var : Int) < k * exPair.dir := by
  have h : ∀ e ∈ exPair.eqs, ∀ p ∈ e.rhs, ¬ ∀ e' ∈ exPair.eqs, e'.lhs.var ≠ p.var := by decide +kernel
  exact fun e he p hp h' => absurd h' (h e he p hp)

theorem exPair_arranged : Arranged exPair exPairL :=
  C60_stages exPairOpts exPair_key (fun _ => .refl _) (fun _ => .refl _) (fun _ => .refl _) (fun _ => .refl _) exPair_compiles

theorem exPair_slots : Enough exPair exPairL exPairSz := C60_slots exPair_legal exPair_arranged exPair_pos 0 (exPair_enough 0) exPair_ro

/-- Five steps from any memory: there is a history of the equations that starts with it, and every run computes it. -/
example (g : Slot × List Int → Int) : ∃ W, Evolves exPair (InWhole exPairG) exPairSz 0 5 W ∧ Stores exPair exPairSz W 0 g ∧
    ∀ tr, exPairG.runSolution 0 4 tr →
      Stores exPair exPairSz W 5 ((solnStencil exPair_runs exPair_legal exPair_arranged exPair_slots).sem.exec tr g) := by
  obtain ⟨W, h1, h2⟩ := C60_values_exist exPair_legal exPair_arranged exPair_slots (InWhole exPairG) 0 g 5
  exact ⟨W, h1, h2, fun tr htr => C60_run_partial exPairOpts exPair_key (fun _ => .refl _) (fun _ => .refl _) (fun _ => .refl _)
    (fun _ => .refl _) exPair_compiles exPair_legal (first := 0) (last := 4) (show (0 : Int) ≤ (4 - 0) * 1 by decide) exPair_pos
    (exPair_enough 0) exPair_ro exPair_runs exPairG_ok (demoCfg_single 1 1 1 40 20 10 10 2 2 0) (Or.inl rfl) h1 h2 htr⟩

/-! ### An example on two ranks: the configuration of `exNet_prepared` -/

/-- `u(t+1,x) = u(t,x-1) + u(t,x) + u(t,x+1)`. -/
def exLineEq : UEq Int :=
  ⟨⟨0, some 1, [("x", 0)]⟩, [⟨0, some 0, [("x", -1)]⟩, ⟨0, some 0, [("x", 0)]⟩, ⟨0, some 0, [("x", 1)]⟩], fun x => decide (x.length = 1) && true, fun _ => true,
    fun _ _ l => l.sum⟩
def exLine : USoln Int := ⟨["x"], 1, fun _ => true, [exLineEq]⟩
def exLineOpts : SolnOpts exLine.eqs.length Unit := ⟨fun _ => (), fun _ _ => false, fun _ _ => true, true, []⟩
def exLineL : List (List (List (Fin exLine.eqs.length))) := [[[⟨0, by decide⟩]]]
def exLineSz (_ : Nat) : Nat := 2

theorem exLine_compiles : (exLine.sys exLineOpts).compile id id id id = .ok exLineL := by decide +kernel

/-- The compiler's step allocation. -/
example : ((exLine.stages exLineL).calcHalos 0).stepAlloc true 0 0 = exLineSz 0 := by decide +kernel

theorem exLine_eqs {e : UEq Int} (he : e ∈ exLine.eqs) : e = exLineEq := by simpa [exLine] using he

theorem exLine_legal : Legal exLine fun _ => ["x"] where
  dir := Or.inl rfl
  dims := by decide
  lhs := by
    intro e he
    rw [exLine_eqs he]
    refine ⟨rfl, fun n => ?_⟩
    simp only [exLineEq, Pt.at, List.lookup]
    split <;> rfl
  step := by decide +kernel
  rhs := by
    have h : ∀ e ∈ exLine.eqs, ∀ p ∈ e.rhs, p.step = some 0 := by decide +kernel
    intro e he p hp k hk
    show k * 1 ≤ 1
    rw [h e he p hp] at hk
    injection hk
    omega
  args := by
    have h : ∀ e ∈ exLine.eqs, ∀ p ∈ e.lhs :: e.rhs, p.dom.map Prod.fst = ["x"] := by decide +kernel
    intro e he p hp n
    rw [h e he p hp]
  inDims := fun _ _ h => h
  one := by
    intro i j e e' h1 h2 _ _ _ _ _ _ _
    obtain ⟨l1, -⟩ := List.getElem?_eq_some_iff.1 h1
    obtain ⟨l2, -⟩ := List.getElem?_eq_some_iff.1 h2
    have : exLine.eqs.length = 1 := rfl
    omega

theorem exLine_enough (t0 : Int) (v : Nat) : ¬ MayReadStale (exLine.stages exLineL) v (exLineSz v) t0 exLine.dir := by
  rintro ⟨n', i, e', w, n, j, e, p, k, ⟨st', hi, he'⟩, -, hw, ⟨st, hj, he⟩, hp, -, hk, hprec, hpos, hdvd⟩
  have hm : ∀ st ∈ mainStages (exLine.stages exLineL), ∀ e ∈ stageEqs (exLine.stages exLineL) st,
      e.lhs.step = some 1 ∧ ∀ p ∈ e.rhs, p.step = some 0 := by decide +kernel
  have h1 := (hm st' (List.mem_of_getElem? hi) e' he').1
  have h2 := (hm st (List.mem_of_getElem? hj) e he).2 p hp
  rw [hw] at h1
  rw [hk] at h2
  injection h1 with h1
  injection h2 with h2
  subst h1 h2
  have hd : exLine.dir = 1 := rfl
  rw [hd] at hpos hdvd
  have hle : n' ≤ n := by rcases hprec with h | ⟨h, _⟩ <;> omega
  unfold exLineSz at hdvd
  omega

theorem exLine_runs : Runs exNetG exLine exLineL where
  nd := rfl
  nst := rfl
  nparts := by
    intro st hst
    obtain rfl : st = 0 := by have : st < 1 := hst; omega
    rfl
  dom := by
    intro st _ p _ x hxl
    have h : InWhole exNetG x → ∀ e : Fin exLine.eqs.length, exLine.eqs[e].domIf x = true := fun hx e => by
      have : exLine.eqs[e] = exLineEq := exLine_eqs (List.getElem_mem _)
      rw [this]
      have hx : x.length = 1 := hx.1
      simp [exLineEq, hx]
    constructor
    · intro hx
      have hx' := of_decide_eq_true hx
      exact ⟨hx', fun e _ => h ⟨hxl, hx'⟩ e⟩
    · rintro ⟨hx, _⟩
      exact decide_eq_true hx
  stepOk := by
    intro st _ p _ t
    have h : ∀ e : Fin exLine.eqs.length, exLine.eqs[e].stepIf t = true := fun e => by
      have : exLine.eqs[e] = exLineEq := exLine_eqs (List.getElem_mem _)
      rw [this]; rfl
    exact ⟨fun _ e _ => h e, fun _ => rfl⟩
  halo := by
    have h : ∀ e ∈ exLine.eqs, ∀ p ∈ e.rhs, -1 ≤ p.at "x" ∧ p.at "x" ≤ 1 := by decide +kernel
    intro e he p hp j hj
    obtain rfl : j = 0 := by have : j < 1 := hj; omega
    exact h e he p hp

theorem exLine_announced : Announced exNetG exLine exLineL (fun _ => ["x"]) exLineSz exNetPrep exNetShape exNetOuts where
  vars := by decide +kernel
  slots := fun _ _ => rfl
  used := by
    intro v _ j hj
    obtain rfl : j = 0 := by have : j < 1 := hj; omega
    rfl
  lh := by
    intro v hv j hj
    obtain rfl : j = 0 := by have : j < 1 := hj; omega
    obtain rfl : v = 0 := by have : v < 1 := hv; omega
    decide +kernel
  rh := by
    intro v hv j hj
    obtain rfl : j = 0 := by have : j < 1 := hj; omega
    obtain rfl : v = 0 := by have : v < 1 := hv; omega
    decide +kernel
  dist := by
    intro v hv
    obtain rfl : v = 0 := by have : v < 1 := hv; omega
    decide +kernel
  outs := by
    intro st p e _ t
    have : exLine.eqs[e] = exLineEq := exLine_eqs (List.getElem_mem _)
    rw [this]
    exact decide_eq_true rfl
  full := by decide +kernel

theorem exLine_arranged : Arranged exLine exLineL :=
  C60_stages exLineOpts (fun e e' _ => by
    have h1 : exLine.eqs[e] = exLineEq := exLine_eqs (List.getElem_mem _)
    have h2 : exLine.eqs[e'] = exLineEq := exLine_eqs (List.getElem_mem _)
    rw [h1, h2]; exact ⟨rfl, rfl⟩) (fun _ => .refl _) (fun _ => .refl _) (fun _ => .refl _) (fun _ => .refl _) exLine_compiles

theorem exLine_ro : ∀ e ∈ exLine.eqs, ∀ p ∈ e.rhs, (∀ e' ∈ exLine.eqs, e'.lhs.var ≠ p.var) → ∀ k, p.step = some k →
    -(exLineSz p.var : Int) < k * exLine.dir := by
  have h : ∀ e ∈ exLine.eqs, ∀ p ∈ e.rhs, ¬ ∀ e' ∈ exLine.eqs, e'.lhs.var ≠ p.var := by decide +kernel
  exact fun e he p hp h' => absurd h' (h e he p hp)

theorem exLine_slots : Enough exLine exLineL exLineSz :=
  C60_slots exLine_legal exLine_arranged (fun _ => Nat.succ_pos 1) 0 (exLine_enough 0) exLine_ro

/-- Three steps on two ranks from any memory: there is a history of the equations that starts with it, there are runs, and every run
leaves the values of the history on the ranks. -/
example (g : Slot × List Int → Int) : ∃ W, Evolves exLine (InWhole exNetG) exLineSz 0 3 W ∧ Stores exLine exLineSz W 0 g ∧
    ∃ s', (exNetPrep.net exNetOuts).RunTo (solnStencil exLine_runs exLine_legal exLine_arranged exLine_slots) 0 2
      { copy := fun _ => g, self := fun _ _ => true, others := fun _ _ => true } (.ok s') ∧
    ∀ r < 2, ∀ x, OwnPoint exNetPrep exNetShape r 0 x → s'.copy r ((0, 1), x) = W 0 3 x := by
  obtain ⟨W, h1, h2⟩ := C60_values_exist exLine_legal exLine_arranged exLine_slots (InWhole exNetG) 0 g 3
  obtain ⟨o, ho⟩ := C01_ranks_executions_exist (prep_divided exNet_prepared exNetOuts)
    (solnStencil exLine_runs exLine_legal exLine_arranged exLine_slots)
    (prep_linked exNet_prepared exNetOuts (fits_announced exLine_runs exLine_legal exLine_arranged exLine_slots exLine_announced))
    (by decide) 0 2 { copy := fun _ => g, self := fun _ _ => true, others := fun _ _ => true }
  obtain ⟨s', rfl, h3⟩ := C60_ranks_partial exLineOpts (fun e e' _ => by
      have h1 : exLine.eqs[e] = exLineEq := exLine_eqs (List.getElem_mem _)
      have h2 : exLine.eqs[e'] = exLineEq := exLine_eqs (List.getElem_mem _)
      rw [h1, h2]; exact ⟨rfl, rfl⟩) (fun _ => .refl _) (fun _ => .refl _) (fun _ => .refl _) (fun _ => .refl _) exLine_compiles exLine_legal
    (first := 0) (last := 2) (show (0 : Int) ≤ (2 - 0) * 1 by decide) (fun _ => Nat.succ_pos 1) (exLine_enough 0) exLine_ro exLine_runs
    exNet_prepared exLine_announced h1 h2 _ (fun _ _ _ _ _ => rfl) (fun _ _ _ _ _ _ _ => rfl) o ho
  exact ⟨W, h1, h2, s', ho, fun r hr x hx => (h3 r hr 0 x hx).2 rfl 0 (by decide)⟩

end Yask
