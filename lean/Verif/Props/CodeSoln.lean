import Verif.Kernel.CodeSolnSim
import Verif.Props.SolnRun
import Verif.Props.Soln

/-!
# C84: the generated code computes the values that the stencil equations define, in the storage of the vars

C60 says that evaluating the equations at the points, in any order that the kernel may use, gives the values of a history of the equations;
C83 says that the generated code changes the storage as evaluations of the equations at those points do. Here both together, with the vars
in their storage, where a var may have misc dims. Specification: `Spec/CodeSolnSpec.lean`.
-/

namespace Yask
open Spec Var Comp Spec.Cpp Nano RunCfg

section
variable {V : Type} [Inhabited V] {R : SolnCode} {U : USoln V} {L : List (List (List (Fin U.eqs.length)))} {S : Slices} {sz : Nat → Nat}
  {A : Arith V} {vdims : Nat → List String} {inner : String} {folds rofs : List Int} {κ : Type} [DecidableEq κ]

omit [Inhabited V] in
/-- C84: for each storage there is a history of the equations that starts with it. -/
theorem C84_values_exist (hc : CodeOf R U L S sz A) (hl : Legal U vdims) (ha : Arranged U L) (hn : Enough U L sz)
    (inDom : List Int → Prop) (first : Int) (n : Nat) (mem : Nat → Int → V) :
    ∃ W, Evolves U inDom sz first n W ∧ StoresIn U S sz W first mem := by
  haveI : Inhabited V := ⟨mem 0 0⟩
  obtain ⟨W, h1, h2⟩ := C60_values_exist hl ha hn inDom first (memIn U S mem) n
  exact ⟨W, h1, rep_stores hc hn.pos (memIn_rep hc hn.pos mem) h2⟩

/-- C84: the generated code of a legal solution meets what C83 asks of the equations. -/
theorem C84_independent (hc : CodeOf R U L S sz A) (hl : Legal U vdims) (hr : Runs R.cfg U L) (hf : R.Fits V inner folds rofs)
    (ha : Arranged U L) (hn : Enough U L sz) (hrg : R.InRange) : R.Indep := indep_of_code hc hl (runsIn hr) hf ha hn hrg

/-- C84, on one rank: if the storage of the vars holds the stored steps of a history of the equations, then after `run_solution` with the
generated code, for all settings and orders in which the threads run the inner loops, it holds the stored steps at the end of the run.
Missing: scratch vars, several ranks, what C80 and C83 miss in the generated code, and settings with temporal tiles and a short remainder,
see `C05_short_remainder_race`. -/
theorem C84_history_partial (h : R.cfg.Ok) (hsr : R.cfg.SingleRank) (hrem : R.cfg.tbSteps = 0 ∨ R.cfg.NoShortRemainder)
    (hf : R.Fits V inner folds rofs) (u : V) (hA : R.Exprs A) (hrg : R.InRange) (hc : CodeOf R U L S sz A) (hl : Legal U vdims)
    (hr : Runs R.cfg U L) (ha : Arranged U L) (hn : Enough U L sz) {first last : Int} (hdir : Along U.dir first last) {W : History V}
    (hW : Evolves U (InWhole R.cfg) sz first (numSteps first last) W) {mem : Nat → Int → V} (hm : StoresIn U S sz W first mem)
    (tr : List CodeAct) (ht : R.runSolution first last tr) :
    ∃ mem', R.exec u A tr mem = .ok mem' ∧ StoresIn U S sz W (first + U.dir * numSteps first last) mem' := by
  have hi := indep_of_code hc hl (runsIn hr) hf ha hn hrg
  obtain ⟨mem', e1, e2⟩ := C83_run_partial h hsr hrem hf hi u A hA first last mem tr ht
  refine ⟨mem', e1, ?_⟩
  have hat : ∀ a ∈ R.cfg.runRef first last, R.AtTask a := by
    intro a ha
    obtain ⟨_, _, _, _, ⟨h1, h2, h3, h4⟩, _⟩ := ((RunCfg.runRef_spec R.cfg first last).2.1 a).1 ha
    exact ⟨h1, h2, h4, h3⟩
  unfold SolnCode.refRun at e2
  rw [ref_tasks hf hi u A _ hat] at e2
  injection e2 with e2
  subst e2
  exact rep_stores hc hn.pos (sim_tasks hc hl hr (runsIn hr) hf hi h ha hn u _ hat (memOf_rep hc hl hn.pos hm))
    (C60_reference hl ha hn hr hdir hW (memOf_stores hl hn.pos W first))

/-- C84, with the stages that the compiler makes, from any storage. Slots are enough if nothing is overwritten before it is read, see
`C60_slots` and C47. -/
theorem C84_compiled_partial (o : SolnOpts U.eqs.length κ)
    (hkey : ∀ e e', o.key e = o.key e' → U.eqs[e].domIf = U.eqs[e'].domIf ∧ U.eqs[e].stepIf = U.eqs[e'].stepIf)
    {ordL : List (Nat × Option Int) → List (Nat × Option Int)} (hL : ∀ l, (ordL l).Perm l)
    {ordE : List (Fin U.eqs.length) → List (Fin U.eqs.length)} (hE : ∀ l, (ordE l).Perm l) {ordP ordS : List Nat → List Nat}
    (hP : ∀ l, (ordP l).Perm l) (hQ : ∀ l, (ordS l).Perm l) (hcm : (U.sys o).compile ordL ordE ordP ordS = .ok L)
    (hl : Legal U vdims) {first last : Int} (hdir : Along U.dir first last) (hn : Enough U L sz)
    (h : R.cfg.Ok) (hsr : R.cfg.SingleRank) (hrem : R.cfg.tbSteps = 0 ∨ R.cfg.NoShortRemainder)
    (hf : R.Fits V inner folds rofs) (u : V) (hA : R.Exprs A) (hrg : R.InRange) (hc : CodeOf R U L S sz A)
    (hr : Runs R.cfg U L) (mem : Nat → Int → V) :
    ∃ W, Evolves U (InWhole R.cfg) sz first (numSteps first last) W ∧ StoresIn U S sz W first mem ∧
      (∃ tr, R.runSolution first last tr) ∧
      ∀ tr, R.runSolution first last tr →
        ∃ mem', R.exec u A tr mem = .ok mem' ∧ StoresIn U S sz W (first + U.dir * numSteps first last) mem' := by
  have ha := C60_stages o hkey hL hE hP hQ hcm
  obtain ⟨W, h1, h2⟩ := C84_values_exist hc hl ha hn (InWhole R.cfg) first (numSteps first last) mem
  refine ⟨W, h1, h2, run_exists hf h.nd_le first last, fun tr ht => ?_⟩
  exact C84_history_partial h hsr hrem hf u hA hrg hc hl hr ha hn hdir h1 h2 tr ht

end

/-! ### An example: the equations of `SolnRunExample`; the var `A` with a misc dim of two indices counts as two vars -/

namespace CodeSolnExample
open LoopExample NanoRunExample SolnRunExample

/-- The points where the equations apply. -/
def inside (x : List Int) : Bool := decide ((22 ≤ x.getD 0 0 ∧ x.getD 0 0 < 29) ∧ 1 ≤ x.getD 1 0 ∧ x.getD 1 0 < 6)

/-- `a(t+1, x, y) = b(t, x-1, y+1) + a(t-2, x, y) * 3`, where `a` is `A` at misc index 0, and `b` at misc index -1. -/
def ueqA : UEq Int := ⟨⟨0, some 1, [("x", 0), ("y", 0)]⟩, [⟨1, some 0, [("x", -1), ("y", 1)]⟩, ⟨0, some (-2), [("x", 0), ("y", 0)]⟩], inside,
  fun _ => true, fun _ _ l => l.getD 0 0 + l.getD 1 0 * 3⟩
/-- `b(t+1, x, y) = a(t, x, y-2) - b(t, x-1, y+1)`. -/
def ueqB : UEq Int := ⟨⟨1, some 1, [("x", 0), ("y", 0)]⟩, [⟨0, some 0, [("x", 0), ("y", -2)]⟩, ⟨1, some 0, [("x", -1), ("y", 1)]⟩], inside,
  fun _ => true, fun _ _ l => l.getD 0 0 - l.getD 1 0⟩
def usoln : USoln Int := ⟨["x", "y"], 1, fun _ => true, [ueqA, ueqB]⟩
def opts : SolnOpts usoln.eqs.length Unit := ⟨fun _ => (), fun _ _ => false, fun _ _ => true, true, []⟩
/-- Both equations in one part. -/
def stages : List (List (List (Fin usoln.eqs.length))) := [[[⟨0, by decide⟩, ⟨1, by decide⟩]]]
def slices : Slices := ⟨2, fun _ => 0, fun v => if v = 0 then [0, 0, 0, 0] else [0, 0, 0, -1], fun _ => PtrExample.yvar.g,
  fun _ => ["t", "x", "y", "m"]⟩
def sz (_ : Nat) : Nat := 3

theorem compiles : (usoln.sys opts).compile id id id id = .ok stages := by decide +kernel

theorem ueqs {e : UEq Int} (he : e ∈ usoln.eqs) : e = ueqA ∨ e = ueqB := by simpa [usoln] using he

theorem legal : Legal usoln fun _ => ["x", "y"] where
  dir := Or.inl rfl
  dims := by decide
  lhs := by
    intro e he
    rcases ueqs he with rfl | rfl <;> refine ⟨rfl, fun n => ?_⟩ <;> simp only [ueqA, ueqB, Pt.at, List.lookup] <;> split <;>
      first | rfl | (split <;> rfl)
  step := by decide +kernel
  rhs := by
    have h : ∀ e ∈ usoln.eqs, ∀ p ∈ e.rhs, p.step = some 0 ∨ p.step = some (-2) := by decide +kernel
    intro e he p hp k hk
    show k * 1 ≤ 1
    rcases h e he p hp with h | h <;> rw [h] at hk <;> injection hk <;> omega
  args := by
    have h : ∀ e ∈ usoln.eqs, ∀ p ∈ e.lhs :: e.rhs, p.dom.map Prod.fst = ["x", "y"] := by decide +kernel
    intro e he p hp n
    rw [h e he p hp]
  inDims := fun _ _ h => h
  one := by
    have h : ∀ i j : Fin 2, (usoln.eqs[i.1]'i.2).lhs.var = (usoln.eqs[j.1]'j.2).lhs.var → i = j := by decide +kernel
    intro i j e e' h1 h2 hv _ _ _ _ _ _
    obtain ⟨l1, g1⟩ := List.getElem?_eq_some_iff.1 h1
    obtain ⟨l2, g2⟩ := List.getElem?_eq_some_iff.1 h2
    have := h ⟨i, l1⟩ ⟨j, l2⟩ (by
      show (usoln.eqs[i]'l1).lhs.var = (usoln.eqs[j]'l2).lhs.var
      rw [g1, g2]; exact hv)
    exact congrArg Fin.val this

theorem cond (e : Fin usoln.eqs.length) : usoln.eqs[e].domIf = inside ∧ usoln.eqs[e].stepIf = fun _ => true := by
  match e with
  | ⟨0, _⟩ => exact ⟨rfl, rfl⟩
  | ⟨1, _⟩ => exact ⟨rfl, rfl⟩

theorem same_cond (e e' : Fin usoln.eqs.length) : usoln.eqs[e].domIf = usoln.eqs[e'].domIf ∧ usoln.eqs[e].stepIf = usoln.eqs[e'].stepIf := by
  rw [(cond e).1, (cond e').1, (cond e).2, (cond e').2]
  exact ⟨rfl, rfl⟩

theorem arranged : Arranged usoln stages :=
  C60_stages opts (fun e e' _ => same_cond e e') (fun _ => .refl _) (fun _ => .refl _) (fun _ => .refl _) (fun _ => .refl _) compiles

theorem runs : Runs soln.cfg usoln stages where
  nd := rfl
  nst := rfl
  nparts st h := by
    obtain rfl : st = 0 := by have : st < 1 := h; omega
    rfl
  dom st hst p hp x _ := by
    obtain rfl : st = 0 := by have : st < 1 := hst; omega
    obtain rfl := part_zero hp
    rw [show soln.cfg.dom 0 0 x = inside x from rfl]
    constructor
    · intro h
      refine ⟨?_, fun e _ => ?_⟩
      · unfold inside at h
        rw [decide_eq_true_eq] at h
        refine dim_cases ?_ ?_
        · show 20 ≤ _ ∧ _ < (20 : Int) + (10 : Nat)
          omega
        · show 0 ≤ _ ∧ _ < (0 : Int) + (9 : Nat)
          omega
      · rw [(cond e).1]; exact h
    · intro h
      have := h.2 ⟨0, by decide⟩ (by decide)
      rw [(cond _).1] at this
      exact this
  stepOk st _ p _ t := by
    refine ⟨fun _ e _ => ?_, fun _ => rfl⟩
    match e with
    | ⟨0, _⟩ => rfl
    | ⟨1, _⟩ => rfl
  halo := by
    have h : ∀ e ∈ usoln.eqs, ∀ p ∈ e.rhs, (-1 ≤ p.at "x" ∧ p.at "x" ≤ 1) ∧ -2 ≤ p.at "y" ∧ p.at "y" ≤ 2 := by decide +kernel
    intro e he p hp
    exact dim_cases (h e he p hp).1 (h e he p hp).2

theorem kinds : PtrExample.yvar.g.dims.map (·.kind) = [.step, .domain, .domain, .misc] := by decide +kernel

theorem kind_eq (v k : Nat) : slices.kind v k = ([.step, .domain, .domain, .misc] : List DimKind)[k]? := by
  rw [← kinds, List.getElem?_map]
  rfl

theorem kind_cases {v k : Nat} {d : DimKind} (h : slices.kind v k = some d) :
    k = 0 ∧ d = .step ∨ k = 1 ∧ d = .domain ∨ k = 2 ∧ d = .domain ∨ k = 3 ∧ d = .misc := by
  rw [kind_eq] at h
  match k with
  | 0 => left; simpa using h.symm
  | 1 => right; left; simpa using h.symm
  | 2 => right; right; left; simpa using h.symm
  | 3 => right; right; right; simpa using h.symm
  | k + 4 => simp at h

/-- The points of the code. -/
theorem point_eq (p : Pt) : slices.point p = (0, [p.step.getD 0, p.at "x", p.at "y", if p.var = 0 then 0 else -1]) := by
  unfold Slices.point
  have h : (slices.geo (slices.var p.var)).dims.length = 4 := by
    show PtrExample.yvar.g.dims.length = 4
    decide +kernel
  rw [h]
  simp only [show List.range 4 = [0, 1, 2, 3] from rfl, List.map_cons, List.map_nil, kind_eq]
  refine Prod.ext rfl ?_
  show [p.step.getD 0, p.at "x", p.at "y", (if p.var = 0 then [0, 0, 0, 0] else [0, 0, 0, -1] : List Int).getD 3 0] = _
  by_cases h0 : p.var = 0
  · simp only [h0, if_true]; rfl
  · simp only [if_neg h0]; rfl

theorem oldest_read : ∀ e : Fin usoln.eqs.length, ∀ q ∈ usoln.eqs[e].rhs, q.step = some (-2) →
    q = ⟨0, some (-2), [("x", 0), ("y", 0)]⟩ ∧ usoln.eqs[e].lhs.var = 0 := by decide +kernel

theorem enough : Enough usoln stages sz where
  pos _ := show 0 < 3 by decide
  range := by
    have h : ∀ e ∈ usoln.eqs, ∀ p ∈ e.rhs, p.step = some 0 ∨ p.step = some (-2) := by decide +kernel
    intro e he p hp k hk
    show -3 < k * 1
    rcases h e he p hp with h | h <;> rw [h] at hk <;> injection hk <;> omega
  oldest := by
    intro e e' i p i' p' _ _ _ q hq hv k hk h1
    obtain rfl : k = -2 := by
      have : k * 1 = 1 - 3 := h1
      omega
    obtain ⟨rfl, h2⟩ := oldest_read e q hq hk
    refine ⟨fun n => ?_, h2⟩
    simp only [Pt.at, List.lookup]
    split
    · rfl
    · split <;> rfl

theorem inRange : soln.InRange := solnIndep.range

theorem codeOf : CodeOf soln usoln stages slices sz intArith where
  dims := rfl
  parts st p h := by
    have h : p < if st = 0 then 1 else 0 := h
    split at h
    · subst st; exact Nat.one_pos
    · omega
  vars _ _ _ _ _ := ⟨rfl, rfl⟩
  used := by decide +kernel
  distinct v hv v' hv' _ h := by
    have := h 3 (by rw [kind_eq]; rfl)
    have h1 : v < 2 := hv
    have h2 : v' < 2 := hv'
    have c1 : v = 0 ∨ v = 1 := by omega
    have c2 : v' = 0 ∨ v' = 1 := by omega
    rcases c1 with rfl | rfl <;> rcases c2 with rfl | rfl <;> first | rfl | (revert this; decide)
  reach _ _ := ⟨PtrExample.yvar, PtrExample.yvar_reachable, rfl⟩
  nameLen _ _ := by
    show 4 = PtrExample.yvar.g.dims.length
    decide +kernel
  stepName v _ k h := by
    rcases kind_cases h with ⟨rfl, h⟩ | ⟨_, h⟩ | ⟨_, h⟩ | ⟨_, h⟩
    · rfl
    all_goals cases h
  domName v _ k h := by
    rcases kind_cases h with ⟨_, h⟩ | ⟨rfl, h⟩ | ⟨rfl, h⟩ | ⟨_, h⟩
    · cases h
    · show "x" ∈ ["x", "y"]; decide
    · show "y" ∈ ["x", "y"]; decide
    · cases h
  hasStep v _ := ⟨fun _ => ⟨0, by rw [kind_eq]; rfl⟩, fun _ => rfl⟩
  alloc v _ d hd hs := by
    change d ∈ PtrExample.yvar.g.api at hd
    rw [api] at hd
    simp only [List.mem_cons, List.not_mem_nil, or_false] at hd
    rcases hd with rfl | rfl | rfl | rfl
    · rfl
    all_goals cases hs
  full e _ d hd := by
    have : d = "x" ∨ d = "y" := by simpa [usoln] using hd
    rcases this with rfl | rfl
    · exact ⟨1, by rw [kind_eq]; rfl, rfl⟩
    · exact ⟨2, by rw [kind_eq]; rfl, rfl⟩
  eqs st p hp := by
    have hp' := part_zero hp
    have hst : st = 0 := by
      have h : p < if st = 0 then 1 else 0 := hp
      by_contra hne
      rw [if_neg hne] at h
      omega
    subst hp' hst
    refine ⟨fun e => LoopExample.eqs[e.1]'e.2, rfl, ?_⟩
    intro e _
    match e with
    | ⟨0, _⟩ => exact ⟨by rw [point_eq]; rfl, fun q => by
        simp only [point_eq]
        simp [LoopExample.eqs, Ex.points, Ex.pointsAll, usoln, ueqA, p1, p2, Pt.at, List.lookup], fun t x rd => by
        simp [LoopExample.eqs, usoln, ueqA, point_eq, Ex.value, Ex.foldValue, intArith, p1, p2, Pt.at, List.lookup]⟩
    | ⟨1, _⟩ => exact ⟨by rw [point_eq]; rfl, fun q => by
        simp only [point_eq]
        simp [LoopExample.eqs, Ex.points, Ex.pointsAll, usoln, ueqB, p1, p3, Pt.at, List.lookup], fun t x rd => by
        simp [LoopExample.eqs, usoln, ueqB, point_eq, Ex.value, intArith, p1, p3, Pt.at, List.lookup]⟩

/-- The hypotheses of `C84_history_partial`. -/
example : soln.cfg.Ok ∧ soln.cfg.SingleRank ∧ (soln.cfg.tbSteps = 0 ∨ soln.cfg.NoShortRemainder) ∧
    soln.Fits Int "y" (ms.map MicroDim.fold) (ms.map MicroDim.rofs) ∧ soln.Exprs intArith ∧ soln.InRange ∧
    CodeOf soln usoln stages slices sz intArith ∧ Legal usoln (fun _ => ["x", "y"]) ∧ Runs soln.cfg usoln stages ∧ Arranged usoln stages ∧
    Enough usoln stages sz ∧ Along usoln.dir 7 12 ∧ numSteps 7 12 = 6 :=
  ⟨cfg_ok, cfg_single, Or.inl (by decide +kernel), solnFits, solnExprs, inRange, codeOf, legal, runs, arranged, enough,
    show (0 : Int) ≤ (12 - 7) * 1 by decide, by decide⟩

/-- So, from any storage, there is a history of the equations, and after the steps 7 to 12, in all orders of the inner loops, reading
`A(13, x, y, 0)` gives its value, which the first equation defines. -/
example (mem : Nat → Int → Int) : ∃ W, Evolves usoln (InWhole soln.cfg) sz 7 6 W ∧ StoresIn usoln slices sz W 7 mem ∧
    ∀ tr, soln.runSolution 7 12 tr → ∃ mem', soln.exec 0 intArith tr mem = .ok mem' ∧
      readAt PtrExample.yvar.g (mem' 0) [13, 24, 2, 0] = .ok (W 1 12 [23, 3] + W 0 10 [24, 2] * 3) := by
  obtain ⟨W, h1, h2⟩ := C84_values_exist codeOf legal arranged enough (InWhole soln.cfg) 7 6 mem
  refine ⟨W, h1, h2, fun tr ht => ?_⟩
  obtain ⟨mem', h3, h4⟩ := C84_history_partial cfg_ok cfg_single (Or.inl (by decide +kernel)) solnFits 0 solnExprs inRange codeOf legal runs
    arranged enough (first := 7) (last := 12) (show (0 : Int) ≤ (12 - 7) * 1 by decide) h1 h2 tr ht
  refine ⟨mem', h3, ?_⟩
  have e : slices.elem usoln.dims 0 13 [24, 2] = [13, 24, 2, 0] := by
    unfold Slices.elem
    have h : (slices.geo (slices.var 0)).dims.length = 4 := by
      show PtrExample.yvar.g.dims.length = 4
      decide +kernel
    rw [h]
    simp only [show List.range 4 = [0, 1, 2, 3] from rfl, List.map_cons, List.map_nil, kind_eq]
    rfl
  have h5 := h4 0 (by decide) 13 (show ∃ j : Nat, j < 3 ∧ (13 : Int) = 7 + 1 * 6 - 1 * j from ⟨0, by decide, by decide⟩) [24, 2] rfl (by
    show InRangeButStep PtrExample.yvar.g.api _
    rw [api, e]
    unfold InRangeButStep
    simp)
  rw [e] at h5
  have h6 := h1.eq 5 (by decide) ueqA (by simp [usoln]) [24, 2] ⟨⟨rfl, dim_cases (by decide) (by decide)⟩, by decide, rfl⟩
  exact h5.trans (congrArg Outcome.ok h6)

/-- The hypotheses of `C84_compiled_partial`, and what it says. -/
example (mem : Nat → Int → Int) : ∃ W, Evolves usoln (InWhole soln.cfg) sz 7 6 W ∧ StoresIn usoln slices sz W 7 mem ∧
    (∃ tr, soln.runSolution 7 12 tr) ∧ ∀ tr, soln.runSolution 7 12 tr →
      ∃ mem', soln.exec 0 intArith tr mem = .ok mem' ∧ StoresIn usoln slices sz W 13 mem' :=
  C84_compiled_partial opts (fun e e' _ => same_cond e e') (fun _ => .refl _) (fun _ => .refl _) (fun _ => .refl _) (fun _ => .refl _) compiles
    legal (first := 7) (last := 12) (show (0 : Int) ≤ (12 - 7) * 1 by decide) enough cfg_ok cfg_single (Or.inl (by decide +kernel)) solnFits 0
    solnExprs inRange codeOf runs mem

end CodeSolnExample
end Yask
