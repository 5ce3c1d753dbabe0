import Verif.Mpi.SrcNetLemmas
import Verif.Compiler.SrcExist
import Verif.Props.EqForm
import Verif.Props.CodeNet

/-!
# C87: the generated code computes the values that the equations of the source define

C86 is about the equations as the compiler analyzes them: points with offsets. Here they are those of the source, with index expressions;
their values are those of the expressions. The specification is in `Spec/SrcSpec.lean` and `Spec/SrcNetSpec.lean`.
-/

namespace Yask
open Spec Mpi Var Nano Comp Spec.Cpp RunCfg

section
variable {π V : Type} [DecidableEq π] {D : CDims} {dir : ℤ} {es : List (SEq π V)} {cs : List (CEq π)}

/-- Equations that the compiler accepts, without scratch vars, of vars whose dims have different names and are used in one way. -/
structure Accepted (D : CDims) (es : List (SEq π V)) (dir : ℤ) (cs : List (CEq π)) : Prop where
  dims : D.domain.Nodup
  step : D.step ∉ D.domain
  proper : Proper D (es.map SEq.src)
  scratch : ∀ e ∈ es, e.src.lhs.1.scratch = false
  ok : checkEqs D (es.map SEq.src) = .ok (dir, cs)

theorem Accepted.direction (h : Accepted D es dir cs) : dir = 1 ∨ dir = -1 :=
  (C75_meaning_partial D _ (fun e he => ⟨(h.proper e he _ (.inl rfl)).1, fun q hq => (h.proper e he q (.inr hq)).1⟩) dir cs
    h.ok).1

theorem Accepted.eqs (h : Accepted D es dir cs) : List.Forall₂ (EqOk D dir) (es.map SEq.src) cs :=
  accepted_ok h.step h.proper
    (C75_meaning_partial D _ (fun e he => ⟨(h.proper e he _ (.inl rfl)).1, fun q hq => (h.proper e he q (.inr hq)).1⟩) dir
      cs h.ok).2
    (fun e he => by
      obtain ⟨e', h1, rfl⟩ := List.mem_map.1 he
      exact h.scratch e' h1) h.ok

/-- C87: in accepted equations, each access is to one element in each step at each point. -/
theorem C87_elements (h : Accepted D es dir cs) {q : EqVar × List (NExpr π)} (hq : Access es q) (t : ℤ) (x : List ℤ) :
    ∃ a, (IndexVals D t x q.2 a ∧ a.length = q.1.dims.length) ∧ ∀ b, IndexVals D t x q.2 b → b = a := by
  obtain ⟨p, _, hok⟩ := access_pt h.eqs hq
  have h1 := pt_elem cs h.step hok t x
  refine ⟨_, ⟨h1, ?_⟩, fun b hb => indexVals_unique hb h1⟩
  rw [srcElem_length]
  exact congrArg (fun v : EqVar => v.dims.length) hok.built.var

/-- C87: accepted equations that do not set an element twice are what the analysis of the compiler is for (C60). `hlate`: the check for
equations in the other direction of steps is missing in the compiler; see `C87_late_read_accepted`. -/
theorem C87_legal (h : Accepted D es dir cs) (hone : SetOnce D es) (hlate : dir = -1 → ReadsNoLater D dir es) :
    Legal (srcSoln D dir es cs) (fun v => srcHas cs v .domain) :=
  src_legal h.step h.dims h.direction h.eqs hone hlate

/-- C87: values that satisfy the equations of the source satisfy those that the compiler analyzes. -/
theorem C87_values [Inhabited V] (h : Accepted D es dir cs) {inDom : List ℤ → Prop} (hlen : ∀ x, inDom x → x.length = D.domain.length)
    {sz : EqVar → Nat} {szv : Nat → Nat} (hsz : ∀ v k, (srcVars cs)[v]? = some k → szv v = sz k.1) {first : ℤ} {n : Nat} {W : SrcHistory V}
    (hW : SrcEvolves D dir es inDom sz first n W) : Evolves (srcSoln D dir es cs) inDom szv first n (srcFlat D cs W) :=
  src_evolves h.step h.dims h.eqs hlen hsz hW

variable {X : CodeNet} {U : USoln V} {L : List (List (List (Fin U.eqs.length)))} {S : Slices} {sz : EqVar → Nat} {szv : Nat → Nat}
  {kv : EqVar → Nat} {shape : Nat → VarShape} {A : Arith V} {G : RunCfg} {opts : List Setup.ROpts} {minSize : Nat → Nat → Nat}
  {inner : Nat → String} {folds rofs : Nat → List Int}

/-- C87: there are values that satisfy the equations of the source, from any values `g` of the steps that are stored at first. -/
theorem C87_values_exist [Inhabited V] (h : Accepted D es dir cs) (hone : SetOnce D es) (hlate : dir = -1 → ReadsNoLater D dir es)
    (hU : U = srcSoln D dir es cs) (ha : Arranged U L) (hn : Enough U L szv) {inDom : List ℤ → Prop}
    (hlen : ∀ x, inDom x → x.length = D.domain.length) (hsz : ∀ v k, (srcVars cs)[v]? = some k → szv v = sz k.1) (first : ℤ) (n : Nat)
    (g : SrcHistory V) : ∃ W, SrcEvolves D dir es inDom sz first n W ∧ ∀ v a, DimNames v → a.length = v.dims.length →
      (∀ k : Nat, v.dims[k]? = some (D.step, .step) → ∃ j < sz v, a[k]? = some (first - dir * j)) → W v a = g v a := by
  subst hU
  exact src_exists h.step h.dims h.eqs (C87_legal h hone hlate) ha hn hlen hsz first n g

/-- C87: after `prepare_solution()` on any number of ranks, if each rank has in its storage the stored steps of values `W` that satisfy the
equations of the source, at its own points and in halos whose owner has not marked a change, then every execution of `run_solution` with
the generated code (any tile sizes on each rank, with or without overlap of computation and communication, any order of the inner loops in
the threads) ends without undefined behaviour, and then each rank has the stored steps at the end of the run, at its own points and in all
halos that it receives: reading the element with the indices of the source gives the value.
Missing: scratch vars, and what C86 misses. -/
theorem C87_ranks_partial [Inhabited V] (hacc : Accepted D es dir cs) (hone : SetOnce D es) (hlate : dir = -1 → ReadsNoLater D dir es)
    (hU : U = srcSoln D dir es cs) (hS : SrcVarsIn X S kv cs sz szv) (hp : Prepared G X.P opts minSize shape) (hfit : X.Fits U L S szv shape)
    (hc : ∀ r < X.P.n, CodeOf (X.code r) U L (X.slices S r) szv A)
    (hf : ∀ r < X.P.n, (X.code r).Fits V (inner r) (folds r) (rofs r)) (hA : ∀ r < X.P.n, (X.code r).Exprs A) (hm : X.MiscStored S)
    (hr : Runs G U L) (ha : Arranged U L) (hn : Enough U L szv)
    (han : Announced G U L (fun v => srcHas cs v .domain) szv (X.P.sliced S) (fun v => shape (S.var v))
      fun st t β => X.stageOuts st t (S.var β.1, β.2)) (u : V)
    {first last : Int} (hdir : Along dir first last) {W : SrcHistory V} (hW : SrcEvolves D dir es (InWhole G) sz first (numSteps first last) W)
    (c : CState V) (hown : SrcOwn X kv D dir es sz shape W first c) (hhalo : SrcHalos X kv D dir es sz W first c.self c)
    (o : Outcome (CState V)) (ho : X.RunTo u A first last c o) :
    ∃ c', o = .ok c' ∧ SrcOwn X kv D dir es sz shape W (first + dir * numSteps first last) c' ∧
      SrcHalos X kv D dir es sz W (first + dir * numSteps first last) (fun _ _ => false) c' := by
  subst hU
  obtain ⟨c', h1, h2, h3⟩ := C86_ranks_partial hp hfit hc hf hA hm (C87_legal hacc hone hlate) hr ha hn han u (U := srcSoln D dir es cs) hdir
    (C87_values hacc (fun x hx => hx.1.trans hr.nd) (fun v k hv => (hS.at_ v k hv).2.2.1) hW) c ((own_src hacc.eqs hS).2 hown)
    ((halos_src hacc.eqs hS).2 hhalo) o ho
  exact ⟨c', h1, (own_src hacc.eqs hS).1 h2, (halos_src hacc.eqs hS).1 h3⟩

end

/-! ### An example: `u(t+1, x) = u(t, x-1) + u(t, x) + u(t, x+1)` on the two ranks of `exNetPrep` -/

namespace SrcExample
open CodeNetExample LoopExample

def D : CDims := { step := "t", domain := ["x"], folded := [] }

def u : EqVar := ⟨"u", false, [("t", .step), ("x", .domain)]⟩

def ti : NExpr String := .index "t" .step
def xi : NExpr String := .index "x" .domain

def eqn : SEq String Int :=
  ⟨⟨(u, [.comm .add [ti, .const 1], xi]), [(u, [ti, .bin .sub xi (.const 1)]), (u, [ti, xi]), (u, [ti, .comm .add [xi, .const 1]])]⟩,
    fun _ => true, fun _ => true, fun _ _ l => l.sum⟩

def es : List (SEq String Int) := [eqn]

def cs : List (CEq String) := match checkEqs D (es.map SEq.src) with
  | .ok r => r.2
  | _ => []

theorem accepts : checkEqs D (es.map SEq.src) = .ok (1, cs) := by rfl

theorem eqs_eq : (srcSoln D 1 es cs).eqs = [exLineEq] := by rfl

theorem step_eq : (srcSoln D 1 es cs).hasStep = fun _ => true := by
  funext v
  match v with
  | 0 => rfl
  | v + 1 =>
    have h : (srcVars cs).length = 1 := by decide +kernel
    show (decide ((srcVars cs).length ≤ v + 1) || decide (D.step ∈ srcHas cs (v + 1) .step)) = true
    rw [h, decide_eq_true (by omega), Bool.true_or]

theorem soln_eq : srcSoln D 1 es cs = exLine := by
  have h : srcSoln D 1 es cs = ⟨["x"], 1, (srcSoln D 1 es cs).hasStep, (srcSoln D 1 es cs).eqs⟩ := rfl
  rw [h, step_eq, eqs_eq]
  rfl

theorem acc : Accepted D es 1 cs where
  dims := by decide
  step := by decide
  proper := by
    have h : ∀ e ∈ es.map SEq.src, ∀ q ∈ e.lhs :: e.rhs, q.1 = u := by decide +kernel
    intro e he q hq
    rw [h e he q (List.mem_cons.2 hq)]
    unfold DimNames Kinds
    decide
  scratch := by decide +kernel
  ok := accepts

theorem once : SetOnce D es := by
  intro i j e e' h1 h2 _ _ _ _ _ _ _ _ _ _ _
  have h1 := (List.getElem?_eq_some_iff.1 h1).1
  have h2 := (List.getElem?_eq_some_iff.1 h2).1
  have : es.length = 1 := rfl
  omega

theorem vars_eq : srcVars cs = [(u, [0, 0])] := by decide +kernel

theorem varsIn : SrcVarsIn net slices (fun _ => 0) cs (fun _ => 2) exLineSz where
  nv := by rw [vars_eq]; rfl
  at_ v k h := by
    rw [vars_eq] at h
    match v with
    | 0 =>
      obtain rfl : (u, [0, 0]) = k := by simpa using h
      exact ⟨rfl, rfl, rfl, rfl, kinds⟩
    | v + 1 => simp at h

theorem dims_eq (v : Nat) : srcHas cs v .domain = if v = 0 then ["x"] else [] := by
  unfold srcHas
  rw [vars_eq]
  match v with
  | 0 => rfl
  | v + 1 => rfl

theorem announced' : Announced whole exLine exLineL (fun v => srcHas cs v .domain) exLineSz (net.P.sliced slices)
    (fun v => exNetShape (slices.var v)) (fun st t β => net.stageOuts st t (slices.var β.1, β.2)) where
  vars := announced.vars
  slots := announced.slots
  used v hv j hj := by
    rw [announced.used v hv j hj, dims_eq, if_pos (by have : v < 1 := hv; omega)]
  lh := announced.lh
  rh := announced.rh
  dist := announced.dist
  outs := announced.outs
  full e he n hn := by
    rw [dims_eq, exLine_eqs he]
    exact hn

/-- The hypotheses of the theorems, for three steps from step 0, except for `SrcEvolves`. -/
example : Accepted D es 1 cs ∧ SetOnce D es ∧ exLine = srcSoln D 1 es cs ∧ SrcVarsIn net slices (fun _ => 0) cs (fun _ => 2) exLineSz ∧
    Prepared whole net.P exNetOpts (fun _ _ => 2) exNetShape ∧ net.P.n = 2 ∧ net.Fits exLine exLineL slices exLineSz exNetShape ∧
    (∀ r < 2, CodeOf (net.code r) exLine exLineL (net.slices slices r) exLineSz intArith) ∧ (∀ r < 2, (net.code r).Fits Int "x" [1] [ofs r]) ∧
    (∀ r < 2, (net.code r).Exprs intArith) ∧ net.MiscStored slices ∧ Runs whole exLine exLineL ∧
    Arranged exLine exLineL ∧ Enough exLine exLineL exLineSz ∧
    Announced whole exLine exLineL (fun v => srcHas cs v .domain) exLineSz (net.P.sliced slices) (fun v => exNetShape (slices.var v))
      (fun st t β => net.stageOuts st t (slices.var β.1, β.2)) ∧ Along 1 0 2 ∧ numSteps 0 2 = 3 :=
  ⟨acc, once, soln_eq.symm, varsIn, prepared, rfl, netFits, codeOf, fits, exprs, miscStored, runs, exLine_arranged, exLine_slots, announced',
    show (0 : Int) ≤ (2 - 0) * 1 by decide, by decide⟩

/-- There are executions of the steps 0 to 2 from storage in which all elements are 1, and after each, reading `u(3, 20)` on rank 1 gives 27. -/
example : (∃ o, net.RunTo 0 intArith 0 2 ones o) ∧ ∀ o, net.RunTo 0 intArith 0 2 ones o →
    ∃ c', o = .ok c' ∧ readAt (yvar 1).g (c'.mem 1 0) [3, 20] = .ok 27 := by
  refine ⟨C86_executions_exist prepared netFits codeOf fits exprs miscStored exLine_legal runs exLine_arranged exLine_slots announced 0 0 2
    ones, fun o ho => ?_⟩
  obtain ⟨W, h1, h2⟩ := C87_values_exist (sz := fun _ => 2) acc once (fun h => by cases h) soln_eq.symm exLine_arranged exLine_slots (inDom := InWhole whole) (fun x hx => hx.1)
    (fun v k hv => (varsIn.at_ v k hv).2.2.1) 0 3 (fun _ _ => (1 : Int))
  have acs : ∀ q, Access es q → q.1 = u := by
    rintro q ⟨e, he, hq⟩
    have h : ∀ e ∈ es, ∀ q ∈ e.src.lhs :: e.src.rhs, q.1 = u := by decide +kernel
    exact h e he q hq
  have hst : SrcOwn net (fun _ => 0) D 1 es (fun _ => 2) exNetShape W 0 ones := by
    intro r hr q hq s hs x _ _ a ha hin
    have hqu := acs q hq
    obtain ⟨yv, y1, y2⟩ := (codeOf r hr).reach 0 Nat.one_pos
    obtain ⟨b, _, k2, _⟩ := readAt_eq (by rw [← show yv.g = net.geo r 0 from y2]; exact y1.ok)
      (show StepsAlloc (net.geo r 0).api from alloc r hr) hin (ones.mem r 0)
    refine k2.trans (congrArg Outcome.ok (h2 q.1 a ?_ ha.1 fun k hk => ?_).symm)
    · rw [hqu]; unfold DimNames; decide
    · obtain ⟨j, hj, rfl⟩ := hs (List.mem_of_getElem? hk)
      exact ⟨j, hj, (ha.2 k _ _ hk).1 rfl⟩
  obtain ⟨c', rfl, h3, _⟩ := C87_ranks_partial acc once (fun h => by cases h) soln_eq.symm varsIn prepared netFits codeOf fits exprs miscStored runs
    exLine_arranged exLine_slots announced' 0 (first := 0) (last := 2) (show (0 : Int) ≤ (2 - 0) * 1 by decide) h1 ones hst
    (fun _ _ _ _ _ _ _ _ _ _ _ h => by cases h) o ho
  refine ⟨c', rfl, ?_⟩
  have h5 := h3 1 (by decide) (u, [ti, xi]) ⟨eqn, List.mem_singleton.2 rfl, by simp [eqn]⟩ 3 (fun _ => ⟨0, by decide, by decide⟩) [20] rfl (by
    intro j hj _
    obtain rfl : j = 0 := by have : j < 1 := hj; omega
    constructor
    · left; show exNetRanks.ofs 1 0 ≤ 20; decide +kernel
    · left; show 20 < exNetRanks.ofs 1 0 + exNetRanks.lsz 1 0; decide +kernel) [3, 20] (by
    refine ⟨rfl, fun i d ty hi => ?_⟩
    match i with
    | 0 =>
      obtain ⟨rfl, rfl⟩ : "t" = d ∧ IndexType.step = ty := by simpa [u] using hi
      simp
    | 1 =>
      obtain ⟨rfl, rfl⟩ : "x" = d ∧ IndexType.domain = ty := by simpa [u] using hi
      simp [D]
    | i + 2 => simp [u] at hi) (by
    show InRangeButStep (yvar 1).g.api _
    rw [api 1 (by decide)]
    unfold InRangeButStep
    simp [beg, fin])
  have w0 : ∀ a : Int, W u [0, a] = 1 := fun a => h2 u _ (by unfold DimNames; decide) rfl fun k hk => by
    match k with
    | 0 => exact ⟨0, by decide, rfl⟩
    | 1 => simp [u, D] at hk
    | k + 2 => simp [u] at hk
  have app : ∀ i a : Int, 0 ≤ a → a < 40 → eqn.Applies (InWhole whole) (0 + 1 * i) [a] := fun i a ha hb => by
    refine ⟨⟨rfl, fun j hj => ?_⟩, rfl, rfl⟩
    obtain rfl : j = 0 := by have : j < 1 := hj; omega
    exact ⟨ha, hb⟩
  have hidx : ∀ (I : Interp String ℚ) (i a : Int), (∀ d, I.index d .step = indexAt D i [a] d ∧ I.index d .domain = indexAt D i [a] d) →
      I.index "t" .step = i ∧ I.index "x" .domain = a := by
    intro I i a h
    rw [(h "t").1, (h "x").2]
    simp [indexAt, D]
  have step : ∀ (i : Nat), i < 3 → ∀ a : Int, 0 ≤ a → a < 40 → W u [i + 1, a] = W u [i, a - 1] + W u [i, a] + W u [i, a + 1] := by
    intro i hi a ha hb
    have h := h1.eq i hi eqn (by simp [es]) [a] (app i a ha hb) [(i : Int) + 1, a] [[(i : Int), a - 1], [(i : Int), a], [(i : Int), a + 1]] (by
        refine .cons (fun I hI h => ?_) (.cons (fun I hI h => ?_) .nil) <;> obtain ⟨e1, e2⟩ := hidx I _ _ h <;>
          simp [ti, xi, NExpr.val, NExpr.vals, hI.const, e1, e2])
      (.cons (.cons (fun I hI h => by
          obtain ⟨e1, e2⟩ := hidx I _ _ h
          simp [ti, xi, NExpr.val, NExpr.vals, hI.const, e1, e2]) (.cons (fun I hI h => by
          obtain ⟨e1, e2⟩ := hidx I _ _ h
          simp [ti, xi, NExpr.val, NExpr.vals, hI.const, e1, e2]) .nil)) (.cons (.cons (fun I hI h => by
          obtain ⟨e1, e2⟩ := hidx I _ _ h
          simp [ti, xi, NExpr.val, NExpr.vals, hI.const, e1, e2]) (.cons (fun I hI h => by
          obtain ⟨e1, e2⟩ := hidx I _ _ h
          simp [ti, xi, NExpr.val, NExpr.vals, hI.const, e1, e2]) .nil)) (.cons (.cons (fun I hI h => by
          obtain ⟨e1, e2⟩ := hidx I _ _ h
          simp [ti, xi, NExpr.val, NExpr.vals, hI.const, e1, e2]) (.cons (fun I hI h => by
          obtain ⟨e1, e2⟩ := hidx I _ _ h
          simp [ti, xi, NExpr.val, NExpr.vals, hI.const, e1, e2]) .nil)) .nil)))
    have h : W u [(i : Int) + 1, a] = W u [(i : Int), a - 1] + (W u [(i : Int), a] + (W u [(i : Int), a + 1] + 0)) := h
    rw [h]
    omega
  have w1 : ∀ a : Int, 0 ≤ a → a < 40 → W u [1, a] = 3 := fun a ha hb => by
    have := step 0 (by decide) a ha hb
    simp only [Nat.cast_zero, zero_add, w0] at this
    simpa using this
  have w2 : ∀ a : Int, 1 ≤ a → a < 39 → W u [2, a] = 9 := fun a ha hb => by
    have := step 1 (by decide) a (by omega) (by omega)
    simp only [Nat.cast_one] at this
    rw [w1 _ (by omega) (by omega), w1 _ (by omega) (by omega), w1 _ (by omega) (by omega)] at this
    simpa using this
  have w3 : W u [3, 20] = 27 := by
    have := step 2 (by decide) 20 (by decide) (by decide)
    rw [show ((2 : Nat) : Int) = 2 from rfl, w2 _ (by decide) (by decide), w2 _ (by decide) (by decide), w2 _ (by decide) (by decide)] at this
    simpa using this
  rw [w3] at h5
  exact h5

/-- `u(t-1, x) EQUALS u(t-2, x)`. -/
def late : SEq String Int := ⟨⟨(u, [.bin .sub ti (.const 1), xi]), [(u, [.bin .sub ti (.const 2), xi])]⟩, fun _ => true, fun _ => true, fun _ _ l => l.sum⟩

end SrcExample

/-- C87, what `hlate` is for: the compiler accepts equations for the other direction of steps that read a step beyond the one they set,
which has not been computed. -/
theorem C87_late_read_accepted : (∃ cs, Accepted SrcExample.D [SrcExample.late] (-1) cs) ∧ ¬ ReadsNoLater SrcExample.D (-1) [SrcExample.late] := by
  refine ⟨⟨_, by decide, by decide, ?_, by decide +kernel, rfl⟩, fun h => ?_⟩
  · have h : ∀ e ∈ [SrcExample.late].map SEq.src, ∀ q ∈ e.lhs :: e.rhs, q.1 = SrcExample.u := by decide +kernel
    intro e he q hq
    rw [h e he q (List.mem_cons.2 hq)]
    unfold DimNames Kinds
    decide
  · have h1 := h SrcExample.late (List.mem_singleton.2 rfl) _ (List.mem_singleton.2 rfl) (("t", .step), .bin .sub SrcExample.ti (.const 2))
      (List.mem_cons_self) rfl (-2) (fun I idx hI hd => by
        show NExpr.val I (.bin .sub SrcExample.ti (.const 2)) = idx "t" + ((-2 : ℤ) : ℚ)
        rw [← (hd "t").1]
        simp [SrcExample.ti, NExpr.val, NExpr.vals, hI.const]
        ring)
    norm_num at h1
end Yask
