import Verif.Mpi.WholeLemmas
import Verif.Props.Src

/-!
# C88: from the expressions of the source to the storage of the ranks

C87 needs that the generated code, the vars of the kernel, their halos and storage are as the equations need them. Here this follows from
how they are made: the code generator uses the points that the accesses of the source have become; the vars are constructed as the
generated code says, and users of the solution do not make them smaller; the halos are those of the analysis of the compiler, for vars
of the kernel. The specification is in `Spec/ExprEqSpec.lean` and `Spec/SrcNetSpec.lean`.
-/

namespace Yask
open Spec Mpi Var Nano Comp Spec.Cpp RunCfg

section
variable {π V κ : Type} [DecidableEq π] [DecidableEq κ] [Inhabited V] {D : CDims} {dir : ℤ} {es : List (XEq π)} {cs : List (CEq π)} {A : Arith V} {X : CodeNet}
  {U : USoln V} {L : List (List (List (Fin U.eqs.length)))} {kv : EqVar → Nat} {sz : EqVar → Nat} {shape : Nat → VarShape}
  {gs : EqVar → GenSizes} {fix : Bool} {G : RunCfg} {opts : List Setup.ROpts} {minSize : Nat → Nat → Nat} {inner : Nat → String}
  {folds rofs : Nat → List Int}

omit [DecidableEq π] [DecidableEq κ] in
theorem prepared_some (hp : Prepared G X.P opts minSize shape) : 0 < X.P.n := by
  rw [hp.n]
  exact List.length_pos_iff.2 hp.some_rank

/-- C88: what C87 needs of the code and the vars of the kernel. -/
theorem C88_made (hacc : Accepted D (es.map (XEq.seq A)) dir cs) (hU : U = srcSoln D dir (es.map (XEq.seq A)) cs)
    (hp : Prepared G X.P opts minSize shape) (hnd : G.nd = D.domain.length)
    (hM : Made X D dir es cs kv (natStages L) ((U.stages L).ren (srcSlices X kv cs).var) sz shape A gs fix) :
    SrcVarsIn X (srcSlices X kv cs) kv cs sz (srcSz cs sz) ∧ X.Fits U L (srcSlices X kv cs) (srcSz cs sz) shape ∧
    (∀ r < X.P.n, CodeOf (X.code r) U L (X.slices (srcSlices X kv cs) r) (srcSz cs sz) A) ∧ X.MiscStored (srcSlices X kv cs) ∧
    Announced G U L (fun v => srcHas cs v .domain) (srcSz cs sz) (X.P.sliced (srcSlices X kv cs)) (fun v => shape ((srcSlices X kv cs).var v))
      fun st t β => X.stageOuts st t ((srcSlices X kv cs).var β.1, β.2) := by
  subst hU
  have h0 := prepared_some hp
  exact ⟨hM.varsIn hacc.eqs, hM.fits hacc.eqs h0, fun r hr => hM.codeOf hacc.eqs hacc.step hacc.ok hr,
    hM.miscStored hacc.eqs hacc.proper hacc.ok, hM.announced hacc.eqs h0 hacc.step hacc.ok hnd⟩

/-- C88: let the compiler accept the equations `es`, and let it put them into the stages `L`, whatever orders it uses where it iterates over
sets. Let the ranks run the generated code with vars that are made as it says (`Made`), after `prepare_solution()`. If each rank has in its
storage the stored steps of values `W` that satisfy the equations of the source, at its own points and in halos whose owner has not marked
a change, then every execution of `run_solution` ends without undefined behaviour, and then each rank has the stored steps at the end of
the run, at its own points and in all halos that it receives: reading the element with the indices of the source gives the value.
`hn`: enough steps are stored; the compiler's number is not always enough, see `C60_slots` and C47. `hlate`: see C87. Missing: scratch
vars, and what C86 misses. -/
theorem C88_ranks_partial (hacc : Accepted D (es.map (XEq.seq A)) dir cs) (hone : SetOnce D (es.map (XEq.seq A)))
    (hlate : dir = -1 → ReadsNoLater D dir (es.map (XEq.seq A))) (hU : U = srcSoln D dir (es.map (XEq.seq A)) cs)
    (o : SolnOpts U.eqs.length κ)
    (hkey : ∀ e e', o.key e = o.key e' → U.eqs[e].domIf = U.eqs[e'].domIf ∧ U.eqs[e].stepIf = U.eqs[e'].stepIf)
    {ordL : List (Nat × Option Int) → List (Nat × Option Int)} (hL : ∀ l, (ordL l).Perm l)
    {ordE : List (Fin U.eqs.length) → List (Fin U.eqs.length)} (hE : ∀ l, (ordE l).Perm l) {ordP ordS : List Nat → List Nat}
    (hP : ∀ l, (ordP l).Perm l) (hQ : ∀ l, (ordS l).Perm l) (hcm : (U.sys o).compile ordL ordE ordP ordS = .ok L)
    (hM : Made X D dir es cs kv (natStages L) ((U.stages L).ren (srcSlices X kv cs).var) sz shape A gs fix)
    (hn : Enough U L (srcSz cs sz)) (hp : Prepared G X.P opts minSize shape)
    (hf : ∀ r < X.P.n, (X.code r).Fits V (inner r) (folds r) (rofs r)) (hA : ∀ r < X.P.n, (X.code r).Exprs A)
    (hr : Runs G U L) (u : V) {first last : Int} (hdir : Along dir first last) {W : SrcHistory V}
    (hW : XEvolves D dir es A (InWhole G) sz first (numSteps first last) W) (c : CState V)
    (hown : SrcOwn X kv D dir (es.map (XEq.seq A)) sz shape W first c)
    (hhalo : SrcHalos X kv D dir (es.map (XEq.seq A)) sz W first c.self c) :
    (∃ o, X.RunTo u A first last c o) ∧ ∀ o, X.RunTo u A first last c o →
    ∃ c', o = .ok c' ∧ SrcOwn X kv D dir (es.map (XEq.seq A)) sz shape W (first + dir * numSteps first last) c' ∧
      SrcHalos X kv D dir (es.map (XEq.seq A)) sz W (first + dir * numSteps first last) (fun _ _ => false) c' := by
  have hnd : G.nd = D.domain.length := by
    have := hr.nd
    rw [hU] at this
    exact this
  have ha := C60_stages o hkey hL hE hP hQ hcm
  obtain ⟨h1, h2, h3, h4, h5⟩ := C88_made hacc hU hp hnd hM
  have hlegal : Legal U (fun v => srcHas cs v .domain) := by
    rw [hU]
    exact C87_legal hacc hone hlate
  exact ⟨C86_executions_exist hp h2 h3 hf hA h4 hlegal hr ha hn h5 u first last c, fun o ho =>
    C87_ranks_partial hacc hone hlate hU h1 hp h2 h3 hf hA h4 hr ha hn h5 u hdir (evolves_seq.1 hW) c hown hhalo o ho⟩

/-- C88: there are values that satisfy the equations, from any values `g` of the steps that are stored at first. -/
theorem C88_values_exist (hacc : Accepted D (es.map (XEq.seq A)) dir cs) (hone : SetOnce D (es.map (XEq.seq A)))
    (hlate : dir = -1 → ReadsNoLater D dir (es.map (XEq.seq A))) (hU : U = srcSoln D dir (es.map (XEq.seq A)) cs) (ha : Arranged U L)
    (hn : Enough U L (srcSz cs sz)) {inDom : List ℤ → Prop} (hlen : ∀ x, inDom x → x.length = D.domain.length) (first : ℤ) (n : Nat)
    (g : SrcHistory V) : ∃ W, XEvolves D dir es A inDom sz first n W ∧ ∀ v a, DimNames v → a.length = v.dims.length →
      (∀ k : Nat, v.dims[k]? = some (D.step, .step) → ∃ j < sz v, a[k]? = some (first - dir * j)) → W v a = g v a := by
  obtain ⟨W, h1, h2⟩ := C87_values_exist (sz := sz) hacc hone hlate hU ha hn hlen (fun v k h => by unfold srcSz; rw [h]) first n g
  exact ⟨W, evolves_seq.2 h1, h2⟩

end

/-! ### An example: the equation of `SrcExample` with its expression, on the two ranks of `exNetPrep` -/

namespace WholeExample
open CodeNetExample LoopExample SrcExample

/-- `u(t+1, x) = u(t, x-1) + u(t, x) + u(t, x+1)` -/
def xeq : XEq String where
  lhs := (u, [.comm .add [ti, .const 1], xi])
  rhs := .comm 1 .add [.read 2 (u, [ti, .bin .sub xi (.const 1)]), .read 3 (u, [ti, xi]), .read 4 (u, [ti, .comm .add [xi, .const 1]])]
  domIf _ := true
  stepIf _ := true

def xes : List (XEq String) := [xeq]

theorem src_eq : (xes.map (XEq.seq intArith)).map SEq.src = SrcExample.es.map SEq.src := rfl

theorem acc : Accepted D (xes.map (XEq.seq intArith)) 1 cs where
  dims := SrcExample.acc.dims
  step := SrcExample.acc.step
  proper := by rw [src_eq]; exact SrcExample.acc.proper
  scratch e he := by
    obtain ⟨e', he', rfl⟩ := List.mem_map.1 he
    rw [List.mem_singleton.1 he']
    rfl
  ok := SrcExample.acc.ok

theorem once : SetOnce D (xes.map (XEq.seq intArith)) := by
  intro i j e e' h1 h2 _ _ _ _ _ _ _ _ _ _ _
  have h1 := (List.getElem?_eq_some_iff.1 h1).1
  have h2 := (List.getElem?_eq_some_iff.1 h2).1
  have : (xes.map (XEq.seq intArith)).length = 1 := rfl
  omega

/-- The equation that is analyzed. -/
noncomputable def ueq : UEq Int := { exLineEq with f := (xeq.seq intArith).f }
noncomputable def usoln : USoln Int := ⟨["x"], 1, fun _ => true, [ueq]⟩

theorem soln_eq : usoln = srcSoln D 1 (xes.map (XEq.seq intArith)) cs := by
  have h : (srcSoln D 1 (xes.map (XEq.seq intArith)) cs).eqs = [ueq] := rfl
  have h2 : (srcSoln D 1 (xes.map (XEq.seq intArith)) cs).hasStep = fun _ => true := step_eq
  have h3 : srcSoln D 1 (xes.map (XEq.seq intArith)) cs = ⟨["x"], 1, (srcSoln D 1 (xes.map (XEq.seq intArith)) cs).hasStep,
    (srcSoln D 1 (xes.map (XEq.seq intArith)) cs).eqs⟩ := rfl
  rw [h3, h2, h]
  rfl

def stages : List (List (List (Fin usoln.eqs.length))) := [[[⟨0, by decide⟩]]]
def copts : SolnOpts usoln.eqs.length Unit := ⟨fun _ => (), fun _ _ => false, fun _ _ => true, true, []⟩

theorem compiles : (usoln.sys copts).compile id id id id = .ok stages := by decide +kernel

theorem ueqs {e : UEq Int} (he : e ∈ usoln.eqs) : e = ueq := List.mem_singleton.1 he

theorem sz_eq : srcSz cs (fun _ => 2) = fun v => if v = 0 then 2 else 1 := by
  funext v
  unfold srcSz
  rw [vars_eq]
  match v with
  | 0 => rfl
  | v + 1 => rfl

theorem enough : Enough usoln stages (srcSz cs fun _ => 2) := by
  have hv : ∀ p ∈ ueq.rhs, p.var = 0 ∧ p.step = some 0 := by
    show ∀ p ∈ exLineEq.rhs, _
    decide +kernel
  rw [sz_eq]
  refine ⟨fun v => by split_ifs <;> decide, fun e he p hp k hk => ?_, fun e e' i p i' p' _ _ _ q hq _ k hk => ?_⟩
  · rw [ueqs he] at hp
    obtain ⟨h1, h2⟩ := hv p hp
    rw [h2] at hk
    cases hk
    rw [h1]
    decide
  · rw [show usoln.eqs[e] = ueq from ueqs (List.getElem_mem _)] at hq
    obtain ⟨h1, h2⟩ := hv q hq
    rw [h2] at hk
    cases hk
    rw [h1]
    intro h
    exact absurd h (by decide)

theorem runs : Runs whole usoln stages where
  nd := rfl
  nst := rfl
  nparts := CodeNetExample.runs.nparts
  dom st hst p hp x hx := by
    refine (CodeNetExample.runs.dom st hst p hp x hx).trans (and_congr Iff.rfl ?_)
    have h : ∀ e : Fin exLine.eqs.length, exLine.eqs[e] = exLineEq := fun e => exLine_eqs (List.getElem_mem _)
    have h' : ∀ e : Fin usoln.eqs.length, usoln.eqs[e] = ueq := fun e => ueqs (List.getElem_mem _)
    refine forall_congr' fun e => ?_
    rw [h e, h' e]
    exact Iff.rfl
  stepOk st hst p hp t := by
    refine (CodeNetExample.runs.stepOk st hst p hp t).trans ?_
    have h : ∀ e : Fin exLine.eqs.length, exLine.eqs[e] = exLineEq := fun e => exLine_eqs (List.getElem_mem _)
    have h' : ∀ e : Fin usoln.eqs.length, usoln.eqs[e] = ueq := fun e => ueqs (List.getElem_mem _)
    refine forall_congr' fun e => ?_
    rw [h e, h' e]
    exact Iff.rfl
  halo e he := by
    rw [ueqs he]
    exact CodeNetExample.runs.halo exLineEq List.mem_cons_self

theorem used_u {v : EqVar} (h : UsedVar xes v) : v = u := by
  obtain ⟨e, he, q, hq, rfl⟩ := h
  rw [List.mem_singleton.1 he] at hq
  have hq : q ∈ [(u, [.comm .add [ti, .const 1], xi]), (u, [ti, .bin .sub xi (.const 1)]), (u, [ti, xi]), (u, [ti, .comm .add [xi, .const 1]])] := hq
  simp only [List.mem_cons, List.not_mem_nil, or_false] at hq
  rcases hq with rfl | rfl | rfl | rfl <;> rfl

/-! The var of each rank: the calls in the generated code, then those of `prepare_solution()`. -/

def sizes : GenSizes := ⟨fun _ => 1, fun _ => 1, 2⟩

def gcalls : List (Nat × Setting × Int) := [(0, .size, 2), (1, .leftHalo, 1), (1, .rightHalo, 1)]

def geom1 : Geom := (geom0.resize false).getD geom0

def made : YVar Int := (runCalls ⟨geom1, none⟩ gcalls).1

def later (r : Nat) : List (Nat × Setting × Int) :=
  [(1, .size, 20), (1, .leftExt, if r = 0 then 0 else 1), (1, .rightExt, if r = 0 then 1 else 0), (1, .rankOfs, if r = 0 then 0 else 20)]

theorem generated : Generated sizes (varStats u (allPts cs [])) u made :=
  ⟨geom0, geom1, gcalls, geom0_constructed, by decide, by decide +kernel, by decide +kernel, Prod.ext rfl (by decide +kernel)⟩

theorem kept_calls {need : Nat → Int} : ∀ (l : List (Nat × Setting × Int)) (a : YVar Int), (∀ d ∈ a.g.dims, d.kind ≠ .misc) →
    (runCalls a l).2 = false → Relation.ReflTransGen (SolnStep false need) a (runCalls a l).1
  | [], _, _, _ => .refl
  | x :: l, a, hm, h => by
    unfold runCalls at h ⊢
    rcases hc : callSetting a x.1 x.2.1 x.2.2 with ⟨a1, _ | _⟩
    · rw [hc] at h
      have hs : SolnStep false need a a1 := .setting a a1 _ _ _ hc fun d hd hk => absurd hk (hm d (List.mem_of_getElem? hd))
      refine .head hs (kept_calls l a1 (fun d hd => ?_) h)
      have hk : DimG.kind d ∈ a1.g.dims.map DimG.kind := List.mem_map_of_mem hd
      rw [solnStep_kinds hs] at hk
      obtain ⟨d', h1, h2⟩ := List.mem_map.1 hk
      rw [← h2]
      exact hm d' h1
    · rw [hc] at h
      cases h

theorem later_geom : ∀ r < 2, (runCalls made (later r)).1.g = (yvar r).g := two (by decide +kernel) (by decide +kernel)

theorem noMisc' : ∀ d ∈ made.g.dims, d.kind ≠ .misc := by decide +kernel

theorem later_kept : ∀ r < 2, KeepsSizes false made (runCalls made (later r)).1 :=
  two (kept_calls _ _ noMisc' (by decide +kernel)) (kept_calls _ _ noMisc' (by decide +kernel))

theorem ren_eq : ((usoln.stages stages).ren (srcSlices net (fun _ => 0) cs).var) = (exLine.stages exLineL).ren fun _ => 0 := by
  have h : (srcSlices net (fun _ => 0) cs).var = fun _ => 0 := by
    funext v
    unfold srcSlices
    simp only
    split <;> rfl
  rw [h]
  rfl

theorem isMade : Made net D 1 xes cs (fun _ => 0) (natStages stages) ((usoln.stages stages).ren (srcSlices net (fun _ => 0) cs).var) (fun _ => 2)
    exNetShape intArith (fun _ => sizes) false where
  inj v v' h h' _ := (used_u h).trans (used_u h').symm
  num _ _ := Nat.one_pos
  onto k hk := ⟨u, ⟨xeq, List.mem_singleton.2 rfl, _, List.mem_cons_self, rfl⟩, by have : k < 1 := hk; omega⟩
  names v h := by rw [used_u h]; rfl
  made r hr v h := by
    rw [used_u h]
    exact ⟨made, _, generated, later_kept r hr, later_geom r hr⟩
  alloc r hr v h := (codeOf r hr).alloc 0 Nat.one_pos
  slots _ _ := rfl
  oneSlot v h hs := by
    rw [used_u h] at hs
    exact absurd (show (D.step, IndexType.step) ∈ u.dims by decide) hs
  misc := netFits.misc
  dom r hr v h i d e hi he := by
    rw [used_u h] at hi
    match i with
    | 0 => simp [u] at hi
    | 1 =>
      obtain rfl : "x" = d := by simpa [u] using hi
      have h1 := dims r hr
      rw [show (yvar r).g.dims[1]? = some e from he] at h1
      injection h1
    | i + 2 => simp [u] at hi
  used v h j hj := by
    obtain rfl : j = 0 := by have : j < 1 := hj; omega
    rw [used_u h]
    decide +kernel
  lh v h j hj := by
    obtain rfl : j = 0 := by have : j < 1 := hj; omega
    rw [ren_eq]
    decide +kernel
  rh v h j hj := by
    obtain rfl : j = 0 := by have : j < 1 := hj; omega
    rw [ren_eq]
    decide +kernel
  dist v h := by
    rw [ren_eq]
    decide +kernel
  cfg _ _ := rfl
  dims _ _ := rfl
  step _ _ := rfl
  nst _ _ := rfl
  nparts r hr st := by
    match st with
    | 0 => rfl
    | st + 1 => rfl
  vars _ _ _ _ _ _ _ := ⟨rfl, rfl⟩
  eqs r hr st p hp := by
    have hp : p < if st = 0 then 1 else 0 := hp
    have hst : st = 0 := by
      by_contra hne
      rw [if_neg hne] at hp
      omega
    subst hst
    obtain rfl : p = 0 := by simp only [if_true] at hp; omega
    refine ⟨fun _ => CodeNetExample.eqn, rfl, fun m hm e he => ?_⟩
    obtain rfl : m = 0 := List.mem_singleton.1 hm
    obtain rfl : xeq = e := Option.some.inj he
    exact ⟨rfl, fun q => Iff.rfl, fun rd => rfl⟩
  outs st p m hm e he t := by
    exact decide_eq_true rfl

/-- The hypotheses of the theorem, for three steps from step 0, except for values; these exist (`C88_values_exist`). -/
example : Accepted D (xes.map (XEq.seq intArith)) 1 cs ∧ SetOnce D (xes.map (XEq.seq intArith)) ∧
    usoln = srcSoln D 1 (xes.map (XEq.seq intArith)) cs ∧ (usoln.sys copts).compile id id id id = .ok stages ∧
    Made net D 1 xes cs (fun _ => 0) (natStages stages) ((usoln.stages stages).ren (srcSlices net (fun _ => 0) cs).var) (fun _ => 2)
      exNetShape intArith (fun _ => sizes) false ∧ Enough usoln stages (srcSz cs fun _ => 2) ∧
    Prepared whole net.P exNetOpts (fun _ _ => 2) exNetShape ∧ net.P.n = 2 ∧ (∀ r < 2, (net.code r).Fits Int "x" [1] [ofs r]) ∧
    (∀ r < 2, (net.code r).Exprs intArith) ∧ Runs whole usoln stages ∧ Along 1 0 2 ∧ numSteps 0 2 = 3 :=
  ⟨acc, once, soln_eq, compiles, isMade, enough, prepared, rfl, fits, exprs, runs, show (0 : Int) ≤ (2 - 0) * 1 by decide, by decide⟩

end WholeExample

end Yask
