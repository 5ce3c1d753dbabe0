import Verif.Mpi.CodeNetRange
import Verif.Props.CodeSoln
import Verif.Props.Net

/-!
# C86: the generated code computes the values that the stencil equations define, in the storage of the vars of several ranks

C84 is about the generated code on one rank; C01 and C60 about several ranks, with memories of points instead of the storage of vars. Here
each rank runs the inner loops of the generated code on its own storage, and halo exchanges copy elements between the storages. The model
is `Mpi/CodeNetModel.lean`, the vocabulary of the statements is in `Spec/CodeNetSpec.lean`.
-/

namespace Yask
open Spec Mpi Var Nano Comp Spec.Cpp RunCfg

section
variable {V : Type} {X : CodeNet} {U : USoln V} {L : List (List (List (Fin U.eqs.length)))} {S : Slices} {sz : Nat → Nat}
  {shape : Nat → VarShape} {A : Arith V} {G : RunCfg} {opts : List Setup.ROpts} {minSize : Nat → Nat → Nat} {vdims : Nat → List String}
  {inner : Nat → String} {folds rofs : Nat → List Int}

/-- C86: after `prepare_solution()`, on each rank there are elements for all points that the rank computes, and for all points that the
equations read from them, when there is storage for the misc indices. -/
theorem C86_in_storage (hp : Prepared G X.P opts minSize shape) (hfit : X.Fits U L S sz shape)
    (hc : ∀ r < X.P.n, CodeOf (X.code r) U L (X.slices S r) sz A) (hf : ∀ r < X.P.n, (X.code r).Fits V (inner r) (folds r) (rofs r))
    (hm : X.MiscStored S) (hl : Legal U vdims) (hr : Runs G U L)
    (han : Announced G U L vdims sz (X.P.sliced S) (fun v => shape (S.var v)) fun st t β => X.stageOuts st t (S.var β.1, β.2)) :
    ∀ r < X.P.n, (X.code r).InRange ∧ ∀ v < S.nv, ∀ (s : Int) (x : List Int),
      (∀ j < G.nd, InIvl (x.getD j 0) ((X.P.cfg r).extBeg j, (X.P.cfg r).extEnd j)) →
      InRangeButStep (X.geo r (S.var v)).api ((X.slices S r).elem U.dims v s x) :=
  fun r hrn => ⟨code_in_range hp hfit hc hf hl hr han hm r hrn, fun v hv s x hx =>
    near_in_range hp hfit hr.nd hm hrn (hc r hrn) hv s hx fun j hj hu => by
      have h := (hp.vars _ (hfit.var _ hv)).facts hrn (hp.nd ▸ hj) hu
      have := h.lh0
      have := h.rh0
      omega⟩

/-- C86: after `prepare_solution()` on any number of ranks, if each rank has in its storage the stored steps of a history `W` of the
equations, at its own points and in halos whose owner has not marked a change, then every execution of `run_solution` with the generated
code (any tile sizes on each rank, with or without overlap of computation and communication, any order of the inner loops in the threads)
ends without undefined behaviour, and then each rank has the stored steps at the end of the run, at its own points and in all halos that it
receives.
Missing: scratch vars, what C80 and C83 miss in the generated code, and what C01 misses (ranks that do not begin at multiples of the vector
lengths, temporal blocks that are too short). -/
theorem C86_ranks_partial [Inhabited V] (hp : Prepared G X.P opts minSize shape) (hfit : X.Fits U L S sz shape)
    (hc : ∀ r < X.P.n, CodeOf (X.code r) U L (X.slices S r) sz A) (hf : ∀ r < X.P.n, (X.code r).Fits V (inner r) (folds r) (rofs r))
    (hA : ∀ r < X.P.n, (X.code r).Exprs A) (hm : X.MiscStored S) (hl : Legal U vdims) (hr : Runs G U L)
    (ha : Arranged U L) (hn : Enough U L sz)
    (han : Announced G U L vdims sz (X.P.sliced S) (fun v => shape (S.var v)) fun st t β => X.stageOuts st t (S.var β.1, β.2)) (u : V)
    {first last : Int} (hdir : Along U.dir first last) {W : History V} (hW : Evolves U (InWhole G) sz first (numSteps first last) W)
    (c : CState V) (hown : OwnStored X U S sz shape W first c) (hhalo : HalosStored X U S sz W first c.self c)
    (o : Outcome (CState V)) (ho : X.RunTo u A first last c o) :
    ∃ c', o = .ok c' ∧ OwnStored X U S sz shape W (first + U.dir * numSteps first last) c' ∧
      HalosStored X U S sz W (first + U.dir * numSteps first last) (fun _ _ => false) c' := by
  have hrg := code_in_range hp hfit hc hf hl hr han hm
  have C : NetCode X U L S sz shape A G opts minSize vdims inner folds rofs :=
    ⟨⟨hp, hfit, hc, hn.pos, fun v hv => han.slots v hv, by rw [hp.nd, hr.nd], hl.dims⟩, hl, hr, ha, hn, hf, hA, hrg⟩
  obtain ⟨o', h1, h2⟩ := run_sim C u first last (start_rel C W first c) ho
  obtain ⟨s', rfl, h3, h4⟩ := C01_ranks_partial (sliced_prepared hp hfit.var hfit.onto) (solnStencil hr hl ha hn)
    (fits_announced hr hl ha hn han) first last (memOf U sz W first) (X.start U S sz W first c)
    (fun r hr' β x hx => start_val C W first c hr' β x fun hv hxl s hs _ => hown r hr' β.1 hv s hs x hxl hx)
    (fun r hr' nb β x hg hs => start_val C W first c hr' β x fun hv hxl s hs' e => by
      refine hhalo r hr' nb hg.1 β.1 hv s hs' x hxl hg.2.1 ?_
      rw [e]
      exact hs) o' h1
  obtain ⟨c', e, hrel⟩ := h2 s' rfl
  have hst := C60_reference hl ha hn hr hdir hW (memOf_stores hl hn.pos W first)
  have hs0 : ∀ v t s, StoredAt U sz v t s → U.hasStep v = false → s = 0 := by
    intro v t s hs h
    unfold StoredAt at hs
    rwa [if_neg (by simp [h])] at hs
  refine ⟨c', e, fun r hr' v hv s hs x hx hox => ?_, fun r hr' nb hnb v hv s hs x hx hbox _ => ?_⟩
  · refine (holds_rep C hr' (hrel.copy r hr') hv (hs0 v _ s hs) hx).2 fun _ => ?_
    rw [h3 r hr' (Spec.stepSlot U sz v s) x hox]
    exact stores_val hst hs x
  · refine (holds_rep C hr' (hrel.copy r hr') hv (hs0 v _ s hs) hx).2 fun _ => ?_
    have hlt : (Spec.stepSlot U sz v s).2 < sz v := by
      have hpos := hn.pos v
      have h1 := Int.emod_lt_of_pos s (b := (sz v : Int)) (by omega)
      have h2 := Int.emod_nonneg s (b := (sz v : Int)) (by omega)
      unfold Spec.stepSlot
      dsimp only
      split_ifs <;> omega
    rw [h4 r hr' nb (Spec.stepSlot U sz v s) x ⟨hnb, hbox, hv, by
      show _ < (X.P.var (S.var v)).slots
      rw [C.ctx.slots v hv]; exact hlt⟩]
    exact stores_val hst hs x

/-- C86: there are executions, from any storage. -/
theorem C86_executions_exist (hp : Prepared G X.P opts minSize shape) (hfit : X.Fits U L S sz shape)
    (hc : ∀ r < X.P.n, CodeOf (X.code r) U L (X.slices S r) sz A) (hf : ∀ r < X.P.n, (X.code r).Fits V (inner r) (folds r) (rofs r))
    (hA : ∀ r < X.P.n, (X.code r).Exprs A) (hm : X.MiscStored S) (hl : Legal U vdims) (hr : Runs G U L)
    (ha : Arranged U L) (hn : Enough U L sz) 
    (han : Announced G U L vdims sz (X.P.sliced S) (fun v => shape (S.var v)) fun st t β => X.stageOuts st t (S.var β.1, β.2)) (u : V)
    (first last : Int) (c : CState V) :
    ∃ o, X.RunTo u A first last c o :=
  run_code_exists (inner := inner) (folds := folds) (rofs := rofs) (opts := opts) (minSize := minSize) (vdims := vdims) (L := L) (G := G)
    (shape := shape) ⟨⟨hp, hfit, hc, hn.pos, fun v hv => han.slots v hv, by rw [hp.nd, hr.nd], hl.dims⟩, hl, hr, ha, hn, hf, hA,
      code_in_range hp hfit hc hf hl hr han hm⟩ u first last c

end

/-! ### An example: the equation `exLine` on the two ranks of `exNetPrep` -/

namespace CodeNetExample
open LoopExample

def parts (st : Nat) : Nat := if st = 0 then 1 else 0

/-- The overall domain as one rank. -/
def whole : RunCfg := { exNetG with nparts := parts }

def prep : Prep := { exNetPrep with cfg := fun k => { exNetCfg k with nparts := parts } }

theorem prepared : Prepared whole prep exNetOpts (fun _ _ => 2) exNetShape := by
  have h := exNet_prepared
  exact
    { some_rank := h.some_rank, n := h.n, placed := h.placed, nd := h.nd
      ok := fun k hk => by
        have o := h.ok k hk
        exact ⟨o.nd_le, o.fold_pos, o.halo_nonneg, o.rank_pos, o.mega_pos, o.block_pos, o.block_ge, o.micro_pos, o.mega_steps, o.block_steps,
          o.dom_bb, o.dom_ext, o.ext_ranks⟩
      rem := h.rem, cfg_nd := h.cfg_nd, nst := h.nst, nparts := fun _ _ => rfl
      stepOk := h.stepOk, steps := h.steps, dims := h.dims, whole := h.whole, min := h.min, inside := h.inside, dom := h.dom
      vars := h.vars, aligned := h.aligned }

theorem runs : Runs whole exLine exLineL where
  nd := rfl
  nst := rfl
  nparts := by
    intro st hst
    obtain rfl : st = 0 := by have : st < 1 := hst; omega
    rfl
  dom st hst p hp := exLine_runs.dom st hst p (by
    obtain rfl : st = 0 := by have : st < 1 := hst; omega
    exact hp)
  stepOk st hst p hp := exLine_runs.stepOk st hst p (by
    obtain rfl : st = 0 := by have : st < 1 := hst; omega
    exact hp)
  halo := exLine_runs.halo

/-! The var `u` on each rank: dims `t` and `x`. -/

def geom0 : Geom where
  dims := [{ kind := .step }, { kind := .domain }]
  isVec := true
  layout := [0, 1]
  vlenGt1 := false
  allowAddlPad := true

def calls (r : Nat) : List (Nat × Setting × Int) :=
  [(0, .size, 2), (1, .size, 20), (1, .halo, 1), (1, .leftExt, if r = 0 then 0 else 1), (1, .rightExt, if r = 0 then 1 else 0),
    (1, .rankOfs, if r = 0 then 0 else 20)]

def yvar (r : Nat) : YVar Int :=
  match (geom0.resize false).bind fun g => runSettings (V := Int) ⟨g, none⟩ (calls r) with
  | some v => { v with mem := some fun _ => 0 }
  | none => ⟨geom0, none⟩

theorem geom0_constructed : geom0.Constructed where
  stepFirst := by decide
  fresh := by
    intro d hd
    simp only [geom0, List.mem_cons, List.not_mem_nil, or_false] at hd
    rcases hd with rfl | rfl
    · exact ⟨.step, 1, 1, false, rfl⟩
    · exact ⟨.domain, 1, 1, false, rfl⟩
  vlPos := by decide
  vlDomain := by decide
  vlVar := by decide
  noDirty := rfl
  layoutPerm := by decide
  foldNodup := by decide
  foldLens := by decide
  foldAll := by
    intro _ j
    rcases j with _ | _ | j
    · decide
    · decide
    · simp [geom0]
  foldNone := by decide

theorem two {P : Nat → Prop} (h0 : P 0) (h1 : P 1) : ∀ r < 2, P r := by
  intro r hr
  have : r = 0 ∨ r = 1 := by omega
  rcases this with rfl | rfl
  · exact h0
  · exact h1

theorem yvar_reachable : ∀ r < 2, Reachable (yvar r) := by
  intro r hr
  have h1 : (geom0.resize false).isSome = true := by decide +kernel
  obtain ⟨g, hg⟩ := Option.isSome_iff_exists.1 h1
  have h2 : ((geom0.resize false).bind fun g => runSettings (V := Int) ⟨g, none⟩ (calls r)).isSome = true := by
    revert r; exact two (by decide +kernel) (by decide +kernel)
  obtain ⟨v, hv⟩ := Option.isSome_iff_exists.1 h2
  have hr : runSettings (V := Int) ⟨g, none⟩ (calls r) = some v := by
    rw [hg] at hv; simpa using hv
  have : yvar r = { v with mem := some fun _ => 0 } := by
    unfold yvar; rw [hv]
  rw [this]
  exact Reachable.storage v _ (runSettings_reachable (Reachable.construct _ g geom0_constructed hg) hr)

/-- The dims are those that the buffers are made for. -/
theorem dims : ∀ r < 2, (yvar r).g.dims[1]? = some ((exNetVar.rank r).dim 0) := two (by decide +kernel) (by decide +kernel)

theorem dimsLen : ∀ r < 2, (yvar r).g.dims.length = 2 := two (by decide +kernel) (by decide +kernel)

theorem kinds : ∀ r < 2, (yvar r).g.dims.map (·.kind) = [.step, .domain] := two (by decide +kernel) (by decide +kernel)

/-- First point that rank `r` computes, in its domain or extension, and the one after the last. -/
def beg (r : Nat) : Int := if r = 0 then 0 else 19
def fin (r : Nat) : Int := if r = 0 then 21 else 40
def ofs (r : Nat) : Int := if r = 0 then 0 else 20

theorem api : ∀ r < 2, (yvar r).g.api = [⟨true, 0, 1, 2⟩, ⟨false, beg r - 1, fin r, fin r - beg r + 2⟩] := two (by decide +kernel) (by decide +kernel)

theorem accessDims : ∀ r < 2, (yvar r).g.dims.map accessDim = [.step, .domain 1 (ofs r)] := by
  intro r hr
  have h2 : (yvar r).g.dims.map (fun d => (d.kind, d.varVL, d.rankOfs)) = [(.step, 1, 0), (.domain, 1, ofs r)] := by
    revert r; exact two (by decide +kernel) (by decide +kernel)
  have h3 : (yvar r).g.dims.map accessDim = ((yvar r).g.dims.map (fun d => (d.kind, d.varVL, d.rankOfs))).map
      fun x => match x.1 with | .step => AccessDim.step | .domain => .domain x.2.1 x.2.2 | .misc => .misc := by
    rw [List.map_map]; rfl
  rw [h3, h2]; rfl

/-! The code. -/

def cvar : CVar where
  dims := [⟨.step, 1, 0, 0⟩, ⟨.domain, 1, 0, 0⟩]
  layout := [0, 1]
  scratch := false
  loopPosn := 1
  layoutPosn := 1

/-- `u(t, x-1)`, `u(t, x)`, `u(t, x+1)`. -/
def q1 : LPt := (0, [0, -1])
def q2 : LPt := (0, [0, 0])
def q3 : LPt := (0, [0, 1])

def eqn : LPt × Ex LPt := ((0, [1, 0]), .comm 1 .add [.read 2 q1, .read 3 q2, .read 4 q3])

def node : Nat → Ex LPt
  | 1 => .comm 1 .add [.read 2 q1, .read 3 q2, .read 4 q3]
  | 2 => .read 2 q1
  | 3 => .read 3 q2
  | _ => .read 4 q3

def fold : Tup := ⟨[("x", 1)], true⟩

/-- The var at step `t`. -/
def lvar (r : Nat) (t : Int) : LoopVar := ⟨cvar, ["t", "x"], (yvar r).g, fun s => imodFlr (t + s) 2⟩

def orderOf (q : LPt) : List Loc := ((vecElems fold ((lvar 0 0).offsets q.2)).map VecElem.vec).dedup

def loop (r : Nat) (t : Int) : PartLoop where
  vars _ := lvar r t
  fold := fold
  inner := "x"
  opts := PtrExample.opts
  isa := .avx512
  selBit := 8
  prt := ⟨fun i => if i = 2 then 2 else 1, fun i => if i = 1 then 4 else 1, 50, 2⟩
  eqs := [eqn]
  aligned i := ([q1, q2, q3].filter fun q => decide (q.1 = i)).flatMap fun q =>
    (vecElems fold ((lvar r t).offsets q.2)).map fun ve => (lvar r t).setOffsets q.2 ve.vec
  order := orderOf
  defined _ := []
  mask := 1

def code (r : Nat) : SolnCode where
  cfg := prep.full r
  dims := ["x"]
  step := "t"
  code := fun _ _ => loop r 0
  dynamic := false
  alloc := fun _ => 2
  firstInner := true
  microFeat := {}
  nanoFeat := { serp := true }
  micro := fun _ _ _ _ => [⟨1, 2, 1, ofs r, 2, 3, 2, ofs r⟩]
  bind := fun _ _ _ _ => none
  bbs := fun _ _ => [[(beg r, fin r)]]

/-- The slots that the equation sets. -/
def outs (_ _ : Nat) (t : Int) (β : Slot) : Bool := decide (β = (0, ((t + 1) % 2).toNat))

def net : CodeNet := ⟨prep, code, fun r _ => (yvar r).g, fun _ => ["t", "x"], outs⟩

def slices : Slices := ⟨1, fun _ => 0, fun _ => [0, 0], fun _ => (yvar 0).g, fun _ => ["t", "x"]⟩

theorem slotAt (r : Nat) (hr : r < 2) (t s : Int) : Comp.stepSlot (yvar r).g false 2 (t + s) = .ok (imodFlr (t + s) 2) := by
  have h : (yvar r).g.hasStep = true := by revert r; exact two (by decide +kernel) (by decide +kernel)
  unfold Comp.stepSlot
  rw [if_pos h, if_neg (by decide), if_neg (by decide)]

theorem partAt_eq {r : Nat} (hr : r < 2) (st p : Nat) (t : Int) : (code r).partAt st p t = ⟨loop r t, ["x"], "t", t⟩ := by
  unfold SolnCode.partAt PartLoop.atStep
  have h : ((code r).code st p).vars = fun _ => lvar r 0 := rfl
  have h2 : (lvar r 0).g = (yvar r).g := rfl
  simp only [h, h2, show (code r).dynamic = false from rfl, show (code r).alloc = fun _ => 2 from rfl, slotAt r hr]
  rfl

theorem isRead (r : Nat) (t : Int) (q : LPt) : (loop r t).IsRead q ↔ q ∈ [q1, q2, q3] := by
  unfold PartLoop.IsRead
  simp [loop, eqn, Ex.points, Ex.pointsAll]


theorem alloc : ∀ r < 2, StepsAlloc (yvar r).g.api := by
  unfold StepsAlloc; exact two (by decide +kernel) (by decide +kernel)

theorem noMisc : ∀ r < 2, NoMiscOffset (yvar r).g := by
  unfold NoMiscOffset; exact two (by decide +kernel) (by decide +kernel)

theorem cvarOf : ∀ r < 2, cvar.Of PtrExample.opts (yvar r).g :=
  two ⟨by decide +kernel, by decide +kernel, by decide +kernel, by decide +kernel, by decide +kernel, fun _ => by decide +kernel,
      by decide +kernel⟩ ⟨by decide +kernel, by decide +kernel, by decide +kernel, by decide +kernel, by decide +kernel,
      fun _ => by decide +kernel, by decide +kernel⟩

theorem foldOf : ∀ r < 2, FoldOf fold ["t", "x"] (yvar r).g :=
  two ⟨by decide +kernel, by decide +kernel, by decide +kernel, by decide +kernel, by decide +kernel, by decide +kernel,
      by decide +kernel, by decide +kernel⟩ ⟨by decide +kernel, by decide +kernel, by decide +kernel, by decide +kernel, by decide +kernel,
      by decide +kernel, by decide +kernel, by decide +kernel⟩

theorem stepSize : ∀ r < 2, (yvar r).g.stepSize = 2 := two (by decide +kernel) (by decide +kernel)

theorem foldable (r : Nat) (t : Int) : (lvar r t).foldable fold = true := by
  show (lvar 0 0).foldable fold = true
  decide +kernel

theorem varOk {r : Nat} (hr : r < 2) (t : Int) (i : Nat) : (loop r t).VarOk Int "x" (fun _ => t) i :=
  ⟨⟨yvar r, yvar_reachable r hr, rfl⟩, alloc r hr, noMisc r hr, cvarOf r hr, ⟨false, 2, Or.inr (stepSize r hr).symm, fun s => slotAt r hr t s⟩,
    foldOf r hr, rfl, foldable r t⟩

theorem vlen (r : Nat) (t : Int) : (loop r t).vlen = 1 := by
  show (loop 0 0).vlen = 1
  decide +kernel

theorem loopOk {r : Nat} (hr : r < 2) (t : Int) : (loop r t).Ok Int "x" fun _ => t := by
  refine ⟨fun q hq => ⟨.inl (varOk hr t q.1), ?_⟩, fun e he => ⟨varOk hr t e.1.1, ?_⟩, fun i p => ?_, fun q _ _ l => ?_, rfl, ⟨⟨3, rfl⟩, ?_⟩, ?_⟩
  · rw [isRead] at hq
    show _ = (yvar r).g.dims.length
    rw [dimsLen r hr]
    have h : ∀ q ∈ [eqn].map (·.1) ++ [q1, q2, q3], q.2.length = 2 := by decide
    exact h q (List.mem_append.2 hq)
  · obtain rfl : e = eqn := List.mem_singleton.1 he
    show WholeVecs ((yvar r).g.dims.map accessDim) [1, 0]
    rw [accessDims r hr]
    unfold WholeVecs
    simp
  · simp only [isRead]
    rw [show ((loop r t).vars i).foldable (loop r t).fold = true from foldable r t]
    simp only [loop, List.mem_flatMap, List.mem_filter, decide_eq_true_eq, List.mem_map]
    constructor
    · rintro ⟨q, ⟨h1, h2⟩, ve, h3, h4⟩
      exact ⟨q, h1, h2, trivial, ve, h3, h4.symm⟩
    · rintro ⟨q, h1, h2, _, ve, h3, h4⟩
      exact ⟨q, ⟨h1, h2⟩, ve, h3, h4.symm⟩
  · show l ∈ orderOf q ↔ _
    simp only [orderOf, List.mem_dedup, List.mem_map]
    exact Iff.rfl
  · show (loop r t).vlen ≤ 8
    rw [vlen]; decide
  · intro _
    rw [vlen]
    exact ⟨0, Nat.one_pos, show Nat.testBit 1 0 = true by decide⟩

theorem partFits {r : Nat} (hr : r < 2) (st p : Nat) (t : Int) : ((code r).partAt st p t).Fits "x" true [1] [ofs r] := by
  rw [partAt_eq hr]
  refine ⟨rfl, rfl, rfl, List.nodup_singleton _, show "t" ∉ ["x"] by decide, rfl, fun q _ x hx => ?_⟩
  have h : ∀ r < 2, ∀ x ∈ ["t", "x"].zip ((yvar r).g.dims.map fun d => (d.kind, d.rankOfs)),
      (x.2.1 = .step → x.1 = "t") ∧ (x.2.1 = .domain → (["x"].zip [ofs r]).lookup x.1 = some x.2.2) := two (by decide +kernel) (by decide +kernel)
  have hx2 : (x.1, (x.2.kind, x.2.rankOfs)) ∈ ["t", "x"].zip ((yvar r).g.dims.map fun d => (d.kind, d.rankOfs)) := by
    rw [List.zip_map_right]
    exact List.mem_map.2 ⟨x, hx, rfl⟩
  obtain ⟨h1, h2⟩ := h r hr _ hx2
  simp only at h1 h2
  cases hk : x.2.kind with
  | step => exact h1 hk
  | domain => exact h2 hk
  | misc => trivial

theorem dom_eq {r : Nat} (hr : r < 2) (st p : Nat) (a : Int) : (code r).cfg.dom st p [a] = true ↔ beg r ≤ a ∧ a < fin r := by
  have h : (code r).cfg.dom st p [a] = (exNetCfg r).dom st p [a] := rfl
  rw [h]
  clear h
  have : r = 0 ∨ r = 1 := by omega
  rcases this with rfl | rfl <;> simp [exNetCfg, exNetG, demoCfg, demoDim, InIvl, beg, fin] <;> omega

theorem fits : ∀ r < 2, (code r).Fits Int "x" [1] [ofs r] := by
  intro r hr
  exact
    { foldsLen := rfl
      foldsPos := by decide
      lanes := by decide
      microFeat := ⟨_, rfl⟩
      nanoFeat := ⟨_, rfl⟩
      part := fun st p t _ => partFits hr st p t
      code := fun st p t _ => by
        rw [partAt_eq hr]
        exact loopOk hr t
      lhsNodup := fun _ _ _ => List.nodup_singleton _
      micro := fun _ _ _ _ _ _ => ⟨rfl, rfl, fun m hm => by
        obtain rfl := List.mem_singleton.1 hm
        exact ⟨show (0 : Int) < 2 by decide, show (0 : Int) < 1 by decide, show (0 : Int) < 2 by decide, show (0 : Int) < 3 by decide,
          show (1 : Int) ≤ 2 by decide⟩⟩
      bind := fun _ _ _ _ _ _ h => by simp [code] at h
      bbsLen := fun _ _ _ bb h => by
        obtain rfl := List.mem_singleton.1 h
        rfl
      bbs := fun st p _ x => by
        have : InBox x [(beg r, fin r)] ↔ x.length = (code r).cfg.nd ∧ (code r).cfg.dom st p x = true := by
          constructor
          · intro h
            cases h with
            | cons h1 h =>
              cases h with
              | nil => exact ⟨rfl, (dom_eq hr st p _).2 h1⟩
          · rintro ⟨h, h1⟩
            match x, h with
            | [a], _ => exact .cons ((dom_eq hr st p a).1 h1) .nil
        show boxVisits [[(beg r, fin r)]] x = _
        simp only [boxVisits, List.countP_cons, List.countP_nil, decide_eq_true_eq, this, Nat.zero_add]
      vars := fun _ _ _ _ _ _ _ => ⟨rfl, rfl⟩ }

theorem exprs : ∀ r < 2, (code r).Exprs intArith := by
  intro r _ st p _
  refine ⟨⟨node, fun m => ?_⟩, ?_⟩
  · simp [code, loop, eqn, q1, q2, q3, Ex.All, Ex.Alls, Ex.NodeOk, Ex.id, node]
  · simp [code, loop, eqn, Ex.Plain, Ex.PlainFold, IntOk, Ex.intOf, intApply]

theorem miscStored : net.MiscStored slices := by
  intro r hr v _ i d h hd
  exfalso
  have h2 := kinds r hr
  have h3 : ((yvar r).g.dims.map (·.kind))[i]? = some .misc := by
    rw [List.getElem?_map, show (yvar r).g.dims[i]? = some d from h, Option.map_some, hd]
  rw [h2] at h3
  match i with
  | 0 => simp at h3
  | 1 => simp at h3
  | i + 2 => simp at h3

theorem kind_eq {r : Nat} (hr : r < 2) (v k : Nat) : (net.slices slices r).kind v k = ([.step, .domain] : List DimKind)[k]? := by
  rw [← kinds r hr, List.getElem?_map]
  rfl

theorem kind_cases {r : Nat} (hr : r < 2) {v k : Nat} {d : DimKind} (h : (net.slices slices r).kind v k = some d) :
    k = 0 ∧ d = .step ∨ k = 1 ∧ d = .domain := by
  rw [kind_eq hr] at h
  match k with
  | 0 => left; simpa using h.symm
  | 1 => right; simpa using h.symm
  | k + 2 => simp at h

theorem point_eq {r : Nat} (hr : r < 2) (p : Pt) : (net.slices slices r).point p = (0, [p.step.getD 0, p.at "x"]) := by
  unfold Slices.point
  have h : ((net.slices slices r).geo ((net.slices slices r).var p.var)).dims.length = 2 := dimsLen r hr
  rw [h]
  simp only [show List.range 2 = [0, 1] from rfl, List.map_cons, List.map_nil, kind_eq hr]
  rfl

theorem codeOf : ∀ r < 2, CodeOf (code r) exLine exLineL (net.slices slices r) exLineSz intArith := by
  intro r hr
  exact
    { dims := rfl
      parts := fun st p h => by
        have h : p < if st = 0 then 1 else 0 := h
        split at h
        · subst st; exact Nat.one_pos
        · omega
      vars := fun _ _ _ _ _ => ⟨rfl, rfl⟩
      used := by
        show ∀ e ∈ exLine.eqs, ∀ p ∈ e.lhs :: e.rhs, p.var < 1
        decide +kernel
      distinct := fun v hv v' hv' _ _ => by
        have h1 : v < 1 := hv
        have h2 : v' < 1 := hv'
        omega
      reach := fun _ _ => ⟨yvar r, yvar_reachable r hr, rfl⟩
      nameLen := fun _ _ => (dimsLen r hr).symm
      stepName := fun v _ k h => by
        rcases kind_cases hr h with ⟨rfl, h⟩ | ⟨_, h⟩
        · rfl
        · cases h
      domName := fun v _ k h => by
        rcases kind_cases hr h with ⟨_, h⟩ | ⟨rfl, h⟩
        · cases h
        · show "x" ∈ ["x"]; decide
      hasStep := fun v _ => ⟨fun _ => ⟨0, by rw [kind_eq hr]; rfl⟩, fun _ => rfl⟩
      alloc := fun v _ d hd hs => by
        change d ∈ (yvar r).g.api at hd
        rw [api r hr] at hd
        simp only [List.mem_cons, List.not_mem_nil, or_false] at hd
        rcases hd with rfl | rfl
        · rfl
        · cases hs
      full := fun e _ d hd => by
        obtain rfl : d = "x" := by simpa [exLine] using hd
        exact ⟨1, by rw [kind_eq hr]; rfl, rfl⟩
      eqs := fun st p hp => by
        have hp : p < if st = 0 then 1 else 0 := hp
        have hst : st = 0 := by
          by_contra hne
          rw [if_neg hne] at hp
          omega
        subst hst
        obtain rfl : p = 0 := by simp only [if_true] at hp; omega
        refine ⟨fun _ => eqn, rfl, fun e _ => ?_⟩
        have he : exLine.eqs[e] = exLineEq := exLine_eqs (List.getElem_mem _)
        rw [he]
        exact ⟨by rw [point_eq hr]; rfl, fun q => by
          simp only [point_eq hr]
          simp [eqn, Ex.points, Ex.pointsAll, exLineEq, q1, q2, q3, Pt.at, List.lookup], fun t x rd => by
          simp [eqn, exLineEq, point_eq hr, Ex.value, Ex.foldValue, intArith, q1, q2, q3, Pt.at, List.lookup]
          try omega⟩ }

theorem netFits : net.Fits exLine exLineL slices exLineSz exNetShape where
  cfg _ _ := rfl
  var _ _ := Nat.one_pos
  onto k hk := ⟨0, Nat.one_pos, by have : k < 1 := hk; show 0 = k; omega⟩
  kinds r hr k _ := by
    show (yvar r).g.dims.map _ = (yvar 0).g.dims.map _
    exact (kinds r hr).trans (kinds 0 (by decide)).symm
  misc r hr k hk i d d' h _ hd := by
    exfalso
    have : ((yvar r).g.dims.map (·.kind))[i]? = some .misc := by
      rw [List.getElem?_map, show (yvar r).g.dims[i]? = some d from h, Option.map_some, hd]
    rw [kinds r hr] at this
    match i with
    | 0 => simp at this
    | 1 => simp at this
    | i + 2 => simp at this
  dom r hr k hk i d h hd := by
    have hi : i = 1 := by
      have : ((yvar r).g.dims.map (·.kind))[i]? = some .domain := by
        rw [List.getElem?_map, show (yvar r).g.dims[i]? = some d from h, Option.map_some, hd]
      rw [kinds r hr] at this
      match i with
      | 0 => simp at this
      | 1 => rfl
      | i + 2 => simp at this
    subst hi
    have h1 := dims r hr
    rw [show (yvar r).g.dims[1]? = some d from h] at h1
    injection h1
  used k hk j hj := by
    obtain rfl : j = 0 := by have : j < 1 := hj; omega
    refine ⟨fun _ => ⟨1, _, dims 0 (by decide), by decide +kernel, rfl⟩, fun _ => rfl⟩
  oneSlot v _ h := by cases h
  outs st p e _ t := by
    have he : exLine.eqs[e] = exLineEq := exLine_eqs (List.getElem_mem _)
    rw [he]
    exact decide_eq_true rfl

theorem announced : Announced whole exLine exLineL (fun _ => ["x"]) exLineSz (net.P.sliced slices) (fun v => exNetShape (slices.var v))
    fun st t β => net.stageOuts st t (slices.var β.1, β.2) where
  vars := exLine_announced.vars
  slots := exLine_announced.slots
  used := exLine_announced.used
  lh := exLine_announced.lh
  rh := exLine_announced.rh
  dist := exLine_announced.dist
  outs st p e he t := by
    have hst : st = 0 := by
      match st with
      | 0 => rfl
      | st + 1 => simp [exLineL] at he
    subst hst
    have he : exLine.eqs[e] = exLineEq := exLine_eqs (List.getElem_mem _)
    rw [he]
    show (List.range 1).any _ = true
    simp only [show List.range 1 = [0] from rfl, List.any_cons, List.any_nil, Bool.or_false]
    exact decide_eq_true rfl
  full := exLine_announced.full

/-- The hypotheses of the theorems, for three steps from step 0. -/
example : Prepared whole net.P exNetOpts (fun _ _ => 2) exNetShape ∧ net.P.n = 2 ∧ net.Fits exLine exLineL slices exLineSz exNetShape ∧
    (∀ r < 2, CodeOf (net.code r) exLine exLineL (net.slices slices r) exLineSz intArith) ∧ (∀ r < 2, (net.code r).Fits Int "x" [1] [ofs r]) ∧
    (∀ r < 2, (net.code r).Exprs intArith) ∧ net.MiscStored slices ∧ Legal exLine (fun _ => ["x"]) ∧ Runs whole exLine exLineL ∧
    Arranged exLine exLineL ∧ Enough exLine exLineL exLineSz ∧
    Announced whole exLine exLineL (fun _ => ["x"]) exLineSz (net.P.sliced slices) (fun v => exNetShape (slices.var v))
      (fun st t β => net.stageOuts st t (slices.var β.1, β.2)) ∧ Along exLine.dir 0 2 ∧ numSteps 0 2 = 3 :=
  ⟨prepared, rfl, netFits, codeOf, fits, exprs, miscStored, exLine_legal, runs, exLine_arranged, exLine_slots, announced,
    show (0 : Int) ≤ (2 - 0) * 1 by decide, by decide⟩

/-- Storage in which all elements are 1, after which all flags are set. -/
def ones : CState Int := ⟨fun _ _ _ => 1, fun _ _ => true, fun _ _ => true⟩

theorem elem_eq {r : Nat} (hr : r < 2) (s a : Int) : (net.slices slices r).elem exLine.dims 0 s [a] = [s, a] := by
  unfold Slices.elem
  have h : ((net.slices slices r).geo ((net.slices slices r).var 0)).dims.length = 2 := dimsLen r hr
  rw [h]
  simp only [show List.range 2 = [0, 1] from rfl, List.map_cons, List.map_nil, kind_eq hr]
  rfl

/-- There are executions of the steps 0 to 2 from it, and after each, reading `u(3, 20)` on rank 1 gives 27: the values that rank 0 has set
at points 17 to 19 have been used. -/
example : (∃ o, net.RunTo 0 intArith 0 2 ones o) ∧ ∀ o, net.RunTo 0 intArith 0 2 ones o →
    ∃ c', o = .ok c' ∧ readAt (yvar 1).g (c'.mem 1 0) [3, 20] = .ok 27 := by
  refine ⟨C86_executions_exist prepared netFits codeOf fits exprs miscStored exLine_legal runs exLine_arranged exLine_slots announced 0 0 2
    ones, fun o ho => ?_⟩
  obtain ⟨W, h1, h2⟩ := C60_values_exist exLine_legal exLine_arranged exLine_slots (InWhole whole) 0 (fun _ => (1 : Int)) 3
  have hst : OwnStored net exLine slices exLineSz exNetShape W 0 ones := by
    intro r hr v hv s hs x _ _ hin
    obtain ⟨yv, y1, y2⟩ := (codeOf r hr).reach v hv
    obtain ⟨b, _, k2, _⟩ := readAt_eq (by rw [← show yv.g = net.geo r (slices.var v) from y2]; exact y1.ok)
      (show StepsAlloc (net.geo r (slices.var v)).api from alloc r hr) hin (ones.mem r (slices.var v))
    exact k2.trans (congrArg Outcome.ok (stores_val h2 hs x))
  obtain ⟨c', rfl, h3, _⟩ := C86_ranks_partial prepared netFits codeOf fits exprs miscStored exLine_legal runs exLine_arranged exLine_slots announced
    0 (first := 0) (last := 2) (show (0 : Int) ≤ (2 - 0) * 1 by decide) h1 ones hst (fun _ _ _ _ _ _ _ _ _ _ _ h => by cases h) o ho
  refine ⟨c', rfl, ?_⟩
  have h5 := h3 1 (by decide) 0 (by decide) 3 (show ∃ j : Nat, j < 2 ∧ (3 : Int) = 0 + 1 * 3 - 1 * j from ⟨0, by decide, by decide⟩) [20] rfl (by
    intro j hj _
    obtain rfl : j = 0 := by have : j < 1 := hj; omega
    constructor
    · left; show exNetRanks.ofs 1 0 ≤ 20; decide +kernel
    · left; show 20 < exNetRanks.ofs 1 0 + exNetRanks.lsz 1 0; decide +kernel) (by
    show InRangeButStep (yvar 1).g.api _
    rw [api 1 (by decide), elem_eq (by decide)]
    unfold InRangeButStep
    simp [beg, fin])
  rw [elem_eq (by decide)] at h5
  have w0 : ∀ a : Int, W 0 0 [a] = 1 := fun a => (h2.2 0 [a] rfl 0 (by decide)).symm
  have app : ∀ i a : Int, 0 ≤ a → a < 40 → exLineEq.Applies (InWhole whole) (0 + 1 * i) [a] := fun i a ha hb => by
    refine ⟨⟨rfl, fun j hj => ?_⟩, rfl, rfl⟩
    obtain rfl : j = 0 := by have : j < 1 := hj; omega
    exact ⟨ha, hb⟩
  have step : ∀ (i : Nat), i < 3 → ∀ a : Int, 0 ≤ a → a < 40 → W 0 (i + 1) [a] = W 0 i [a - 1] + W 0 i [a] + W 0 i [a + 1] := by
    intro i hi a ha hb
    have h := h1.eq i hi exLineEq (by simp [exLine]) [a] (app i a ha hb)
    have e : ∀ b : Int, 0 + 1 * b = b := fun b => by omega
    rw [show exLine.dir = 1 from rfl, e] at h
    have e1 : W 0 (i + 1) [a] = W 0 (i + 0) [a + -1] + (W 0 (i + 0) [a + 0] + (W 0 (i + 0) [a + 1] + 0)) := h
    rw [e1, Int.add_zero, Int.add_zero, Int.add_zero, ← Int.sub_eq_add_neg]
    omega
  have w1 : ∀ a : Int, 0 ≤ a → a < 40 → W 0 1 [a] = 3 := fun a ha hb => by
    have := step 0 (by decide) a ha hb
    simp only [Nat.cast_zero, zero_add, w0] at this
    simpa using this
  have w2 : ∀ a : Int, 1 ≤ a → a < 39 → W 0 2 [a] = 9 := fun a ha hb => by
    have := step 1 (by decide) a (by omega) (by omega)
    rw [show ((1 : Nat) : Int) = 1 from rfl, w1 _ (by omega) (by omega), w1 _ (by omega) (by omega), w1 _ (by omega) (by omega)] at this
    exact this
  have w3 : W 0 3 [20] = 27 := by
    have := step 2 (by decide) 20 (by omega) (by omega)
    rw [show ((2 : Nat) : Int) = 2 from rfl, w2 _ (by omega) (by omega), w2 _ (by omega) (by omega), w2 _ (by omega) (by omega)] at this
    exact this
  exact h5.trans (congrArg Outcome.ok w3)

end CodeNetExample
end Yask
