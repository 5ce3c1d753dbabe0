import Verif.Var.FuseLemmas
import Verif.Spec.AccessSpec
import Verif.Props.VarAccess

/-!
# C66, C67: layouts of vars and fused vars
-/

namespace Yask
open Spec Var

variable {V : Type}

/-! ### C66 -/

/-- C66: `is_storage_layout_identical()` returns true if and only if the documented conditions hold. -/
theorem C66_layout_iff {C : Classes} {x y : VBase V} (hx : x.In C) (hy : y.In C) : sameLayout true x y = true ↔ SameListed x y := by
  rw [sameLayout_iff true hx.len hy.len]
  have halloc : x.v.g.dims.map (fun d => (d.domain, d.lPad, d.rPad)) = y.v.g.dims.map (fun d => (d.domain, d.lPad, d.rPad)) →
      x.v.g.dims.map DimG.alloc = y.v.g.dims.map DimG.alloc := by
    intro h
    rw [map_eq_iff_getElem] at h ⊢
    refine ⟨h.1, fun i d e h1 h2 => ?_⟩
    have q := h.2 i d e h1 h2
    simp only [Prod.mk.injEq] at q
    rw [(hx.reach.ok.dims d (List.mem_of_getElem? h1)).alloc_eq, (hy.reach.ok.dims e (List.mem_of_getElem? h2)).alloc_eq, q.1, q.2.1, q.2.2]
  unfold SameListed
  constructor
  · rintro ⟨_, hn, hv, hs⟩
    refine ⟨hn, ?_⟩
    have hs := hs rfl
    have ha := halloc hs
    rw [map_eq_iff_getElem] at hv hs ha ⊢
    refine ⟨hv.1, fun i d e h1 h2 => ?_⟩
    have q := hs.2 i d e h1 h2
    simp only [Prod.mk.injEq] at q
    simp only [hv.2 i d e h1 h2, ha.2 i d e h1 h2, q.1, q.2.1, q.2.2]
  · rintro ⟨hn, h⟩
    have hv : x.v.g.dims.map DimG.varVL = y.v.g.dims.map DimG.varVL := by
      have := congrArg (List.map fun (t : Int × Int × Int × Int × Int) => t.1) h
      rw [List.map_map, List.map_map] at this; exact this
    have ha : x.v.g.dims.map DimG.alloc = y.v.g.dims.map DimG.alloc := by
      have := congrArg (List.map fun (t : Int × Int × Int × Int × Int) => t.2.1) h
      rw [List.map_map, List.map_map] at this; exact this
    have hs : x.v.g.dims.map (fun d => (d.domain, d.lPad, d.rPad)) = y.v.g.dims.map (fun d => (d.domain, d.lPad, d.rPad)) := by
      have := congrArg (List.map fun (t : Int × Int × Int × Int × Int) => t.2.2) h
      rw [List.map_map, List.map_map] at this; exact this
    exact ⟨fun _ => (same_storage hx hy hn hv ha).2.1, hn, hv, fun _ => hs⟩

theorem slots_same {C : Classes} {x y : VBase V} (hx : x.In C) (hy : y.In C) (hn : x.names = y.names)
    (hs : x.v.g.dims.map (fun d => (d.domain, d.lPad, d.rPad)) = y.v.g.dims.map (fun d => (d.domain, d.lPad, d.rPad))) {i j : List Int}
    (hi : InRangeButStep x.v.g.api i) (h : SameFromFirst x.v.g.api y.v.g.api i j) :
    InRangeButStep y.v.g.api j ∧ slots x.v.g.dims i = slots y.v.g.dims j := by
  have hk : x.v.g.dims.map DimG.kind = y.v.g.dims.map DimG.kind := by rw [hx.kinds, hy.kinds, hn]
  unfold Geom.api at *
  generalize x.v.g.dims = ds at *
  generalize y.v.g.dims = es at *
  clear hx hy hn
  induction ds generalizing es i j with
  | nil =>
    cases es <;> simp at hk
    cases i <;> cases j <;> simp_all [SameFromFirst, InRangeButStep, slots]
  | cons d ds ih =>
    cases es with
    | nil => simp at hk
    | cons e es =>
      cases i with
      | nil => simp [SameFromFirst] at h
      | cons a i =>
        cases j with
        | nil => simp [SameFromFirst] at h
        | cons b j =>
          simp only [List.map_cons, List.cons.injEq, Prod.mk.injEq] at hk hs
          simp only [List.map_cons, SameFromFirst] at h
          simp only [List.map_cons, InRangeButStep, List.forall₂_cons] at hi
          obtain ⟨r1, r2⟩ := ih (i := i) (j := j) hi.2 es hs.2 h.2 hk.2
          have hke : (d.kind == .step) = (e.kind == .step) := by rw [hk.1]
          have hh := h.1
          have hi1 := hi.1
          obtain ⟨q1, q2, q3⟩ := hs.1
          by_cases hd : e.kind = .step
          · have hd' : d.kind = .step := by rw [hk.1, hd]
            simp only [hd', hd, beq_self_eq_true, if_true] at hh
            subst hh
            refine ⟨List.Forall₂.cons (Or.inl (by simp [hd])) r1, ?_⟩
            simp only [slots, List.zipWith_cons_cons] at r2 ⊢
            rw [r2]
            simp only [DimG.slot, hd, hd', if_true, q1]
          · have hd' : ¬ d.kind = .step := by rw [hk.1]; exact hd
            have hdb : (d.kind == DimKind.step) = false := by simpa using hd'
            simp only [hdb, Bool.false_eq_true, if_false, false_or, DimG.firstLocal, DimG.lastLocal] at hh hi1
            refine ⟨List.Forall₂.cons (Or.inr ?_) r1, ?_⟩
            · simp only [DimG.firstLocal, DimG.lastLocal]
              omega
            · simp only [slots, List.zipWith_cons_cons] at r2 ⊢
              rw [r2]
              simp only [DimG.slot, hd, hd', if_false]
              congr 1
              omega

/-- C66: if the layouts are identical, elements equally far from the first index of each dim are at the same offset in the two
storages. Missing: that the *same* index is at the same offset, which is false if the first indices differ, see `C66_wrong`. -/
theorem C66_same_offset_partial {C : Classes} {x y : VBase V} (hx : x.In C) (hy : y.In C) (h : sameLayout true x y = true)
    (sx : StepsAlloc x.v.g.api) (sy : StepsAlloc y.v.g.api) {i j : List Int} (hi : InRangeButStep x.v.g.api i)
    (hj : SameFromFirst x.v.g.api y.v.g.api i j) :
    InRangeButStep y.v.g.api j ∧ ∃ a, x.v.g.addrOf i = .ok a ∧ y.v.g.addrOf j = .ok a ∧ 0 ≤ a ∧ a < x.v.g.numReals ∧
      x.v.g.numReals = y.v.g.numReals := by
  have hl := (C66_layout_iff hx hy).1 h
  obtain ⟨_, hn, hv, hs⟩ := (sameLayout_iff true hx.len hy.len).1 h
  have ha : x.v.g.dims.map DimG.alloc = y.v.g.dims.map DimG.alloc := by
    have := congrArg (List.map fun (t : Int × Int × Int × Int × Int) => t.2.1) hl.2
    rw [List.map_map, List.map_map] at this; exact this
  obtain ⟨_, h2, _, h4⟩ := same_storage hx hy hn hv ha
  obtain ⟨r1, r2⟩ := slots_same hx hy hn (hs rfl) hi hj
  obtain ⟨a, e1, e2, e3⟩ := C14_address_in_storage x.v hx.reach sx i hi
  refine ⟨r1, a, e1, ?_, e2, e3, h2⟩
  rw [addrOf_eq hy.reach.ok r1 sy, ← r2, ← h4, ← addrOf_eq hx.reach.ok hi sx, e1]

/-- C66: in particular, if the first indices are the same, any index is at the same offset. -/
theorem C66_same_index_partial {C : Classes} {x y : VBase V} (hx : x.In C) (hy : y.In C) (h : sameLayout true x y = true)
    (sx : StepsAlloc x.v.g.api) (sy : StepsAlloc y.v.g.api) (hf : x.v.g.api.map ApiDim.first = y.v.g.api.map ApiDim.first) {i : List Int}
    (hi : InRangeButStep x.v.g.api i) : ∃ a, x.v.g.addrOf i = .ok a ∧ y.v.g.addrOf i = .ok a := by
  have : SameFromFirst x.v.g.api y.v.g.api i i := by
    clear sx sy
    have hi : i.length = x.v.g.api.length := by rw [inRangeButStep_length hi]; simp [Geom.api]
    rename InRangeButStep _ _ => hr
    clear hr
    generalize x.v.g.api = ds at *
    generalize y.v.g.api = es at *
    clear h hx hy
    induction ds generalizing es i with
    | nil => cases es <;> simp_all [SameFromFirst]
    | cons d ds ih =>
      cases es with
      | nil => simp at hf
      | cons e es =>
        cases i with
        | nil => simp at hi
        | cons a i =>
          simp only [List.map_cons, List.cons.injEq] at hf
          refine ⟨by split <;> omega, ih (by simpa using hi) es hf.2⟩
  obtain ⟨_, a, h1, h2, _⟩ := C66_same_offset_partial hx hy h sx sy hi this
  exact ⟨a, h1, h2⟩

/-- Vars with dims t, x, y, m as `exVar` (fold 4 by 2). -/
def exClasses : Classes where
  kind := fun n => if n = "t" then .step else if n = "m" then .misc else .domain
  isVec := fun _ => true
  layout := fun _ => [0, 3, 1, 2]
  foldPosns := fun _ => [1, 2]
  foldLens := fun _ => [4, 2]
  firstInner := true

/-- `exVar` after another setting call. -/
def exBase (n : Int) : VBase Int :=
  ⟨["t", "x", "y", "m"], match runSettings exVar [(3, .firstMisc, n)] with | some v => v | none => exVar, false, false⟩

theorem exBase_in (n : Int) (h : (runSettings exVar [(3, .firstMisc, n)]).isSome = true)
    (h2 : (exBase n).v.g.dims.map DimG.kind = [.step, .domain, .domain, .misc])
    (h3 : ((exBase n).v.g.isVec, (exBase n).v.g.layout, (exBase n).v.g.foldPosns, (exBase n).v.g.foldLens, (exBase n).v.g.foldFirstInner) =
      (true, [0, 3, 1, 2], [1, 2], [4, 2], true)) : (exBase n).In exClasses := by
  obtain ⟨v, hv⟩ := Option.isSome_iff_exists.1 h
  simp only [Prod.mk.injEq] at h3
  refine ⟨?_, h2, h3.1, h3.2.1, h3.2.2.1, h3.2.2.2.1, h3.2.2.2.2⟩
  have : (exBase n).v = v := by simp only [exBase, hv]
  rw [this]
  exact runSettings_reachable exVar_reachable hv

theorem exBase_in0 : (exBase 0).In exClasses := exBase_in 0 (by decide +kernel) (by decide +kernel) (by decide +kernel)
theorem exBase_in1 : (exBase (-1)).In exClasses := exBase_in (-1) (by decide +kernel) (by decide +kernel) (by decide +kernel)

/-- C66 is false for vars with different first indices: index 0 of the misc dim is the first one of one var and the second one of
the other. (The same happens with vars of different rank offsets.) -/
theorem C66_wrong : ∃ x y : VBase Int, x.In exClasses ∧ y.In exClasses ∧ sameLayout true x y = true ∧
    InRangeButStep x.v.g.api [0, 20, 0, 0] ∧ InRangeButStep y.v.g.api [0, 20, 0, 0] ∧
    x.v.g.addrOf [0, 20, 0, 0] ≠ y.v.g.addrOf [0, 20, 0, 0] := by
  refine ⟨exBase 0, exBase (-1), exBase_in0, exBase_in1, by decide +kernel, ?_, ?_, by decide +kernel⟩
  · have : (exBase 0).v.g.api = [⟨true, 0, 2, 3⟩, ⟨false, 12, 35, 24⟩, ⟨false, -6, 7, 14⟩, ⟨false, 0, 1, 2⟩] := by decide +kernel
    simp [this, InRangeButStep]
  · have : (exBase (-1)).v.g.api = [⟨true, 0, 2, 3⟩, ⟨false, 12, 35, 24⟩, ⟨false, -6, 7, 14⟩, ⟨false, -1, 0, 2⟩] := by decide +kernel
    simp [this, InRangeButStep]

-- The hypotheses of the theorems above hold for these vars.
example : StepsAlloc (exBase 0).v.g.api ∧ StepsAlloc (exBase (-1)).v.g.api ∧ SameListed (exBase 0) (exBase (-1)) ∧
    SameFromFirst (exBase 0).v.g.api (exBase (-1)).v.g.api [7, 20, 0, 1] [7, 20, 0, 0] := by
  refine ⟨by unfold StepsAlloc; decide +kernel, by unfold StepsAlloc; decide +kernel, ⟨rfl, by decide +kernel⟩, ?_⟩
  have e0 : (exBase 0).v.g.api = [⟨true, 0, 2, 3⟩, ⟨false, 12, 35, 24⟩, ⟨false, -6, 7, 14⟩, ⟨false, 0, 1, 2⟩] := by decide +kernel
  have e1 : (exBase (-1)).v.g.api = [⟨true, 0, 2, 3⟩, ⟨false, 12, 35, 24⟩, ⟨false, -6, 7, 14⟩, ⟨false, -1, 0, 2⟩] := by decide +kernel
  simp [e0, e1, SameFromFirst]

/-! ### C67 -/

/-- C67: after an accepted `a.fuse_vars(b)`, it makes no difference on which of the two any API is called: the results of any sequence of
calls, and the vars afterwards, are the same. -/
theorem C67_same_var {R : Type} {p p' : Proc V} {a b : Nat} (h : p.fuse a b = .ok p') (cs : List (Nat × (VBase V → VBase V × R)))
    (pick : Nat → (Nat × (VBase V → VBase V × R)) → Bool) (n : Nat) :
    runCalls p' cs = runCalls p' (cs.mapIdx fun i c => if (c.1 = a ∨ c.1 = b) ∧ pick (n + i) c then (if c.1 = a then b else a, c.2) else c) := by
  have hp : p'.ptr a = p'.ptr b := by
    unfold Proc.fuse at h
    split at h
    · cases h
    · cases h
      simp only [Function.update_self]
      by_cases hab : b = a
      · rw [hab, Function.update_self]
      · rw [Function.update_of_ne hab]
  clear h
  induction cs generalizing p' n with
  | nil => rfl
  | cons c cs ih =>
    rw [List.mapIdx_cons]
    have hc : p'.call (if (c.1 = a ∨ c.1 = b) ∧ pick (n + 0) c then (if c.1 = a then b else a, c.2) else c).1
        (if (c.1 = a ∨ c.1 = b) ∧ pick (n + 0) c then (if c.1 = a then b else a, c.2) else c).2 = p'.call c.1 c.2 := by
      split_ifs with h1 h2
      · simp only [Proc.call, Proc.of, h2, hp]
      · rcases h1.1 with h3 | h3
        · exact absurd h3 h2
        · simp only [Proc.call, Proc.of, h3, hp]
      · rfl
    simp only [runCalls]
    rw [hc]
    have := ih (p' := (p'.call c.1 c.2).1) (n + 1) hp
    rw [this]
    simp only [Nat.add_right_comm n 1, Nat.add_assoc]

/-- C67: both then have the data and meta-data that `b` had, and no other handle sees a change of data or meta-data. -/
theorem C67_data {p p' : Proc V} {a b : Nat} (h : p.fuse a b = .ok p') :
    (p'.of a).v = (p.of b).v ∧ (p'.of a).names = (p.of b).names ∧ (p'.of a).fixed = (p.of b).fixed ∧
      ∀ c, c ≠ a → (p'.of c).v = (p.of c).v ∧ (p'.of c).names = (p.of c).names ∧ (p'.of c).fixed = (p.of c).fixed := by
  unfold Proc.fuse at h
  split at h
  · cases h
  · cases h
    have key : ∀ o, let q := (if (p.of a).user then Function.update p.base (p.ptr b) { p.of b with user := false } else p.base) o
        q.v = (p.base o).v ∧ q.names = (p.base o).names ∧ q.fixed = (p.base o).fixed := by
      intro o
      simp only
      split
      · by_cases ho : o = p.ptr b
        · subst ho; rw [Function.update_self]; exact ⟨rfl, rfl, rfl⟩
        · rw [Function.update_of_ne ho]; exact ⟨rfl, rfl, rfl⟩
      · exact ⟨rfl, rfl, rfl⟩
    refine ⟨?_, ?_, ?_, fun c hc => ?_⟩
    · have := (key (p.ptr b)).1
      simpa only [Proc.of, Function.update_self] using this
    · have := (key (p.ptr b)).2.1
      simpa only [Proc.of, Function.update_self] using this
    · have := (key (p.ptr b)).2.2
      simpa only [Proc.of, Function.update_self] using this
    · have := key (p.ptr c)
      simpa only [Proc.of, Function.update_of_ne hc] using this

/-- C67: on a var made by `new_var()`, the call is accepted if and only if names of dims and fold lengths are the same, and throws
otherwise. Missing: vars of the solution, see `C67_incompatible_accepted`. -/
theorem C67_rejects_partial {C : Classes} (p : Proc V) (a b : Nat) (ha : (p.of a).In C) (hb : (p.of b).In C) (hu : (p.of a).user = true) :
    (SameDimsFolds (p.of a) (p.of b) → ∃ p', p.fuse a b = .ok p') ∧ (¬ SameDimsFolds (p.of a) (p.of b) → p.fuse a b = .throws) := by
  have hiff : sameLayout false (p.of a) (p.of b) = true ↔ SameDimsFolds (p.of a) (p.of b) := by
    rw [sameLayout_iff false ha.len hb.len]
    simp [SameDimsFolds]
  unfold Proc.fuse
  rw [hu]
  constructor
  · intro h
    rw [hiff.2 h]
    exact ⟨_, rfl⟩
  · intro h
    have : sameLayout false (p.of a) (p.of b) = false := by
      rw [← Bool.not_eq_true, hiff]; exact h
    rw [this]
    rfl

/-- C67 is false for the vars of the solution: the test of dims and folds is made if `a` is a var made by `new_var()`, instead of if it is
not; a var of the solution is fused with anything. -/
theorem C67_incompatible_accepted (p : Proc V) (a b : Nat) (hu : (p.of a).user = false) : ∃ p', p.fuse a b = .ok p' := by
  unfold Proc.fuse
  rw [hu]
  exact ⟨_, rfl⟩

/-- A var with dims t and x, not folded: step allocation, size, halo. -/
def exFlat (steps size halo : Int) : YVar Int :=
  match (({ dims := [{ kind := .step }, { kind := .domain }], isVec := false, layout := [0, 1] } : Geom).resize false).bind fun g =>
    runSettings (V := Int) ⟨g, none⟩ [(0, .size, steps), (1, .size, size), (1, .halo, halo)] with
  | some v => v
  | none => ⟨{ dims := [], isVec := false, layout := [] }, none⟩

/-- Handle 0: var of the solution with halo 1. Handle 1: var as `new_var()` makes it, with the same dims. Handle 2: fixed-size var made by
the user. Handle 3: var with other dims. -/
def exProc : Proc Int where
  base := fun o => if o = 0 then ⟨["t", "x"], exFlat 2 8 1, false, false⟩ else if o = 1 then ⟨["t", "x"], exFlat 1 8 0, false, true⟩
    else if o = 2 then ⟨["t", "x"], exFlat 2 4 1, true, true⟩ else exBase 0
  handles := 4
  ptr := fun h => h
  core := fun _ => none

/-- A var with two dims is replaced with a folded one with four dims. -/
theorem C67_incompatible_wrong : ∃ p', exProc.fuse 0 3 = .ok p' ∧ ¬ SameDimsFolds (exProc.of 0) (exProc.of 3) ∧
    (exProc.of 0).names = ["t", "x"] ∧ (p'.of 0).names = ["t", "x", "y", "m"] := by
  refine ⟨_, rfl, ?_, rfl, rfl⟩
  rintro ⟨h, _⟩
  exact absurd h (by decide)

/-- One rank with 8 points in mega-blocks of 4, two steps each. -/
def exFuseCfg : RunCfg where
  nd := 1
  dim := fun _ => ⟨1, 0, 0, 8, 4, 4, 4, 1, true, true, 0, 0⟩
  nst := 1
  megaSteps := 2
  blockSteps := 0
  roundTb := true
  overlap := false
  stageBB := fun _ _ => (0, 8)
  nparts := fun _ => 1
  dom := fun _ _ _ => true
  stepOk := fun _ _ _ => true

/-- Outcome of fusing handle 0 with `b` and of `update_var_info`: largest halo, angle, API of handle 0, and the address of an index. -/
def exFused (b : Nat) (idx : List Int) : Option (Int × Int × List ApiDim × Outcome Int × Int) :=
  match exProc.fuse 0 b with
  | .ok p => (updateVarInfo exFuseCfg (fun _ => 0) (fun _ => 0) true [p.kvar ["x"] true 0, p.kvar ["x"] false b]).bind fun r =>
      (r.2.head?).map fun k => ((r.1.dim 0).maxHalo, r.1.wfAngle 0, k.v.g.api, k.v.g.addrOf idx, k.v.g.numReals)
  | _ => none

/-- C67: the halo of a var of the solution is lost when it is fused with a var that `new_var()` made for the same dims. Without fusing, the
read at offset -1 of the first point is in the storage (address 0 of 20), the largest halo and the wave-front angle are 1. After fusing it
is outside of the storage (address -1), and halo and angle are 0; `prepare_solution()` accepts this. -/
theorem C67_halo_lost : exFused 0 [0, -1] = some (1, 1, [⟨true, 0, 1, 2⟩, ⟨false, -1, 8, 10⟩], .ok 0, 20) ∧
    exFused 1 [0, -1] = some (0, 0, [⟨true, 0, 0, 1⟩, ⟨false, 0, 7, 8⟩], .ok (-1), 8) := by
  constructor <;> decide +kernel

/-- C67: a fixed-size var that is too small for the solution is accepted, too; its size remains 4 and point 6 of step 1 is outside of
its storage. -/
theorem C67_fixed_size_wrong : exFused 2 [1, 6] = some (0, 0, [⟨true, 0, 1, 2⟩, ⟨false, -1, 4, 6⟩], .ok 13, 12) := by decide +kernel

theorem kernelRead_core {p : Proc V} {h o : Nat} (hc : p.core h = some o) {idx : List Int} : p.kernelRead h idx =
    if p.live o = true then (match (p.base o).v.mem with
      | none => .undefined
      | some m => do
        let a ← (p.base o).v.g.addrOf idx
        rdMem (p.base o).v.g m a) else .undefined := by
  unfold Proc.kernelRead; rw [hc]; rfl

/-- C67: fused before `prepare_solution()`, the kernels read the elements of `b` for `a`. -/
theorem C67_before_prepare {p p' : Proc V} {a b : Nat} (h : p.fuse a b = .ok p') (ha : a < p.handles) (idx : List Int) (m : Int → V)
    (hm : (p.of b).v.mem = some m) :
    p'.setCore.kernelRead a idx = (do let x ← (p.of b).v.g.addrOf idx; rdMem (p.of b).v.g m x) := by
  obtain ⟨h1, _⟩ := C67_data h
  have hh : p'.handles = p.handles := by
    unfold Proc.fuse at h
    split at h
    · cases h
    · cases h; rfl
  have hlive : p'.setCore.live (p'.ptr a) = true := by
    unfold Proc.live
    rw [List.any_eq_true]
    exact ⟨a, List.mem_range.2 (by show a < p'.handles; omega), by simp [Proc.setCore]⟩
  have h1' : (p'.setCore.base (p'.ptr a)).v = (p.of b).v := h1
  rw [kernelRead_core rfl, if_pos hlive, h1', hm]

/-- C67: fused after `prepare_solution()`, a run reads core data that no longer exists. -/
theorem C67_after_prepare_undefined {p p' : Proc V} {a b : Nat} (h : p.setCore.fuse a b = .ok p') (hb : p.ptr b ≠ p.ptr a)
    (ho : ∀ c < p.handles, c ≠ a → p.ptr c ≠ p.ptr a) (idx : List Int) : p'.kernelRead a idx = .undefined := by
  unfold Proc.fuse at h
  split at h
  · cases h
  · cases h
    rw [kernelRead_core (o := p.ptr a) rfl, if_neg]
    unfold Proc.live
    rw [List.any_eq_true]
    rintro ⟨c, hc, e⟩
    simp only [beq_iff_eq, Proc.setCore] at e
    by_cases hca : c = a
    · subst hca
      rw [Function.update_self] at e
      exact hb e
    · rw [Function.update_of_ne hca] at e
      exact ho c (List.mem_range.1 hc) hca e

-- The hypotheses hold for the vars above: fusing a user's var with another one of the same or of other dims, and a var of the solution.
example : (∃ p', exProc.fuse 1 2 = .ok p') ∧ exProc.fuse 1 3 = .throws ∧ (∃ p', exProc.fuse 0 1 = .ok p') ∧
    (∃ p', exProc.setCore.fuse 0 1 = .ok p' ∧ p'.kernelRead 0 [0, 3] = .undefined) := by
  refine ⟨?_, ?_, ⟨_, rfl⟩, ?_⟩
  · have : sameLayout false (exProc.of 1) (exProc.of 2) = true := by decide +kernel
    unfold Proc.fuse; rw [this]; exact ⟨_, rfl⟩
  · have : sameLayout false (exProc.of 1) (exProc.of 3) = false := by decide +kernel
    unfold Proc.fuse; rw [this]; rfl
  · obtain ⟨p', h⟩ := C67_incompatible_accepted exProc.setCore 0 1 rfl
    exact ⟨p', h, C67_after_prepare_undefined h (by decide) (by decide) _⟩

end Yask
