import Verif.Compiler.PtrElem
import Verif.Props.VecSlice

/-!
# C63, C64: the elements accessed by the generated inner loop

C63: however the code is generated (with or without pointers, offsets, many pointers, fixed strides, buffers of any length), in every
iteration of the inner loop an aligned read gets the elements of the var that the point in the equation means, and a write is to the
elements that the point means.

C64: unaligned loads (`-allow-unaligned-loads`).
-/

namespace Yask
open Spec Var Comp

variable {V : Type}

/-- Load of a vector: lane number `j` of vector `a` of the storage. -/
def loadVec (g : Geom) (m : Int → V) (a : Int) : Int → V := fun j => m (a * g.elemReals + j)

/-- The setting of the inner loop: the kernel's var is what the compiler has assumed; the loop starts at the vector `idx` (with step
index `idx[0]` if the var has a step dim); the step slots are those computed by the generated code; the reads and writes of the
equations have whole vectors as offsets. -/
structure LoopOk (yv : YVar V) (v : CVar) (o : PtrOpts) (dyn : Bool) (alloc : Int) (slot : Int → Int) (idx : List Int)
    (pts : List PtArgs) : Prop where
  reach : Reachable yv
  steps : StepsAlloc yv.g.api
  misc : NoMiscOffset yv.g
  var : v.Of o yv.g
  lenEq : idx.length = yv.g.dims.length
  /-- a fixed step allocation is the one of the var -/
  allocEq : dyn = true ∨ alloc = yv.g.stepSize
  slots : ∀ s, stepSlot yv.g dyn alloc (idx.getD 0 0 + s) = .ok (slot s)
  whole : ∀ p ∈ pts, WholeVecs (yv.g.dims.map accessDim) p

/-- Vector `idx` moved along the loop dim. -/
def moved (v : CVar) (idx : List Int) (n : Nat) : List Int := idx.set v.loopPosn (idx.getD v.loopPosn 0 + n)

theorem LoopOk.slotEq {yv : YVar V} {v : CVar} {o : PtrOpts} {dyn : Bool} {alloc : Int} {slot : Int → Int} {idx : List Int}
    {pts : List PtArgs} (h : LoopOk yv v o dyn alloc slot idx pts) (n : Nat) (s : Int) (hs : yv.g.hasStep = true) :
    slot s = imodFlr ((moved v idx n).getD 0 0 + s) yv.g.stepSize := by
  have h0 : (moved v idx n).getD 0 0 = idx.getD 0 0 := by
    have hne : v.loopPosn ≠ 0 := by
      intro e
      have h1 := h.var.loop
      rw [e] at h1
      unfold Geom.hasStep at hs
      unfold dimAt at h1
      cases hd : yv.g.dims with
      | nil => rw [hd] at h1; simp at h1
      | cons d ds =>
        rw [hd] at h1 hs
        simp only [List.getD, List.getElem?_cons_zero, Option.getD_some, beq_iff_eq] at h1 hs
        rw [hs] at h1
        exact absurd h1.2 (by decide)
    unfold moved
    simp only [List.getD]; rw [List.getElem?_set_ne hne]
  have h1 := h.slots s
  rw [h0]
  unfold stepSlot at h1
  rw [if_pos hs] at h1
  cases hd : dyn with
  | true =>
    rw [hd] at h1
    simp only [if_true, Geom.wrapStep] at h1
    by_cases hz : yv.g.stepSize = 0
    · rw [if_pos hz] at h1; cases h1
    · rw [if_neg hz] at h1
      exact (Outcome.ok.inj h1).symm
  | false =>
    rw [hd] at h1
    have ha : alloc = yv.g.stepSize := by
      rcases h.allocEq with h2 | h2
      · rw [hd] at h2; cases h2
      · exact h2
    simp only [Bool.false_eq_true, if_false] at h1
    by_cases h2 : alloc = 1
    · rw [if_pos h2] at h1
      rw [← ha, h2, imodFlr_eq _ _ (by decide), Int.emod_one]
      exact (Outcome.ok.inj h1).symm
    · rw [if_neg h2] at h1
      rw [← ha]
      exact (Outcome.ok.inj h1).symm

theorem LoopOk.elem {yv : YVar V} {v : CVar} {o : PtrOpts} {dyn : Bool} {alloc : Int} {slot : Int → Int} {idx : List Int}
    {pts : List PtArgs} (h : LoopOk yv v o dyn alloc slot idx pts) {p : PtArgs} (hp : p ∈ pts) (n : Nat) {l : List Int}
    (hl : IsLane (yv.g.dims.map accessDim) l)
    (hr : InRangeButStep yv.g.api (pointElem (yv.g.dims.map accessDim) (moved v idx n) p l)) :
    yv.g.addrOf (pointElem (yv.g.dims.map accessDim) (moved v idx n) p l) =
      .ok (v.callAddr yv.g slot (moved v idx n) p * yv.g.elemReals + laneNo yv.g l) :=
  addrOf_elem h.var h.reach.ok h.steps h.misc (by unfold moved; simpa using h.lenEq) (h.whole p hp) hl
    (fun hs => h.slotEq n _ hs) hr

theorem LoopOk.reads {yv : YVar V} {v : CVar} {o : PtrOpts} {dyn : Bool} {alloc : Int} {slot : Int → Int} {idx : List Int}
    {reads writes : List PtArgs} (h : LoopOk yv v o dyn alloc slot idx (reads ++ writes)) : ReadsOk v yv.g reads := by
  intro p hp
  have h1 := h.whole p (by simp [hp])
  have hpl : p.length = yv.g.dims.length := by rw [h1.1]; simp
  refine ⟨hpl, ?_⟩
  have hk := h.var.loop.1
  have h2 := h1.2 (accessDim (dimAt yv.g v.loopPosn), p.getD v.loopPosn 0) (by
    rw [List.mem_iff_getElem]
    refine ⟨v.loopPosn, by simp; omega, ?_⟩
    simp [dimAt_eq hk, List.getD, hpl, hk])
  simp only [accessDim, h.var.loop.2] at h2
  rw [h.var.fold _ hk h.var.loop.2]
  exact h2

theorem LoopOk.fold {yv : YVar V} {v : CVar} {o : PtrOpts} {dyn : Bool} {alloc : Int} {slot : Int → Int} {idx : List Int}
    {pts : List PtArgs} (h : LoopOk yv v o dyn alloc slot idx pts) : (v.dim v.loopPosn).fold ≠ 0 := by
  have hk := h.var.loop.1
  rw [h.var.fold _ hk h.var.loop.2, dimAt_eq hk]
  have := (h.reach.ok.dims _ (List.getElem_mem hk)).vvl_pos
  omega

/-- C63, reads: in iteration `n`, the value of a read point is defined. Its lane `l` is a value that the element meant by the
point had in some iteration up to this one (`m k` is the memory in iteration `k`); it is the present value if the element is not changed
during the loop. -/
theorem C63_read (yv : YVar V) (v : CVar) (o : PtrOpts) (dyn : Bool) (alloc : Int) (slot : Int → Int) (idx : List Int)
    (reads writes : List PtArgs) (h : LoopOk yv v o dyn alloc slot idx (reads ++ writes)) (m : Nat → Int → V) (n : Nat)
    (p : PtArgs) (hp : p ∈ reads) :
    ∃ w, v.read o yv.g slot reads (loadVec yv.g (m n))
        (v.stAt o yv.g slot reads writes (fun k => loadVec yv.g (m k)) idx n) p = .ok w ∧
      ∀ l, IsLane (yv.g.dims.map accessDim) l →
        InRangeButStep yv.g.api (pointElem (yv.g.dims.map accessDim) (moved v idx n) p l) →
        ∃ a, yv.g.addrOf (pointElem (yv.g.dims.map accessDim) (moved v idx n) p l) = .ok a ∧
          (∃ k ≤ n, w (laneNo yv.g l) = m k a) ∧
          ((∀ k ≤ n, m k a = m n a) → w (laneNo yv.g l) = m n a) := by
  obtain ⟨h1, h2, h3⟩ := stAt_ok slot reads writes h.var h.reach.ok.layoutPerm (mem := fun k => loadVec yv.g (m k)) h.lenEq h.reads
    h.fold n
  obtain ⟨d, hd, _⟩ := read_eq slot reads h.var h.reach.ok.layoutPerm (n := n) h.reads h2 h3 hp
  refine ⟨_, hd, ?_⟩
  intro l hl hr
  refine ⟨_, h.elem (by simp [hp]) n hl hr, ⟨n - d, Nat.sub_le _ _, ?_⟩, ?_⟩
  · rw [h1]; rfl
  · intro hc
    rw [h1]
    exact hc (n - d) (Nat.sub_le _ _)

/-- C63, age of buffered values: a value is read from a buffer only if another point reads a vector further along the loop, and it is
not older than the number of iterations since that point has read it. -/
theorem C63_age (yv : YVar V) (v : CVar) (o : PtrOpts) (dyn : Bool) (alloc : Int) (slot : Int → Int) (idx : List Int)
    (reads writes : List PtArgs) (h : LoopOk yv v o dyn alloc slot idx (reads ++ writes)) (m : Nat → Int → V) (n : Nat)
    (p : PtArgs) (hp : p ∈ reads) (q : PtArgs) (hq : q ∈ reads) (hk : q.set v.loopPosn 0 = p.set v.loopPosn 0)
    (hmax : ∀ q' ∈ reads, q'.set v.loopPosn 0 = p.set v.loopPosn 0 → q'.getD v.loopPosn 0 ≤ q.getD v.loopPosn 0) :
    ∃ d : Nat, d * (v.dim v.loopPosn).fold ≤ q.getD v.loopPosn 0 - p.getD v.loopPosn 0 ∧
      ∃ w, v.read o yv.g slot reads (loadVec yv.g (m n))
        (v.stAt o yv.g slot reads writes (fun k => loadVec yv.g (m k)) idx n) p = .ok w ∧
      ∀ l, IsLane (yv.g.dims.map accessDim) l →
        InRangeButStep yv.g.api (pointElem (yv.g.dims.map accessDim) (moved v idx n) p l) →
        ∃ a, yv.g.addrOf (pointElem (yv.g.dims.map accessDim) (moved v idx n) p l) = .ok a ∧ w (laneNo yv.g l) = m (n - d) a := by
  obtain ⟨h1, h2, h3⟩ := stAt_ok slot reads writes h.var h.reach.ok.layoutPerm (mem := fun k => loadVec yv.g (m k)) h.lenEq h.reads
    h.fold n
  obtain ⟨d, hd, hage⟩ := read_eq slot reads h.var h.reach.ok.layoutPerm (n := n) h.reads h2 h3 hp
  have hpos : 0 < (v.dim v.loopPosn).fold := by
    have hk := h.var.loop.1
    rw [h.var.fold _ hk h.var.loop.2, dimAt_eq hk]
    exact (h.reach.ok.dims _ (List.getElem_mem hk)).vvl_pos
  have hmul : ∀ x ∈ reads, v.vofs x * (v.dim v.loopPosn).fold = x.getD v.loopPosn 0 := fun x hx =>
    tdiv_mul_of_dvd (h.reads x hx).2
  have hle := hage q hq hk (by
    intro q' hq' hk'
    have h5 := hmax q' hq' hk'
    rw [← hmul q' hq', ← hmul q hq] at h5
    exact le_of_mul_le_mul_right h5 hpos)
  refine ⟨d, ?_, _, hd, ?_⟩
  · rw [← hmul p hp, ← hmul q hq, ← Int.sub_mul]
    exact Int.mul_le_mul_of_nonneg_right hle (le_of_lt hpos)
  · intro l hl hr
    refine ⟨_, h.elem (by simp [hp]) n hl hr, ?_⟩
    rw [h1]; rfl

/-- C63, writes: in iteration `n`, the vector at the address used for a point has the element that the point means for each lane. -/
theorem C63_write (yv : YVar V) (v : CVar) (o : PtrOpts) (dyn : Bool) (alloc : Int) (slot : Int → Int) (idx : List Int)
    (reads writes : List PtArgs) (h : LoopOk yv v o dyn alloc slot idx (reads ++ writes)) (m : Nat → Int → V) (n : Nat)
    (p : PtArgs) (hp : p ∈ writes) (l : List Int) (hl : IsLane (yv.g.dims.map accessDim) l)
    (hr : InRangeButStep yv.g.api (pointElem (yv.g.dims.map accessDim) (moved v idx n) p l)) :
    yv.g.addrOf (pointElem (yv.g.dims.map accessDim) (moved v idx n) p l) =
      .ok (v.addr o yv.g slot (v.stAt o yv.g slot reads writes (fun k => loadVec yv.g (m k)) idx n) p * yv.g.elemReals +
        laneNo yv.g l) := by
  obtain ⟨h1, h2, _⟩ := stAt_ok slot reads writes h.var h.reach.ok.layoutPerm (mem := fun k => loadVec yv.g (m k)) h.lenEq h.reads
    h.fold n
  rw [addr_eq slot h.var h.reach.ok.layoutPerm h2, h1]
  exact h.elem (by simp [hp]) n hl hr

/-! ### An example: a var with dims `t`, `x` (folded by 4), `y` (folded by 2) and a misc dim with indices -1 and 0, stored as inner dim. -/

namespace PtrExample

def geom0 : Geom where
  dims := [{ kind := .step }, { kind := .domain, solnVL := 4, varVL := 4 },
    { kind := .domain, solnVL := 2, varVL := 2, isInner := true }, { kind := .misc }]
  isVec := true
  layout := [0, 1, 2, 3]
  foldPosns := [1, 2]
  foldLens := [4, 2]
  vlenGt1 := true
  allowAddlPad := true

def calls : List (Nat × Setting × Int) :=
  [(0, .size, 3), (1, .size, 10), (2, .size, 9), (3, .size, 2), (1, .halo, 4), (2, .halo, 4), (1, .rankOfs, 20), (3, .localOfs, -1)]

def yvar : YVar Int :=
  match (geom0.resize false).bind fun g => runSettings (V := Int) ⟨g, none⟩ calls with
  | some v => { v with mem := some fun _ => 0 }
  | none => ⟨geom0, none⟩

theorem geom0_constructed : geom0.Constructed where
  stepFirst := by decide
  fresh := by
    intro d hd
    simp only [geom0, List.mem_cons, List.not_mem_nil, or_false] at hd
    rcases hd with rfl | rfl | rfl | rfl
    · exact ⟨.step, 1, 1, false, rfl⟩
    · exact ⟨.domain, 4, 4, false, rfl⟩
    · exact ⟨.domain, 2, 2, true, rfl⟩
    · exact ⟨.misc, 1, 1, false, rfl⟩
  vlPos := by decide
  vlDomain := by decide
  vlVar := by decide
  noDirty := rfl
  layoutPerm := by decide
  foldNodup := by decide
  foldLens := by decide
  foldAll := by
    intro _ j
    rcases j with _ | _ | _ | _ | j
    · decide
    · decide
    · decide
    · decide
    · simp [geom0]
  foldNone := by decide

theorem yvar_reachable : Reachable yvar := by
  have h1 : (geom0.resize false).isSome = true := by decide +kernel
  obtain ⟨g, hg⟩ := Option.isSome_iff_exists.1 h1
  have h2 : ((geom0.resize false).bind fun g => runSettings (V := Int) ⟨g, none⟩ calls).isSome = true := by decide +kernel
  obtain ⟨v, hv⟩ := Option.isSome_iff_exists.1 h2
  have hr : runSettings (V := Int) ⟨g, none⟩ calls = some v := by
    rw [hg] at hv; simpa using hv
  have : yvar = { v with mem := some fun _ => 0 } := by
    unfold yvar; rw [hv]
  rw [this]
  exact Reachable.storage v _ (runSettings_reachable (Reachable.construct _ g geom0_constructed hg) hr)

/-- The var in the compiler; the inner loop and the inner layout dim are `y`. -/
def cvar : CVar where
  dims := [⟨.step, 1, 0, 0⟩, ⟨.domain, 4, 0, 0⟩, ⟨.domain, 2, 0, 0⟩, ⟨.misc, 1, -1, 0⟩]
  layout := [0, 1, 2, 3]
  scratch := false
  loopPosn := 2
  layoutPosn := 2

def opts : PtrOpts := ⟨true, false, false, true, 1⟩

/-- Reads `A(t, x, y-2, -1)`, `A(t, x, y+4, -1)`, `A(t, x, y, -1)`, `A(t-1, x-4, y, 0)`; write `A(t+1, x, y, 0)`. -/
def reads : List PtArgs := [[0, 0, -2, -1], [0, 0, 4, -1], [0, 0, 0, -1], [-1, -4, 0, 0]]
def writes : List PtArgs := [[1, 0, 0, 0]]

/-- Step 7, first vector of the rank. -/
def idx : List Int := [7, 0, 0, 0]

def slot (s : Int) : Int := imodFlr (7 + s) 3

theorem loopOk (o : PtrOpts) : LoopOk yvar cvar o false 3 slot idx (reads ++ writes) where
  reach := yvar_reachable
  steps := by unfold StepsAlloc; decide +kernel
  misc := by unfold NoMiscOffset; decide +kernel
  var := by
    refine ⟨by decide +kernel, by decide +kernel, by decide +kernel, by decide +kernel, by decide +kernel, fun _ => by decide +kernel, ?_⟩
    decide +kernel
  lenEq := by decide +kernel
  allocEq := by decide +kernel
  slots := by
    intro s
    have h : yvar.g.hasStep = true := by decide +kernel
    unfold stepSlot
    rw [if_pos h]
    simp [slot, idx]
  whole := by
    intro p hp
    simp only [reads, writes, List.cons_append, List.nil_append, List.mem_cons, List.not_mem_nil, or_false] at hp
    have hd : yvar.g.dims.map accessDim = [.step, .domain 4 20, .domain 2 0, .misc] := by
      have h2 : yvar.g.dims.map (fun d => (d.kind, d.varVL, d.rankOfs)) =
          [(.step, 1, 0), (.domain, 4, 20), (.domain, 2, 0), (.misc, 1, 0)] := by decide +kernel
      have h3 : yvar.g.dims.map accessDim = (yvar.g.dims.map (fun d => (d.kind, d.varVL, d.rankOfs))).map
          fun x => match x.1 with | .step => AccessDim.step | .domain => .domain x.2.1 x.2.2 | .misc => .misc := by
        rw [List.map_map]; rfl
      rw [h3, h2]; rfl
    rw [hd]
    unfold WholeVecs
    rcases hp with rfl | rfl | rfl | rfl | rfl <;> simp <;> omega

/-- The strides of `y` and of the misc dim are known to the compiler, the one of `x` is not; there is one buffer of 3 vectors. -/
example : (List.range 4).map (cvar.fixedStride opts) = [none, none, some 2, some 1] := by decide +kernel

example : (cvar.stats opts reads [0, 0, 0, -1]).map (fun s => (s.lo, s.hi, s.len)) = some (-1, 2, some 3) := by decide +kernel

/-- In iteration 3, `A(t, x, y-2, -1)` is read from the buffer: the value of memory in iteration 0; lane (3, 1) is the element
`A(7, 23, 5, -1)`. -/
example : (match cvar.read opts yvar.g slot reads (loadVec yvar.g fun a => (3, a))
      (cvar.stAt opts yvar.g slot reads writes (fun k => loadVec yvar.g fun a => (k, a)) idx 3) [0, 0, -2, -1] with
    | .ok w => some (w (laneNo yvar.g [0, 3, 1, 0]))
    | _ => none) = (match yvar.g.addrOf [7, 23, 5, -1] with | .ok a => some (0, a) | _ => none) ∧
    pointElem (yvar.g.dims.map accessDim) (moved cvar idx 3) [0, 0, -2, -1] [0, 3, 1, 0] = [7, 23, 5, -1] := by decide +kernel

/-- These elements are in range. -/
example : InRangeButStep yvar.g.api [7, 23, 5, -1] := by
  have : yvar.g.api = [⟨true, 0, 2, 3⟩, ⟨false, 12, 39, 28⟩, ⟨false, -6, 15, 22⟩, ⟨false, -1, 0, 2⟩] := by decide +kernel
  rw [this]
  unfold InRangeButStep
  simp

end PtrExample

/-! ### C64 -/

/-- C64, what unaligned loads rely on: if one dim is folded, and it is the last one of the layout, then elements that follow each
other along that dim also do so in memory, across the ends of vectors. -/
theorem C64_consecutive_partial (yv : YVar V) (hr : Reachable yv) (hs : StepsAlloc yv.g.api) (k : Nat) (hf : yv.g.foldPosns = [k])
    (pre : List Nat) (hlay : yv.g.layout = pre ++ [k]) (x : List Int) (hx : InRangeButStep yv.g.api x) (l : Int)
    (hx' : InRangeButStep yv.g.api (x.set k (x.getD k 0 + l))) :
    ∃ a, yv.g.addrOf x = .ok a ∧ yv.g.addrOf (x.set k (x.getD k 0 + l)) = .ok (a + l) := by
  have hok := hr.ok
  have hxl := inRangeButStep_length hx
  have hk : k < yv.g.dims.length := foldPosn_lt hok (by rw [hf]; simp)
  have hvec : yv.g.isVec = true := by
    cases hb : yv.g.isVec with
    | true => rfl
    | false => have := hok.foldNone hb; rw [hf] at this; cases this
  have hdk := hok.dims _ (List.getElem_mem hk)
  have hvl := hdk.vvl_pos
  have hlens : yv.g.foldLens = [(yv.g.dims[k]).varVL] := by
    rw [hok.foldLens, hf]; simp [List.getD, hk]
  have hkind : (yv.g.dims[k]).kind ≠ .step := by
    intro h
    have h1 := hdk.nd_svl (by rw [h]; decide)
    have h2 := (hok.foldAll hvec k).1 (by rw [hf]; simp)
    apply h2.2
    simp [List.getD, hk, hdk.vvl, h1]
  have hreals : yv.g.elemReals = (yv.g.dims[k]).varVL := by
    unfold Geom.elemReals; rw [hvec, if_pos rfl, hlens]; rfl
  have hnd : yv.g.layout.Nodup := hok.layoutPerm.nodup_iff.2 List.nodup_range
  have hnp : k ∉ pre := by
    rw [hlay] at hnd
    intro h
    exact (List.nodup_append.1 hnd).2.2 k h k (by simp) rfl
  have hwt : wt yv.g.layout yv.g.vecAllocs k = 1 := by
    unfold wt
    have : (pre ++ [k]).dropWhile (· ≠ k) = [k] := by
      rw [List.dropWhile_append_of_pos]
      · simp
      · intro a ha
        simp only [ne_eq, decide_eq_true_eq]
        intro e; exact hnp (e ▸ ha)
    rw [hlay, this]; rfl
  -- address from slots
  have haddr : ∀ s : List Int, s.length = yv.g.dims.length → yv.g.addrOfSlots s =
      (pre.map fun j => (vecIdxOf yv.g.dims s).getD j 0 * wt yv.g.layout yv.g.vecAllocs j).sum * (yv.g.dims[k]).varVL +
        s.getD k 0 := by
    intro s hsl
    unfold Geom.addrOfSlots
    have h1 : layoutPerm yv.g.foldPerm yv.g.foldLens (yv.g.foldPosns.map fun j => (vecOfsOf yv.g.dims s).getD j 0) =
        s.getD k 0 % (yv.g.dims[k]).varVL := by
      have hp : yv.g.foldPerm = [0] := by unfold Geom.foldPerm; rw [hlens]; simp [List.range_succ]
      rw [hp, hlens, hf]
      simp [layoutPerm, gather, layoutSum, prodVals, vecOfsOf, List.getD, hk, hsl]
    rw [h1, layoutPerm_linear hnd, hreals]
    have hq : (vecIdxOf yv.g.dims s).getD k 0 = s.getD k 0 / (yv.g.dims[k]).varVL := by
      simp [vecIdxOf, List.getD, hk, hsl]
    have hsum : (yv.g.layout.map fun j => (vecIdxOf yv.g.dims s).getD j 0 * wt yv.g.layout yv.g.vecAllocs j).sum =
        (pre.map fun j => (vecIdxOf yv.g.dims s).getD j 0 * wt yv.g.layout yv.g.vecAllocs j).sum +
          s.getD k 0 / (yv.g.dims[k]).varVL := by
      conv_lhs => rw [show yv.g.layout.map (fun j => (vecIdxOf yv.g.dims s).getD j 0 * wt yv.g.layout yv.g.vecAllocs j) =
        (pre ++ [k]).map (fun j => (vecIdxOf yv.g.dims s).getD j 0 * wt yv.g.layout yv.g.vecAllocs j) by rw [← hlay]]
      rw [List.map_append, List.sum_append, List.map_singleton, List.sum_singleton, hwt, hq, mul_one]
    rw [hsum, add_mul, add_assoc]
    congr 1
    have := Int.mul_ediv_add_emod (s.getD k 0) (yv.g.dims[k]).varVL
    rw [mul_comm]; exact this
  have hsl : (slots yv.g.dims x).length = yv.g.dims.length := by unfold slots; simp [hxl]
  have hsl' : (slots yv.g.dims (x.set k (x.getD k 0 + l))).length = yv.g.dims.length := by unfold slots; simp [hxl]
  refine ⟨_, addrOf_eq hok hx hs, ?_⟩
  rw [addrOf_eq hok hx' hs, haddr _ hsl, haddr _ hsl', add_assoc]
  have hother : ∀ j, j ≠ k → (slots yv.g.dims (x.set k (x.getD k 0 + l)))[j]? = (slots yv.g.dims x)[j]? := by
    intro j hj
    unfold slots
    simp only [List.getElem?_zipWith]
    rw [List.getElem?_set_ne (Ne.symm hj)]
  congr 1
  congr 1
  · congr 2
    apply List.map_congr_left
    intro j hj
    have hjk : j ≠ k := fun e => hnp (e ▸ hj)
    congr 1
    have h5 := hother j hjk
    simp only [List.getD] at h5
    simp only [vecIdxOf, List.getD, List.getElem?_zipWith, h5]
  · unfold slots
    simp [List.getD, hk, hxl, DimG.slot, hkind]
    ring

namespace UnalignedExample

/-- A var with one dim, folded by 4. -/
def geom0 : Geom where
  dims := [{ kind := .domain, solnVL := 4, varVL := 4, isInner := true }]
  isVec := true
  layout := [0]
  foldPosns := [0]
  foldLens := [4]
  vlenGt1 := true

def calls : List (Nat × Setting × Int) := [(0, .size, 16), (0, .halo, 1)]

def yvar : YVar Int :=
  match (geom0.resize false).bind fun g => runSettings (V := Int) ⟨g, none⟩ calls with
  | some v => { v with mem := some fun _ => 0 }
  | none => ⟨geom0, none⟩

theorem geom0_constructed : geom0.Constructed where
  stepFirst := by decide
  fresh := by
    intro d hd
    simp only [geom0, List.mem_cons, List.not_mem_nil, or_false] at hd
    rcases hd with rfl
    exact ⟨.domain, 4, 4, true, rfl⟩
  vlPos := by decide
  vlDomain := by decide
  vlVar := by decide
  noDirty := rfl
  layoutPerm := by decide
  foldNodup := by decide
  foldLens := by decide
  foldAll := by
    intro _ j
    rcases j with _ | j
    · decide
    · simp [geom0]
  foldNone := by decide

theorem yvar_reachable : Reachable yvar := by
  have h1 : (geom0.resize false).isSome = true := by decide +kernel
  obtain ⟨g, hg⟩ := Option.isSome_iff_exists.1 h1
  have h2 : ((geom0.resize false).bind fun g => runSettings (V := Int) ⟨g, none⟩ calls).isSome = true := by decide +kernel
  obtain ⟨v, hv⟩ := Option.isSome_iff_exists.1 h2
  have hr : runSettings (V := Int) ⟨g, none⟩ calls = some v := by
    rw [hg] at hv; simpa using hv
  have : yvar = { v with mem := some fun _ => 0 } := by
    unfold yvar; rw [hv]
  rw [this]
  exact Reachable.storage v _ (runSettings_reachable (Reachable.construct _ g geom0_constructed hg) hr)

def cvar : CVar where
  dims := [⟨.domain, 4, 0, 0⟩]
  layout := [0]
  scratch := false
  loopPosn := 0
  layoutPosn := 0

theorem api : yvar.g.api = [⟨false, -8, 23, 32⟩] := by decide +kernel

/-- The hypotheses of `C64_consecutive_partial`: elements 3 and 5. -/
example : ∃ a, yvar.g.addrOf [3] = .ok a ∧ yvar.g.addrOf [5] = .ok (a + 2) :=
  C64_consecutive_partial yvar yvar_reachable (by rw [api]; unfold StepsAlloc; simp) 0 (by decide +kernel) [] (by decide +kernel) [3]
    (by rw [api]; unfold InRangeButStep; simp) 2 (by rw [api]; unfold InRangeButStep; simp)

end UnalignedExample

/-- C64 does not hold: the compiler stops at an assertion, or (if it was built without them) the address of an unaligned load is not
that of the elements of the point. In the example, `A(x+1)` in vector 2 of the rank should begin with element 9; what is loaded begins
with element 3. -/
theorem C64_wrong : ∃ (yv : YVar Int) (v : CVar) (o : PtrOpts), Reachable yv ∧ v.Of o yv.g ∧ yv.g.foldPosns = [0] ∧
    yv.g.layout = [0] ∧
    (∀ l ∈ [0, 1, 2, 3], InRangeButStep yv.g.api (pointElem (yv.g.dims.map accessDim) [2] [1] [l])) ∧
    (∀ slot idx p, v.unalignedAddr yv.g slot true idx p = .throws) ∧
    ∀ slot, v.unalignedAddr yv.g slot false [2] [1] = yv.g.addrOf [3] ∧
      v.unalignedAddr yv.g slot false [2] [1] ≠ yv.g.addrOf (pointElem (yv.g.dims.map accessDim) [2] [1] [0]) := by
  refine ⟨UnalignedExample.yvar, UnalignedExample.cvar, ⟨true, false, false, true, 1⟩, UnalignedExample.yvar_reachable,
    ⟨by decide +kernel, by decide +kernel, by decide +kernel, by decide +kernel, by decide +kernel, fun _ => by decide +kernel,
      by decide +kernel⟩, by decide +kernel, by decide +kernel, ?_, fun _ _ _ => rfl, ?_⟩
  · have h : ∀ l, pointElem (UnalignedExample.yvar.g.dims.map accessDim) [2] [1] [l] = [0 + 2 * 4 + l + 1] := by
      intro l
      have h2 : UnalignedExample.yvar.g.dims.map (fun d => (d.kind, d.varVL, d.rankOfs)) = [(.domain, 4, 0)] := by decide +kernel
      have h3 : UnalignedExample.yvar.g.dims.map accessDim =
          (UnalignedExample.yvar.g.dims.map (fun d => (d.kind, d.varVL, d.rankOfs))).map
            fun x => match x.1 with | .step => AccessDim.step | .domain => .domain x.2.1 x.2.2 | .misc => .misc := by
        rw [List.map_map]; rfl
      rw [h3, h2]; rfl
    intro l hl
    rw [h, UnalignedExample.api]
    unfold InRangeButStep
    simp only [List.mem_cons, List.not_mem_nil, or_false] at hl
    rcases hl with rfl | rfl | rfl | rfl <;> simp
  · intro slot
    have h1 : UnalignedExample.cvar.slotOf slot [1] = slot 0 := rfl
    have h2 : UnalignedExample.cvar.unalignedAddr UnalignedExample.yvar.g slot false [2] [1] =
        UnalignedExample.yvar.g.elemAddr [3] (slot 0) := rfl
    have h3 : ∀ ti, UnalignedExample.yvar.g.elemAddr [3] ti = UnalignedExample.yvar.g.elemAddr [3] 0 := by
      have hd : ∃ d, UnalignedExample.yvar.g.dims = [d] ∧ d.kind = .domain := ⟨UnalignedExample.yvar.g.dims.getD 0 { kind := .step },
        by decide +kernel, by decide +kernel⟩
      obtain ⟨d, hd, hk⟩ := hd
      intro ti
      unfold Geom.elemAddr Geom.elemAddrVec Geom.elemAddrScalar
      rw [hd]
      simp [adjVecs, adjVec, adjElem, hk]
    rw [h2, h3]
    decide +kernel

end Yask
