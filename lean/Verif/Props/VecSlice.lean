import Verif.Var.VecSliceEffect
import Verif.Props.VarSteps
import Verif.Props.VarSlice

/-!
# C19: copying slices vector by vector

`get_vecs_in_slice` on one rank followed by `set_vecs_in_slice` on another one, as halo exchange does,
with any numbers of threads and any orders of the concurrent copies on both sides.
-/

namespace Yask
open Spec Var

variable {V : Type}

/-- The vars are instances of the same var on two ranks: the same kinds of dimensions and the same
vector folding. Sizes, offsets, pads, halos and layouts of the storage may differ. -/
structure SameFolding (g g' : Geom) : Prop where
  kinds : g.dims.map DimG.kind = g'.dims.map DimG.kind
  lens : g.dims.map DimG.varVL = g'.dims.map DimG.varVL
  posns : g.foldPosns = g'.foldPosns
  isVec : g.isVec = g'.isVec
  inner : g.foldFirstInner = g'.foldFirstInner

/-- Any number of threads greater than zero and any order of the concurrent copies. -/
def VecEnvOk (env : VecEnv) : Prop := 0 < env.nthr ∧ ∀ l, (env.order l).Perm l

/-- The slice is made of whole vectors: in each domain dimension it begins and ends at a multiple of the
vector length after the first index of the domain of the rank. -/
def WholeVectors (g : Geom) (first last : List Int) : Prop :=
  ∀ x ∈ g.dims.zip (first.zip last), x.1.kind = .domain →
    x.1.varVL ∣ x.2.1 - x.1.rankOfs ∧ x.1.varVL ∣ x.2.2 + 1 - x.1.rankOfs

/-- The first index of misc dimensions was not changed by `set_first_misc_index`, which is only possible
for vars made by the user. (The generated code of a solution sets it by another call, which does not have
the defect shown by `C19_fails_after_set_first_misc_index`.) -/
def NoMiscOffset (g : Geom) : Prop := ∀ d ∈ g.dims, d.kind = .misc → d.vecLocalOfs = d.localOfs

/-- The slice can be copied from or to the var: storage allocated, indices in range but for the step
index, whole vectors, no misc offset. -/
structure CanCopy (v : YVar V) (first last : List Int) : Prop where
  reach : Reachable v
  mem : v.mem.isSome
  steps : StepsAlloc v.g.api
  hf : InRangeButStep v.g.api first
  hl : InRangeButStep v.g.api last
  vecs : WholeVectors v.g first last
  misc : NoMiscOffset v.g

theorem CanCopy.vecOk {v : YVar V} {first last : List Int} (h : CanCopy v first last)
    (hne : SliceNonempty first last) : VecOk v.g first last :=
  ⟨h.reach.ok, h.hf, h.hl, hne, h.vecs, h.misc, h.steps⟩

theorem SameFolding.hasStep {g g' : Geom} (h : SameFolding g g') : g'.hasStep = g.hasStep := by
  have hk := h.kinds
  unfold Geom.hasStep
  revert hk
  cases g.dims <;> cases g'.dims <;> simp +contextual

theorem SameFolding.foldLens {g g' : Geom} (h : SameFolding g g') (hok : g.Ok) (hok' : g'.Ok) :
    g'.foldLens = g.foldLens := by
  rw [hok.foldLens, hok'.foldLens, h.posns, h.lens]

theorem SameFolding.elemReals {g g' : Geom} (h : SameFolding g g') (hok : g.Ok) (hok' : g'.Ok) :
    g'.elemReals = g.elemReals := by
  rw [elemReals_eq hok, elemReals_eq hok', h.foldLens hok hok']

theorem SameFolding.length {g g' : Geom} (h : SameFolding g g') : g'.dims.length = g.dims.length := by
  have := congrArg List.length h.kinds
  simpa using this.symm

theorem setDirty_reachable {v : YVar V} (hr : Reachable v) (first last : List Int) (m : Option (Int → V)) :
    Reachable ⟨v.g.setDirtyInSlice first last, m⟩ := by
  have : ∀ (l : List Nat) (w : YVar V), Reachable w →
      Reachable { w with g := l.foldl (fun g (k : Nat) => g.updateValidStep (first.getD 0 0 + k)) w.g } := by
    intro l
    induction l with
    | nil => intro w h; exact h
    | cons k l ih => intro w h; exact ih _ (Reachable.validStep _ _ h)
  unfold Geom.setDirtyInSlice
  split
  · exact Reachable.storage _ _ (this _ _ hr)
  · exact Reachable.storage _ _ hr

/-- All elements of a slice that was just written are valid. -/
theorem setDirty_readable {g : Geom} (hok : g.Ok) (hs : StepsAlloc g.api) {first last : List Int}
    (hf : InRangeButStep g.api first) (hl : InRangeButStep g.api last) (hne : SliceNonempty first last)
    (hfit : StepsFit g.api first last) {idx : List Int} (hi : InSlice first last idx) :
    Readable (g.setDirtyInSlice first last).stepWrap (g.setDirtyInSlice first last).api idx := by
  have hss := setDirty_sameStore hok first last
  have hv := (hss.range idx).2 (inSlice_valid hf hl hi)
  unfold Readable
  split
  · exact hv
  · cases hd : g.dims with
    | nil =>
      have h0 := inRangeButStep_length hf
      rw [hd] at h0
      have hg : g.setDirtyInSlice first last = g := by
        unfold Geom.setDirtyInSlice Geom.hasStep
        rw [hd]; rfl
      rw [hg] at hv ⊢
      unfold InRange InRangeButStep Geom.api at *
      rw [hd] at hv ⊢
      cases hv; exact .nil
    | cons d ds =>
      have hnd : ∀ x ∈ ds, x.kind ≠ .step := by
        have := hok.stepFirst; rw [hd] at this; exact this
      by_cases hk : d.kind = .step
      · have hfl := inRangeButStep_length hf
        have hll := inRangeButStep_length hl
        rw [hd] at hfl hll
        cases first with
        | nil => simp at hfl
        | cons f fs =>
        cases last with
        | nil => simp at hll
        | cons l ls =>
        cases idx with
        | nil => cases hi
        | cons i is =>
          have hsz : 0 < d.alloc := hs ⟨d.kind == .step, d.firstLocal, d.lastLocal, d.alloc⟩
            (by unfold Geom.api; rw [hd]; exact List.mem_cons_self) (by simp [hk])
          have hfl0 : f ≤ l := by
            unfold SliceNonempty at hne
            exact (List.forall₂_cons.1 hne).1
          have hft : l + 1 - f ≤ d.alloc := hfit (⟨d.kind == .step, d.firstLocal, d.lastLocal, d.alloc⟩, l + 1 - f)
            (by unfold Geom.api sliceSizes; rw [hd]; simp) (by simp [hk])
          obtain ⟨d', e1, e2, e3, e4, e5, -, e6⟩ := setDirtyInSlice_window hok hd hk hsz (f :: fs) (l :: ls)
            (by simpa using hfl0)
          simp only [List.getD_cons_zero] at e3 e4 e6
          have hii : f ≤ i ∧ i ≤ l := by
            unfold InSlice at hi
            exact (List.forall₂_cons.1 hi).1
          unfold InRange InRangeButStep Geom.api at *
          rw [e1] at hv ⊢
          rw [List.map_cons, List.forall₂_cons] at hv ⊢
          have := e6 (by omega)
          refine ⟨⟨by simp only; omega, by simp only; omega⟩, ?_⟩
          have hv2 := hv.2
          clear hi hv hf hl hfl hll hne hfit hs hd hok e1 hss
          induction ds generalizing is with
          | nil => cases hv2; exact .nil
          | cons x ds ih =>
            cases hv2 with
            | cons h1 h2 =>
              refine .cons ?_ (ih (fun y hy => hnd y (List.mem_cons_of_mem _ hy)) _ h2)
              rcases h1 with h1 | h1
              · exact absurd (by simpa using h1) (hnd x List.mem_cons_self)
              · exact h1
      · have hg : g.setDirtyInSlice first last = g := by
          unfold Geom.setDirtyInSlice Geom.hasStep
          rw [hd]; simp [hk]
        rw [hg] at hv ⊢
        have hnd' : ∀ x ∈ d :: ds, x.kind ≠ .step := by
          intro x hx
          rcases List.mem_cons.1 hx with rfl | hx
          · exact hk
          · exact hnd x hx
        unfold InRange InRangeButStep Geom.api at *
        rw [hd] at hv ⊢
        generalize d :: ds = l at hv hnd' ⊢
        clear hi hf hl hne hfit hs hd hok hss hg
        induction l generalizing idx with
        | nil => cases hv; exact .nil
        | cons x ds ih =>
          cases hv with
          | cons h1 h2 =>
            refine .cons ?_ (ih h2 (fun y hy => hnd' y (List.mem_cons_of_mem _ hy)))
            rcases h1 with h1 | h1
            · exact absurd (by simpa using h1) (hnd' x List.mem_cons_self)
            · exact h1

/-- C19: copying a slice of whole vectors out of one var and into another one, vector by vector, gives
every element of the slice of the second var the value of the same element of the first one, and leaves
all other elements as they are. Both calls report the number of elements of the slice. -/
theorem C19_vec_copy (v w : YVar V) (first last : List Int) (hv : CanCopy v first last)
    (hw : CanCopy w first last) (hne : SliceNonempty first last) (hfold : SameFolding v.g w.g)
    (hfit : StepsFit w.g.api first last)
    (loopPosn : Option Nat) (same : Bool) (hip : v.g.innerPosn loopPosn same < v.g.dims.length)
    (env env' : VecEnv) (he : VecEnvOk env) (he' : VecEnvOk env')
    (buf : Int → V) (bufVecs : Int) (hbuf : numPoints (sliceSizes first last) ≤ bufVecs * v.g.elemReals) :
    ∃ buf' w',
      getVecs v env loopPosn same buf bufVecs first last =
        .ok (buf', numPoints (sliceSizes first last)) ∧
      setVecs w env' loopPosn same buf' bufVecs first last =
        .ok (w', numPoints (sliceSizes first last)) ∧
      Reachable w' ∧
      (∀ idx, InSlice first last idx →
        ∃ x, getElement w' idx = .ok x ∧
          (Readable v.g.stepWrap v.g.api idx → getElement v idx = .ok x)) ∧
      (∀ idx, (∀ s, InSlice first last s → ¬ SameElem w.g.api s idx) →
        Readable w.g.stepWrap w.g.api idx → Readable w'.g.stepWrap w'.g.api idx →
        getElement w' idx = getElement w idx) := by
  have h := hv.vecOk hne
  have h' := hw.vecOk hne
  obtain ⟨hrv, hmv, hsv, hfv, hlv, -, -⟩ := hv
  obtain ⟨hrw, hmw, hsw, hfw, hlw, -, -⟩ := hw
  have hok := hrv.ok
  have hok' := hrw.ok
  obtain ⟨g, m⟩ := v
  obtain ⟨g', m'⟩ := w
  simp only at *
  obtain ⟨m, rfl⟩ := Option.isSome_iff_exists.1 hmv
  obtain ⟨m', rfl⟩ := Option.isSome_iff_exists.1 hmw
  have hstep := hfold.hasStep
  have hreals := hfold.elemReals hok hok'
  have hlen := hfold.length
  have hlens := hfold.foldLens hok hok'
  have hperm : g'.foldPerm = g.foldPerm := by
    unfold Geom.foldPerm; rw [hlens, hfold.inner]
  have hipe : g'.innerPosn loopPosn same = g.innerPosn loopPosn same := by
    unfold Geom.innerPosn; rw [hlen, hstep]
  have hcnt := vec_count h
  have hnpos : 0 < g.elemReals := by
    have := lane_range hok (s := slots g.dims first) (by
      have := h.flen
      unfold slots; rw [List.length_zipWith]; omega)
    omega
  have hbv : prodVals (vecSizes (g.dims.map DimG.varVL) first last) ≤ bufVecs := by
    rw [← hcnt] at hbuf
    exact Int.le_of_mul_le_mul_right hbuf hnpos
  obtain ⟨buf', q1, q2⟩ := getVecs_eq h m env he.1 he.2 loopPosn same hip buf bufVecs hbv
  obtain ⟨mw, p1, p2, p3⟩ := setVecs_eq h' hfit m' env' he'.1 he'.2 loopPosn same (by omega) buf' bufVecs
    (by rw [← hfold.lens]; exact hbv)
  rw [vec_count h] at q1
  rw [vec_count h'] at p1
  rw [← hfold.lens, hstep, hipe, hreals] at p2 p3
  have hss := setDirty_sameStore hok' first last
  have hs' : StepsAlloc (g'.setDirtyInSlice first last).api := hss.steps.2 hsw
  refine ⟨buf', ⟨g'.setDirtyInSlice first last, some mw⟩, q1, p1,
    setDirty_reachable hrw first last _, ?_, ?_⟩
  · intro idx hi
    refine ⟨_, getElement_eq hss.ok mw (setDirty_readable hok' hsw hfw hlw hne hfit hi) fun _ => hs', ?_⟩
    intro hre
    rw [getElement_eq hok m hre fun _ => hsv, hss.slots, hss.addr]
    obtain ⟨-, hpos, hRl⟩ := vecRange_eq h
    obtain ⟨t, ht, hrel⟩ := relVec_surj (st := g.hasStep)
      (ip := g.innerPosn loopPosn same) (by omega) hpos (relOf_inSpace h hi)
    have hrel' : relVec g'.hasStep (vecSizes (g'.dims.map DimG.varVL) first last)
        (g.innerPosn loopPosn same) t = relOf (g'.dims.map DimG.varVL) first idx := by
      rw [hstep, ← hfold.lens]; exact hrel
    have hxl := inRangeButStep_length (inSlice_valid hfv hlv hi)
    rw [elem_vec h hi hip ht hrel, elem_vec h' hi (by omega) (by rw [hstep, ← hfold.lens]; exact ht) hrel']
    have hlane : layoutPerm g'.foldPerm g'.foldLens
          (g'.foldPosns.map fun j => (vecOfsOf g'.dims (slots g'.dims idx)).getD j 0) =
        layoutPerm g.foldPerm g.foldLens
          (g.foldPosns.map fun j => (vecOfsOf g.dims (slots g.dims idx)).getD j 0) := by
      rw [lane_eq h hxl, lane_eq h' (by omega), hperm, hlens, ← hfold.posns, ← hfold.lens]
    have hlr := lane_range hok (s := slots g.dims idx) (by unfold slots; rw [List.length_zipWith]; omega)
    rw [hlane, hreals, p2 t ht _ hlr.1 hlr.2, q2 t ht _ hlr.1 hlr.2]
  · intro idx hno hre hre'
    rw [getElement_eq hss.ok mw hre' fun _ => hs', getElement_eq hok' m' hre fun _ => hsw, hss.slots, hss.addr]
    rw [p3]
    intro t ht hb
    obtain ⟨y, hy, hsame⟩ := block_slice h' (ip := g.innerPosn loopPosn same) (by omega)
      (by rw [hstep, ← hfold.lens]; exact ht) hre.butStep (by rw [hreals]; exact hb)
    exact hno y hy hsame

/-! ### Examples -/

/-- Build a var with the given calls and contents. -/
def mkExVar (calls : List (Nat × Setting × Int)) (m : Int → Int) : YVar Int :=
  match (exGeom0.resize false).bind fun g => runSettings (V := Int) ⟨g, none⟩ calls with
  | some v => { v with mem := some m }
  | none => ⟨exGeom0, none⟩

theorem mkExVar_reachable (calls : List (Nat × Setting × Int)) (m : Int → Int)
    (h2 : ((exGeom0.resize false).bind fun g => runSettings (V := Int) ⟨g, none⟩ calls).isSome = true) :
    Reachable (mkExVar calls m) := by
  have h1 : (exGeom0.resize false).isSome = true := by decide +kernel
  obtain ⟨g, hg⟩ := Option.isSome_iff_exists.1 h1
  obtain ⟨v, hv⟩ := Option.isSome_iff_exists.1 h2
  have hr : runSettings (V := Int) ⟨g, none⟩ calls = some v := by
    rw [hg] at hv; simpa using hv
  have : mkExVar calls m = { v with mem := some m } := by
    unfold mkExVar; rw [hv]
  rw [this]
  exact Reachable.storage v _ (runSettings_reachable (Reachable.construct _ g exGeom0_constructed hg) hr)

/-- The left one of two ranks: domain 20..31 in the first dimension. -/
def exSender : YVar Int := mkExVar [(0, .size, 3), (1, .size, 12), (2, .size, 6), (3, .size, 2), (1, .halo, 2),
  (2, .leftMinPad, 3), (1, .rankOfs, 20), (3, .localOfs, -1)] fun a => 7 * a + 1

/-- The right one: domain 32..41. -/
def exReceiver : YVar Int := mkExVar [(0, .size, 3), (1, .size, 10), (2, .size, 6), (3, .size, 2), (1, .halo, 4),
  (1, .rankOfs, 32), (3, .localOfs, -1)] fun _ => 0

def exVecEnv : VecEnv := ⟨⟨true, false, 1, 2, 0⟩, 2, List.reverse⟩

theorem exVecEnv_ok : VecEnvOk exVecEnv := ⟨by decide, fun l => List.reverse_perm l⟩

theorem exSender_can : CanCopy exSender [1, 28, -2, -1] [2, 31, 3, 0] where
  reach := mkExVar_reachable _ _ (by decide +kernel)
  mem := by decide +kernel
  steps := by unfold StepsAlloc; decide +kernel
  hf := by
    rw [show exSender.g.api = [⟨true, 0, 2, 3⟩, ⟨false, 12, 39, 28⟩, ⟨false, -6, 7, 14⟩, ⟨false, -1, 0, 2⟩] by
      decide +kernel]
    simp [InRangeButStep]
  hl := by
    rw [show exSender.g.api = [⟨true, 0, 2, 3⟩, ⟨false, 12, 39, 28⟩, ⟨false, -6, 7, 14⟩, ⟨false, -1, 0, 2⟩] by
      decide +kernel]
    simp [InRangeButStep]
  vecs := by unfold WholeVectors; decide +kernel
  misc := by unfold NoMiscOffset; decide +kernel

theorem exReceiver_can : CanCopy exReceiver [1, 28, -2, -1] [2, 31, 3, 0] where
  reach := mkExVar_reachable _ _ (by decide +kernel)
  mem := by decide +kernel
  steps := by unfold StepsAlloc; decide +kernel
  hf := by
    rw [show exReceiver.g.api = [⟨true, 0, 2, 3⟩, ⟨false, 24, 51, 28⟩, ⟨false, -2, 7, 10⟩, ⟨false, -1, 0, 2⟩] by
      decide +kernel]
    simp [InRangeButStep]
  hl := by
    rw [show exReceiver.g.api = [⟨true, 0, 2, 3⟩, ⟨false, 24, 51, 28⟩, ⟨false, -2, 7, 10⟩, ⟨false, -1, 0, 2⟩] by
      decide +kernel]
    simp [InRangeButStep]
  vecs := by unfold WholeVectors; decide +kernel
  misc := by unfold NoMiscOffset; decide +kernel

/-- The hypotheses of `C19_vec_copy` hold for the example: the last vectors of the domain of the sender
are copied to the left halo of the receiver. -/
example : CanCopy exSender [1, 28, -2, -1] [2, 31, 3, 0] ∧ CanCopy exReceiver [1, 28, -2, -1] [2, 31, 3, 0] ∧
    SliceNonempty [1, 28, -2, -1] [2, 31, 3, 0] ∧ SameFolding exSender.g exReceiver.g ∧
    StepsFit exReceiver.g.api [1, 28, -2, -1] [2, 31, 3, 0] ∧ exSender.g.innerPosn (some 2) true < exSender.g.dims.length ∧
    numPoints (sliceSizes [1, 28, -2, -1] [2, 31, 3, 0]) ≤ 12 * exSender.g.elemReals := by
  refine ⟨exSender_can, exReceiver_can, by simp [SliceNonempty], ⟨?_, ?_, ?_, ?_, ?_⟩, ?_, ?_, ?_⟩
  all_goals first | decide +kernel | (unfold StepsFit; decide +kernel)

/-- The copy of the example, evaluated. -/
example : (getVecs exSender exVecEnv (some 2) true (fun _ => 0) 12 [1, 28, -2, -1] [2, 31, 3, 0] >>= fun r =>
    setVecs exReceiver exVecEnv (some 2) true r.1 12 [1, 28, -2, -1] [2, 31, 3, 0] >>= fun w =>
    getElement w.1 [2, 30, 1, -1] >>= fun x => getElement exSender [2, 30, 1, -1] >>= fun y =>
    getElement w.1 [0, 30, 1, -1] >>= fun z =>
      .ok (r.2, w.2, decide (x = y), decide (x = 0), z)) = .ok (96, 96, true, false, 0) := by decide +kernel

/-- The code disagrees with C19: `set_first_misc_index` does not set the offset used by the vector copies.
Copying a vector whose indices are all in range then reads elements of another misc index, or outside the
storage. -/
theorem C19_fails_after_set_first_misc_index :
    Reachable (mkExVar exCalls id) ∧ (mkExVar exCalls id).mem.isSome ∧
    InRange (mkExVar exCalls id).g.api [1, 16, -2, 0] ∧ InRange (mkExVar exCalls id).g.api [1, 19, -1, 0] ∧
    InRange (mkExVar exCalls id).g.api [0, 16, -2, -1] ∧ InRange (mkExVar exCalls id).g.api [0, 19, -1, -1] ∧
    WholeVectors (mkExVar exCalls id).g [1, 16, -2, 0] [1, 19, -1, 0] ∧
    WholeVectors (mkExVar exCalls id).g [0, 16, -2, -1] [0, 19, -1, -1] ∧
    (getVecs (mkExVar exCalls id) exVecEnv (some 1) true (fun _ => 0) 1 [1, 16, -2, 0] [1, 19, -1, 0] >>= fun r =>
      getElement (mkExVar exCalls id) [1, 16, -2, 0] >>= fun x => .ok (r.2, r.1 0, x)) = .ok (8, 744, 1080) ∧
    (getVecs (mkExVar exCalls id) exVecEnv (some 1) true (fun _ => 0) 1 [0, 16, -2, -1] [0, 19, -1, -1] >>=
      fun r => .ok r.2) = .undefined := by
  have ha : (mkExVar exCalls id).g.api = [⟨true, 0, 2, 3⟩, ⟨false, 12, 35, 24⟩, ⟨false, -6, 7, 14⟩,
    ⟨false, -1, 0, 2⟩] := by decide +kernel
  refine ⟨mkExVar_reachable _ _ (by decide +kernel), by decide +kernel, ?_, ?_, ?_, ?_, ?_, ?_, by decide +kernel,
    by decide +kernel⟩
  · rw [ha]; simp [InRange]
  · rw [ha]; simp [InRange]
  · rw [ha]; simp [InRange]
  · rw [ha]; simp [InRange]
  · unfold WholeVectors; decide +kernel
  · unfold WholeVectors; decide +kernel

end Yask
