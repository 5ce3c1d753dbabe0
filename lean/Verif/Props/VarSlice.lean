import Verif.Var.ClipLemmas
import Verif.Props.VarAccess

/-!
# C18, C53: slices of a var

`env` is the run-time environment: any number of threads, any OpenMP settings, and any order in which
the concurrent element accesses of one step take effect.
-/

namespace Yask
open Spec Var

variable {V : Type}

/-- Any number of threads greater than zero and any order of the concurrent element accesses. -/
def EnvOk (env : SliceEnv) : Prop := 0 < env.nthr ∧ ∀ l, (env.order l).Perm l

/-- Slices whose steps are in the valid range do not have more steps than are stored. -/
theorem stepsFit_of_inRange {g : Geom} (hok : g.Ok) {first last : List Int} (hf : InRange g.api first)
    (hl : InRange g.api last) : StepsFit g.api first last := by
  have hok' := hok.dims
  unfold StepsFit sliceSizes InRange Geom.api at *
  generalize g.dims = ds at *
  induction ds generalizing first last with
  | nil => simp
  | cons d ds ih =>
    cases hf with
    | @cons f0 _ f _ hf0 hf1 =>
    cases hl with
    | @cons l0 _ l _ hl0 hl1 =>
      intro x hx hst
      simp only [List.map_cons, List.zipWith_cons_cons, List.zip_cons_cons, List.mem_cons] at hx
      rcases hx with rfl | hx
      · simp only at hf0 hl0 hst ⊢
        have hk : d.kind = .step := by simpa using hst
        have hd := hok' d List.mem_cons_self
        have h1 := hd.nd_pad (by rw [hk]; decide)
        unfold DimG.firstLocal at hf0
        unfold DimG.lastLocal at hl0
        have h2 := hd.alloc_eq
        omega
      · exact ih hf1 hl1 (fun d hd => hok' d (List.mem_cons_of_mem _ hd)) x hx hst

/-- C18: setting a slice from a buffer stores element `k` of the buffer in the `k`-th element of the
slice in row-major order, leaves all other elements as they are, and reports the number of elements;
getting the same slice then returns the same buffer. -/
theorem C18_set_then_get (v : YVar V) (hr : Reachable v) (hmem : v.mem.isSome)
    (hs : StepsAlloc v.g.api) (env env' : SliceEnv) (he : EnvOk env) (he' : EnvOk env')
    (first last : List Int) (hf : Readable v.g.stepWrap v.g.api first)
    (hl : Readable v.g.stepWrap v.g.api last) (hne : SliceNonempty first last)
    (hfit : v.g.stepWrap = true → StepsFit v.g.api first last)
    (buf : Int → V) (bufSize : Int) (hbuf : numPoints (sliceSizes first last) ≤ bufSize) :
    ∃ v', setSlice v env buf bufSize first last = .ok (v', numPoints (sliceSizes first last)) ∧
      Reachable v' ∧
      (∀ idx, InSlice first last idx →
        getElement v' idx = .ok (buf (slicePos first last idx))) ∧
      (∀ idx, (∀ s, InSlice first last s → ¬ SameElem v.g.api s idx) →
        getElement v' idx = getElement v idx) ∧
      (∀ (dst : Int → V) (dstSize : Int), numPoints (sliceSizes first last) ≤ dstSize →
        ∃ dst', getSlice v' env' dst dstSize first last =
            .ok (dst', numPoints (sliceSizes first last)) ∧
          (∀ k, 0 ≤ k → k < numPoints (sliceSizes first last) → dst' k = buf k) ∧
          (∀ k, k < 0 ∨ numPoints (sliceSizes first last) ≤ k → dst' k = dst k)) := by
  obtain ⟨g, m⟩ := v
  obtain ⟨m, rfl⟩ := Option.isSome_iff_exists.1 hmem
  have hok : g.Ok := hr.ok
  simp only at hs hf hl hfit ⊢
  have hnp : numPoints (sliceSizes first last) = prodVals (sliceSizes first last) := by
    rw [prodVals_eq]; rfl
  rw [hnp] at hbuf ⊢
  have hfit' : StepsFit g.api first last := by
    cases hw : g.stepWrap with
    | true => exact hfit hw
    | false =>
      rw [hw] at hf hl
      exact stepsFit_of_inRange hok hf hl
  have hlen := inRangeButStep_length hf.butStep
  obtain ⟨m', h1, h2, h3⟩ := visitSlice_writes (⟨g, some m⟩ : YVar V) hok rfl hs env he.1 he.2 true
    bufSize first last first last true true (checkIndices_ok g first true true (by simpa using hf))
    (checkIndices_ok g last true true (by simpa using hl)) hf.butStep hl.butStep hne hbuf
    (setBody g buf bufSize) (fun k => buf k) (by
      intro m k hk
      unfold setBody
      simp only
      rw [if_pos ⟨by omega, by omega⟩]
      exact writeElem_visit hok hs (inSlice_valid hf.butStep hl.butStep (slicePt_spec hne hk).1) m _) m
  simp only at h2 h3
  have hss := setDirty_sameStore hok first last
  have hs' : StepsAlloc (g.setDirtyInSlice first last).api := hss.steps.2 hs
  have hread : ∀ idx, Readable (g.setDirtyInSlice first last).stepWrap
      (g.setDirtyInSlice first last).api idx ↔ Readable g.stepWrap g.api idx := by
    intro idx
    rw [hss.wrap]
    cases hw : g.stepWrap with
    | true => exact hss.range idx
    | false =>
      rw [hw] at hf hl
      rw [setDirty_inRange hf hl]
  have hval : ∀ idx, InSlice first last idx →
      m' (g.addrOfSlots (slots g.dims idx)) = buf (slicePos first last idx) := by
    intro idx hi
    obtain ⟨k, _, _, hk⟩ := slicePt_surj hne hi
    have hil : idx.length = first.length := ((inSlice_iff hne).1 hi).2
    rw [h2 idx hi fun b hb hsame => by
      rw [inSlice_sameElem hfit' hb hi ((inSlice_iff hne).1 hb).2 hsame], hk]
    rfl
  refine ⟨⟨g.setDirtyInSlice first last, some m'⟩, ?_, ?_, ?_, ?_, ?_⟩
  · unfold setSlice
    simp only
    rw [h1]
    rfl
  · have : ∀ (l : List Nat) (w : YVar V), Reachable w →
        Reachable { w with g := l.foldl (fun g (k : Nat) => g.updateValidStep (first.getD 0 0 + k)) w.g } := by
      intro l
      induction l with
      | nil => intro w h; exact h
      | cons k l ih => intro w h; exact ih _ (Reachable.validStep _ _ h)
    unfold Geom.setDirtyInSlice
    split
    · exact Reachable.storage _ _ (this _ _ hr)
    · exact Reachable.storage _ _ hr
  · intro idx hi
    rw [getElement_eq hss.ok m' ((hread idx).2 (inSlice_readable hf hl hi)) fun _ => hs', hss.slots,
      hss.addr, hval idx hi]
  · intro idx hno
    by_cases hre : Readable g.stepWrap g.api idx
    · rw [getElement_eq hss.ok m' ((hread idx).2 hre) fun _ => hs', hss.slots, hss.addr,
        getElement_eq hok m hre fun _ => hs, h3]
      intro s hsl heq
      exact hno s hsl ((addr_eq_iff hok (inSlice_valid hf.butStep hl.butStep hsl) hre.butStep hs).1 heq)
    · rw [getElement_throws ⟨g, some m⟩ (Or.inr hre),
        getElement_throws ⟨g.setDirtyInSlice first last, some m'⟩ (Or.inr fun h => hre ((hread idx).1 h))]
  · intro dst dstSize hdst
    obtain ⟨dst', q1, q2, q3⟩ := getSlice_eq _ m' hss.ok hs' env' he'.1 he'.2 dst dstSize first last
      ((hread first).2 hf) ((hread last).2 hl) hne hdst
    refine ⟨dst', q1, ?_, q3⟩
    intro k hk0 hk1
    obtain ⟨k, rfl⟩ := Int.eq_ofNat_of_zero_le hk0
    obtain ⟨p1, p2⟩ := slicePt_spec hne hk1
    have := q2 _ p1
    rw [p2] at this
    rw [this, hss.slots, hss.addr, hval _ p1, p2]

/-- C18: getting a slice returns the `k`-th element of the slice in row-major order as element `k` of
the buffer, and does not touch the rest of the buffer. -/
theorem C18_get_slice (v : YVar V) (hr : Reachable v) (hmem : v.mem.isSome)
    (hs : StepsAlloc v.g.api) (env : SliceEnv) (he : EnvOk env)
    (first last : List Int) (hf : Readable v.g.stepWrap v.g.api first)
    (hl : Readable v.g.stepWrap v.g.api last) (hne : SliceNonempty first last)
    (buf : Int → V) (bufSize : Int) (hbuf : numPoints (sliceSizes first last) ≤ bufSize) :
    ∃ buf', getSlice v env buf bufSize first last = .ok (buf', numPoints (sliceSizes first last)) ∧
      (∀ idx, InSlice first last idx →
        getElement v idx = .ok (buf' (slicePos first last idx))) ∧
      (∀ k, k < 0 ∨ numPoints (sliceSizes first last) ≤ k → buf' k = buf k) := by
  obtain ⟨g, m⟩ := v
  obtain ⟨m, rfl⟩ := Option.isSome_iff_exists.1 hmem
  have hok : g.Ok := hr.ok
  simp only at hs hf hl ⊢
  have hnp : numPoints (sliceSizes first last) = prodVals (sliceSizes first last) := by
    rw [prodVals_eq]; rfl
  rw [hnp] at hbuf ⊢
  obtain ⟨buf', q1, q2, q3⟩ := getSlice_eq g m hok hs env he.1 he.2 buf bufSize first last hf hl hne hbuf
  refine ⟨buf', q1, fun idx hi => ?_, q3⟩
  rw [getElement_eq hok m (inSlice_readable hf hl hi) fun _ => hs, q2 idx hi]

/-- The points of a slice and the positions in the buffer correspond one to one. -/
theorem C18_positions (first last : List Int) (hne : SliceNonempty first last) :
    (∀ k : Int, 0 ≤ k → k < numPoints (sliceSizes first last) →
      ∃ idx, InSlice first last idx ∧ slicePos first last idx = k) ∧
    (∀ idx, InSlice first last idx →
      0 ≤ slicePos first last idx ∧ slicePos first last idx < numPoints (sliceSizes first last)) ∧
    (∀ a b, InSlice first last a → InSlice first last b →
      slicePos first last a = slicePos first last b → a = b) := by
  have hnp : numPoints (sliceSizes first last) = prodVals (sliceSizes first last) := by
    rw [prodVals_eq]; rfl
  rw [hnp]
  refine ⟨?_, ?_, ?_⟩
  · intro k h0 h1
    obtain ⟨k, rfl⟩ := Int.eq_ofNat_of_zero_le h0
    exact ⟨_, slicePt_spec hne h1⟩
  · intro idx hi
    obtain ⟨k, hk, _, hp⟩ := slicePt_surj hne hi
    omega
  · intro a b ha hb hab
    obtain ⟨k, _, h1, hp⟩ := slicePt_surj hne ha
    obtain ⟨k', _, h1', hp'⟩ := slicePt_surj hne hb
    have : k = k' := by omega
    rw [← h1, ← h1', this]

/-- C18: invalid slices are refused, and a buffer that is too small is not written. -/
theorem C18_refused (v : YVar V) (env : SliceEnv) (first last : List Int) (buf : Int → V)
    (bufSize : Int)
    (h : v.mem = none ∨ ¬ Readable v.g.stepWrap v.g.api first ∨
      ¬ Readable v.g.stepWrap v.g.api last ∨
      (SliceNonempty first last ∧ bufSize < numPoints (sliceSizes first last))) :
    setSlice v env buf bufSize first last = .throws ∧
      getSlice v env buf bufSize first last = .throws := by
  obtain ⟨g, m⟩ := v
  cases m with
  | none => exact ⟨rfl, rfl⟩
  | some m =>
    have key : ∀ {σ : Type} (body : σ → List Int × Int × Int → Outcome σ) (s : σ),
        visitSlice (⟨g, some m⟩ : YVar V) env true bufSize first last body s = .throws := by
      intro σ body s
      unfold visitSlice
      simp only [Option.isNone_some, Bool.false_eq_true, if_false]
      by_cases hf : Readable g.stepWrap g.api first
      · rw [checkIndices_ok g first true true (by simpa using hf)]
        simp only [Outcome.bind_ok]
        by_cases hl : Readable g.stepWrap g.api last
        · rw [checkIndices_ok g last true true (by simpa using hl)]
          simp only [Outcome.bind_ok]
          rcases h with h | h | h | ⟨hne, hb⟩
          · simp at h
          · exact absurd hf h
          · exact absurd hl h
          · have h1 := prodVals_pos _ (sliceSizes_pos hne)
            have hnp : numPoints (sliceSizes first last) = prodVals (sliceSizes first last) := by
              rw [prodVals_eq]; rfl
            rw [sliceRange_eq hne, if_neg (by omega), if_pos (by omega)]
        · rw [checkIndices_strict g last true false (by simpa using hl)]; rfl
      · rw [checkIndices_strict g first true false (by simpa using hf)]; rfl
    constructor
    · unfold setSlice; simp only; rw [key]; rfl
    · unfold getSlice; simp only; rw [key]

/-! ### C18: examples -/

/-- Two threads that access the elements of a step in reverse order. -/
def exEnv : SliceEnv where
  par := ⟨true, false, 1, 2, 0⟩
  nthr := 2
  order := List.reverse

theorem exEnv_ok : EnvOk exEnv := ⟨by decide, fun l => List.reverse_perm l⟩

example : Readable exVar.g.stepWrap exVar.g.api [1, 13, 2, -1] ∧
    Readable exVar.g.stepWrap exVar.g.api [2, 15, 6, 0] ∧ SliceNonempty [1, 13, 2, -1] [2, 15, 6, 0] ∧
    (exVar.g.stepWrap = true → StepsFit exVar.g.api [1, 13, 2, -1] [2, 15, 6, 0]) ∧
    numPoints (sliceSizes [1, 13, 2, -1] [2, 15, 6, 0]) = 60 ∧
    slicePos [1, 13, 2, -1] [2, 15, 6, 0] [2, 14, 6, 0] = 49 := by
  have hw : exVar.g.stepWrap = false := by decide +kernel
  refine ⟨?_, ?_, ?_, ?_, by decide +kernel, by decide +kernel⟩
  · simp [hw, Readable, exVar_api, InRange]
  · simp [hw, Readable, exVar_api, InRange]
  · simp [SliceNonempty]
  · simp [hw]

/-- The example var with wrapped step indices. -/
def exVarW : YVar Int :=
  match (Geom.resize { exGeom0 with stepWrap := true } false).bind fun g =>
      runSettings (V := Int) ⟨g, none⟩ exCalls with
  | some v => { v with mem := some fun _ => 0 }
  | none => ⟨exGeom0, none⟩

theorem exVarW_reachable : Reachable exVarW := by
  have hc : Geom.Constructed { exGeom0 with stepWrap := true } :=
    ⟨exGeom0_constructed.stepFirst, exGeom0_constructed.fresh, exGeom0_constructed.vlPos,
      exGeom0_constructed.vlDomain, exGeom0_constructed.vlVar, exGeom0_constructed.noDirty,
      exGeom0_constructed.layoutPerm, exGeom0_constructed.foldNodup, exGeom0_constructed.foldLens,
      exGeom0_constructed.foldAll, exGeom0_constructed.foldNone⟩
  have h1 : (Geom.resize { exGeom0 with stepWrap := true } false).isSome = true := by decide +kernel
  obtain ⟨g, hg⟩ := Option.isSome_iff_exists.1 h1
  have h2 : ((Geom.resize { exGeom0 with stepWrap := true } false).bind fun g =>
    runSettings (V := Int) ⟨g, none⟩ exCalls).isSome = true := by decide +kernel
  obtain ⟨v, hv⟩ := Option.isSome_iff_exists.1 h2
  have hr : runSettings (V := Int) ⟨g, none⟩ exCalls = some v := by
    rw [hg] at hv; simpa using hv
  have : exVarW = { v with mem := some fun _ => 0 } := by
    unfold exVarW; rw [hv]
  rw [this]
  exact Reachable.storage v _ (runSettings_reachable (Reachable.construct _ g hc hg) hr)

theorem exVarW_api : exVarW.g.api = exVar.g.api := by decide +kernel

theorem exVarW_wrap : exVarW.g.stepWrap = true := by decide +kernel

example : Readable exVarW.g.stepWrap exVarW.g.api [8, 13, 2, -1] ∧
    Readable exVarW.g.stepWrap exVarW.g.api [9, 15, 6, 0] ∧
    StepsFit exVarW.g.api [8, 13, 2, -1] [9, 15, 6, 0] := by
  refine ⟨?_, ?_, ?_⟩
  · simp [exVarW_wrap, Readable, exVarW_api, exVar_api, InRangeButStep]
  · simp [exVarW_wrap, Readable, exVarW_api, exVar_api, InRangeButStep]
  · unfold StepsFit; decide +kernel

/-- C18, when step indices are wrapped and a slice has more steps than are stored: the property does
not hold.  The slice is accepted and all its elements are reported as set, but the last steps
overwrite the first ones. -/
theorem C18_fails_for_more_steps_than_stored :
    ∃ (v : YVar Int) (v' : YVar Int) (dst : Int → Int), Reachable v ∧ StepsAlloc v.g.api ∧
      EnvOk exEnv ∧
      Readable v.g.stepWrap v.g.api [0, 13, 2, -1] ∧ Readable v.g.stepWrap v.g.api [3, 13, 2, -1] ∧
      setSlice v exEnv (fun k => k) 4 [0, 13, 2, -1] [3, 13, 2, -1] = .ok (v', 4) ∧
      getSlice v' exEnv (fun _ => 99) 4 [0, 13, 2, -1] [3, 13, 2, -1] = .ok (dst, 4) ∧
      dst 0 = 3 := by
  refine ⟨exVarW, _, _, exVarW_reachable, ?_, exEnv_ok, ?_, ?_, rfl, rfl, ?_⟩
  · rw [exVarW_api]; exact exVar_steps
  · simp [exVarW_wrap, Readable, exVarW_api, exVar_api, InRangeButStep]
  · simp [exVarW_wrap, Readable, exVarW_api, exVar_api, InRangeButStep]
  · decide +kernel

/-! ### C53 -/

/-- C53, for slices with at least one element in range and with valid steps:
`set_elements_in_slice_same` with `strict_indices` false sets exactly the elements of the slice that are
in range, and reports their number. -/
theorem C53_nonstrict_sets_part_in_range_partial (v : YVar V) (hr : Reachable v) (hmem : v.mem.isSome)
    (hs : StepsAlloc v.g.api) (env : SliceEnv) (he : EnvOk env)
    (first last : List Int) (hfl : first.length = v.g.api.length)
    (hll : last.length = v.g.api.length)
    (hp : ∃ p, InSlice first last p ∧ Readable v.g.stepWrap v.g.api p)
    (hsv : StepsValid v.g.stepWrap v.g.api first last) (val : V) (idxMax : Int)
    (hmax : ∀ pts : List (List Int), pts.Nodup →
      (∀ x ∈ pts, InSlice first last x ∧ Readable v.g.stepWrap v.g.api x) → pts.length ≤ idxMax) :
    ∃ (v' : YVar V) (pts : List (List Int)),
      setSliceSame v env val first last false idxMax = .ok (v', pts.length) ∧
      pts.Nodup ∧ (∀ x, x ∈ pts ↔ InSlice first last x ∧ Readable v.g.stepWrap v.g.api x) ∧
      ∀ idx, Readable v.g.stepWrap v.g.api idx →
        ((∃ s ∈ pts, SameElem v.g.api s idx) → getElement v' idx = .ok val) ∧
        ((∀ s ∈ pts, ¬ SameElem v.g.api s idx) → getElement v' idx = getElement v idx) := by
  obtain ⟨g, m⟩ := v
  obtain ⟨m, rfl⟩ := Option.isSome_iff_exists.1 hmem
  have hok : g.Ok := hr.ok
  simp only at hs hfl hll hp hsv hmax ⊢
  have hgl : g.api.length = g.dims.length := by unfold Geom.api; simp
  rw [hgl] at hfl hll
  obtain ⟨p, hp1, hp2⟩ := hp
  obtain ⟨hne, hfv, hlv, hin⟩ := clip_slice hp1 hp2 hfl hll
  obtain ⟨b1, hf⟩ := checkIndices_clipIdx g first hfl
  obtain ⟨b2, hl⟩ := checkIndices_clipIdx g last hll
  generalize clipIdx g first = f at *
  generalize clipIdx g last = l at *
  have hpos := prodVals_pos _ (sliceSizes_pos hne)
  let pts := (List.range (prodVals (sliceSizes f l)).toNat).map (slicePt f l)
  have hmem' : ∀ x, x ∈ pts ↔ InSlice f l x := by
    intro x
    simp only [pts, List.mem_map, List.mem_range]
    constructor
    · rintro ⟨k, hk, rfl⟩; exact (slicePt_spec hne (by omega)).1
    · intro hx
      obtain ⟨k, hk, h1, _⟩ := slicePt_surj hne hx
      exact ⟨k, by omega, h1⟩
  have hnd : pts.Nodup := by
    apply List.Nodup.map_on _ List.nodup_range
    intro a ha b hb hab
    rw [List.mem_range] at ha hb
    have h1 := (slicePt_spec (k := a) hne (by omega)).2
    have h2 := (slicePt_spec (k := b) hne (by omega)).2
    rw [hab] at h1
    omega
  have hlen : (pts.length : Int) = prodVals (sliceSizes f l) := by
    simp only [pts, List.length_map, List.length_range]; omega
  have hbuf : prodVals (sliceSizes f l) ≤ idxMax := by
    rw [← hlen]; exact hmax pts hnd fun x hx => (hin x).1 ((hmem' x).1 hx)
  obtain ⟨m', h1, h2, h3⟩ := visitSlice_writes (⟨g, some m⟩ : YVar V) hok rfl hs env he.1 he.2 false
    idxMax first last f l b1 b2 hf hl hfv hlv hne hbuf
    (setSameBody g val) (fun _ => val) (by
      intro m k hk
      exact writeElem_visit hok hs (inSlice_valid hfv hlv (slicePt_spec hne hk).1) m _) m
  simp only at h2 h3
  have hss := setDirty_sameStore hok first last
  have hs' : StepsAlloc (g.setDirtyInSlice first last).api := hss.steps.2 hs
  have hread : ∀ idx, Readable (g.setDirtyInSlice first last).stepWrap
      (g.setDirtyInSlice first last).api idx ↔ Readable g.stepWrap g.api idx := by
    intro idx
    rw [hss.wrap]
    cases hw : g.stepWrap with
    | true => exact hss.range idx
    | false =>
      rw [hw] at hsv
      rw [setDirty_stepsValid hfl hll hsv]
  refine ⟨⟨g.setDirtyInSlice first last, some m'⟩, pts, ?_, hnd,
    fun x => (hmem' x).trans (hin x), fun idx hidx => ⟨?_, ?_⟩⟩
  · unfold setSliceSame
    simp only
    rw [h1, hlen]
    rfl
  · rintro ⟨s, hsp, hsame⟩
    have hsl := (hmem' s).1 hsp
    rw [getElement_eq hss.ok m' ((hread idx).2 hidx) fun _ => hs', hss.slots, hss.addr,
      ← (addr_eq_iff hok (inSlice_valid hfv hlv hsl) hidx.butStep hs).2 hsame,
      h2 s hsl (by simp)]
  · intro hno
    rw [getElement_eq hss.ok m' ((hread idx).2 hidx) fun _ => hs', hss.slots, hss.addr,
        getElement_eq hok m hidx fun _ => hs, h3]
    intro s hsl heq
    exact hno s ((hmem' s).2 hsl)
      ((addr_eq_iff hok (inSlice_valid hfv hlv hsl) hidx.butStep hs).1 heq)

example : (∃ p, InSlice [1, 5, -10, 0] [1, 13, 2, 9] p ∧ Readable exVar.g.stepWrap exVar.g.api p) ∧
    StepsValid exVar.g.stepWrap exVar.g.api [1, 5, -10, 0] [1, 13, 2, 9] ∧
    ((setSliceSame exVar exEnv 7 [1, 5, -10, 0] [1, 13, 2, 9] false 1000 >>= fun r => do
      pure (r.2, ← getElement r.1 [1, 13, -6, 0], ← getElement r.1 [1, 14, -6, 0])) =
        .ok (18, 7, 0)) := by
  have hw : exVar.g.stepWrap = false := by decide +kernel
  refine ⟨⟨[1, 12, 0, 0], ?_, ?_⟩, ?_, ?_⟩
  · simp [InSlice]
  · simp [hw, Readable, exVar_api, InRange]
  · unfold StepsValid; right; decide +kernel
  · decide +kernel

/-- C53, for a slice that is entirely outside the range: the property does not hold.  Both ends of the
slice are clipped to the boundary of the range, so an element that is not in the slice is set, and one
element is reported as set. -/
theorem C53_fails_outside :
    ∃ (v v' : YVar Int), Reachable v ∧ StepsAlloc v.g.api ∧ EnvOk exEnv ∧
      (∀ x, InSlice [1, 100, 0, 0] [1, 110, 0, 0] x → ¬ Readable v.g.stepWrap v.g.api x) ∧
      ¬ InSlice [1, 100, 0, 0] [1, 110, 0, 0] [1, 35, 0, 0] ∧
      setSliceSame v exEnv 7 [1, 100, 0, 0] [1, 110, 0, 0] false 1000 = .ok (v', 1) ∧
      getElement v [1, 35, 0, 0] = .ok 0 ∧ getElement v' [1, 35, 0, 0] = .ok 7 := by
  refine ⟨exVar, _, exVar_reachable, exVar_steps, exEnv_ok, ?_, ?_, rfl, ?_, ?_⟩
  · intro x hx hre
    have h := hre.butStep
    rw [exVar_api] at h
    unfold InRangeButStep at h
    unfold InSlice at hx
    match x, hx with
    | [a, b, c, d], hx => simp at h hx; omega
  · simp [InSlice]
  · decide +kernel
  · decide +kernel

/-- C53, for a slice with steps outside the valid range (of a var whose step indices are not wrapped):
the property does not hold either.  The steps are clipped for the writes, but then the valid range is
moved by the steps that were not written: the slice is steps 2 to 4 of a var that stores steps 0 to 2;
one element is set; afterwards steps 2 to 4 are valid and step 3 has the old value of step 0. -/
theorem C53_fails_for_new_steps :
    ∃ (v v1 v' : YVar Int), Reachable v ∧ StepsAlloc v.g.api ∧ EnvOk exEnv ∧
      setElement v 5 [0, 13, 2, -1] true = .ok (v1, 1) ∧
      setSliceSame v1 exEnv 7 [2, 13, 2, -1] [4, 13, 2, -1] false 1000 = .ok (v', 1) ∧
      getElement v' [3, 13, 2, -1] = .ok 5 ∧ getElement v' [0, 13, 2, -1] = .throws := by
  refine ⟨exVar, _, _, exVar_reachable, exVar_steps, exEnv_ok, rfl, rfl, ?_, ?_⟩
  · decide +kernel
  · decide +kernel

end Yask
