import Verif.Var.SliceOps

/-! Helper lemmas: effect of slice operations on the storage. -/

namespace Yask.Var
open Spec

variable {V : Type}

/-- A slice operation whose body writes one value per visited point. -/
theorem visitSlice_writes (v : YVar V) (hok : v.g.Ok) (hmem : v.mem.isSome)
    (hs : StepsAlloc v.g.api) (env : SliceEnv) (hn : 0 < env.nthr)
    (hord : ∀ l, (env.order l).Perm l) (strict : Bool) (bufSize : Int)
    (first last f l : List Int) (b1 b2 : Bool)
    (hf : v.g.checkIndices first strict true false = .ok (b1, f))
    (hl : v.g.checkIndices last strict true false = .ok (b2, l))
    (hfv : InRangeButStep v.g.api f) (hlv : InRangeButStep v.g.api l) (hne : SliceNonempty f l)
    (hbuf : prodVals (sliceSizes f l) ≤ bufSize)
    (body : (Int → V) → List Int × Int × Int → Outcome (Int → V)) (val : Nat → V)
    (hbody : ∀ m (k : Nat), (k : Int) < prodVals (sliceSizes f l) →
      body m (slicePt f l k, if v.g.hasStep then (slicePt f l k).getD 0 0 % v.g.stepSize else 0, (k : Int)) =
        .ok (poke m (v.g.addrOfSlots (slots v.g.dims (slicePt f l k))) (val k)))
    (m : Int → V) :
    ∃ m', visitSlice v env strict bufSize first last body m = .ok (m', prodVals (sliceSizes f l)) ∧
      (∀ idx, InSlice f l idx →
        (∀ b, InSlice f l b → SameElem v.g.api b idx →
          val (slicePos f l b).toNat = val (slicePos f l idx).toNat) →
        m' (v.g.addrOfSlots (slots v.g.dims idx)) = val (slicePos f l idx).toNat) ∧
      (∀ a, (∀ idx, InSlice f l idx → v.g.addrOfSlots (slots v.g.dims idx) ≠ a) → m' a = m a) := by
  obtain ⟨L, hL, hv⟩ := visitSlice_eq v hmem env hn hord strict bufSize first last f l b1 b2 hf hl
    (inRangeButStep_length hfv) (inRangeButStep_length hlv)
    (by rw [sliceRange_eq hne]; exact sliceSizes_pos hne) (by rw [sliceRange_eq hne]; exact hbuf)
    (stepSize_pos hok hs) body m
  have hmemL : ∀ x, x ∈ L ↔ _ := fun x => (hL.mem_iff).trans (mem_sliceVisits hne)
  let A : List Int × Int × Int → Int := fun x => v.g.addrOfSlots (slots v.g.dims x.1)
  let W : List Int × Int × Int → V := fun x => val x.2.2.toNat
  have hfold : L.foldlM body m = .ok (L.foldl (fun m x => poke m (A x) (W x)) m) := by
    apply foldlM_ok
    intro s x hx
    obtain ⟨k, hk, rfl⟩ := (hmemL x).1 hx
    rw [hbody s k hk]
    simp only [A, W, Int.toNat_natCast]
  refine ⟨L.foldl (fun m x => poke m (A x) (W x)) m, ?_, ?_, ?_⟩
  · rw [hv, hfold, sliceRange_eq hne]; rfl
  · intro idx hi hag
    obtain ⟨k, hk, hpt, hpos⟩ := slicePt_surj hne hi
    have hx := (hmemL _).2 ⟨k, hk, rfl⟩
    rw [hpt] at hx
    have := foldl_poke_hit A W L m _ hx (by
      intro y hy hA
      obtain ⟨k', hk', rfl⟩ := (hmemL y).1 hy
      obtain ⟨q1, q2⟩ := slicePt_spec hne hk'
      have hsame := (addr_eq_iff hok (inSlice_valid hfv hlv q1) (inSlice_valid hfv hlv hi) hs).1 hA
      have := hag _ q1 hsame
      rw [q2, hpos] at this
      simpa [W] using this)
    simp only [A, W] at this
    rw [this, hpos]
  · intro a ha
    apply foldl_poke_miss
    intro y hy
    obtain ⟨k', hk', rfl⟩ := (hmemL y).1 hy
    exact ha _ (slicePt_spec hne hk').1

/-- `writeElem` at a visited point. -/
theorem writeElem_visit {g : Geom} (hok : g.Ok) (hs : StepsAlloc g.api) {pt : List Int}
    (hv : InRangeButStep g.api pt) (m : Int → V) (val : V) :
    writeElem g m val pt (if g.hasStep then pt.getD 0 0 % g.stepSize else 0) =
      .ok (poke m (g.addrOfSlots (slots g.dims pt)) val) := by
  unfold writeElem
  rw [elemAddr_visit hok hs hv]
  simp only [Outcome.bind_ok, wrMem]
  rw [if_pos (addrOfSlots_range hok (slots_inSpace hok hv hs))]
  rfl

theorem readElem_visit {g : Geom} (hok : g.Ok) (hs : StepsAlloc g.api) {pt : List Int}
    (hv : InRangeButStep g.api pt) (m : Int → V) :
    readElem g m pt (if g.hasStep then pt.getD 0 0 % g.stepSize else 0) =
      .ok (m (g.addrOfSlots (slots g.dims pt))) := by
  unfold readElem
  rw [elemAddr_visit hok hs hv]
  simp only [Outcome.bind_ok, rdMem]
  rw [if_pos (addrOfSlots_range hok (slots_inSpace hok hv hs))]

/-- Getting a slice. -/
theorem getSlice_eq (g : Geom) (m : Int → V) (hok : g.Ok) (hs : StepsAlloc g.api) (env : SliceEnv)
    (hn : 0 < env.nthr) (hord : ∀ l, (env.order l).Perm l) (buf : Int → V) (bufSize : Int)
    (first last : List Int) (hf : Readable g.stepWrap g.api first)
    (hl : Readable g.stepWrap g.api last) (hne : SliceNonempty first last)
    (hbuf : prodVals (sliceSizes first last) ≤ bufSize) :
    ∃ buf', getSlice ⟨g, some m⟩ env buf bufSize first last =
        .ok (buf', prodVals (sliceSizes first last)) ∧
      (∀ idx, InSlice first last idx →
        buf' (slicePos first last idx) = m (g.addrOfSlots (slots g.dims idx))) ∧
      (∀ k, k < 0 ∨ prodVals (sliceSizes first last) ≤ k → buf' k = buf k) := by
  have hfc := checkIndices_ok g first true true (by simpa using hf)
  have hlc := checkIndices_ok g last true true (by simpa using hl)
  obtain ⟨L, hL, hv⟩ := visitSlice_eq (⟨g, some m⟩ : YVar V) rfl env hn hord true bufSize first last
    first last true true hfc hlc (inRangeButStep_length hf.butStep) (inRangeButStep_length hl.butStep)
    (by rw [sliceRange_eq hne]; exact sliceSizes_pos hne) (by rw [sliceRange_eq hne]; exact hbuf)
    (stepSize_pos hok hs) (getBody g m bufSize) buf
  have hmemL : ∀ x, x ∈ L ↔ _ := fun x => (hL.mem_iff).trans (mem_sliceVisits (g := g) hne)
  let A : List Int × Int × Int → Int := fun x => x.2.2
  let W : List Int × Int × Int → V := fun x => m (g.addrOfSlots (slots g.dims x.1))
  have hfold : L.foldlM (getBody g m bufSize) buf =
      .ok (L.foldl (fun m x => poke m (A x) (W x)) buf) := by
    apply foldlM_ok
    intro s x hx
    obtain ⟨k, hk, rfl⟩ := (hmemL x).1 hx
    unfold getBody
    simp only
    rw [readElem_visit hok hs (inSlice_valid hf.butStep hl.butStep (slicePt_spec hne hk).1)]
    simp only [Outcome.bind_ok]
    rw [if_pos ⟨by omega, by omega⟩]
    rfl
  refine ⟨L.foldl (fun m x => poke m (A x) (W x)) buf, ?_, ?_, ?_⟩
  · unfold getSlice
    simp only
    rw [hv, hfold, sliceRange_eq hne]; rfl
  · intro idx hi
    obtain ⟨k, hk, hpt, hpos⟩ := slicePt_surj hne hi
    have hx := (hmemL _).2 ⟨k, hk, rfl⟩
    have := foldl_poke_hit A W L buf _ hx (by
      intro y hy hA
      obtain ⟨k', hk', rfl⟩ := (hmemL y).1 hy
      simp only [A, Int.natCast_inj] at hA
      subst hA
      rfl)
    simp only [A, W] at this
    rw [hpos, this, hpt]
  · intro a ha
    apply foldl_poke_miss
    intro y hy
    obtain ⟨k', hk', rfl⟩ := (hmemL y).1 hy
    simp only [A]
    omega

end Yask.Var
