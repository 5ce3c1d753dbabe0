import Verif.Setup.AllocLemmas
import Verif.Var.ResizeModel
import Verif.Compiler.SlotModel

/-!
# C30: vars and buffers get disjoint storage
-/

namespace Yask
open Spec Setup

/-! ## Vars -/

/-- C30 (vars). Let `outs`, `orig` and `all` be the output vars, the vars of the solution and all vars, in any order, and
let storage be given to those without storage. If allocations are bundled, or no two vars have been fused: every var has
storage after the call; the new storage of each var, with a pad of three cache lines after it, lies inside the memory that was
allocated, starts at a cache line, and does not overlap that of any other var. -/
theorem C30_vars_partial (bundle : Bool) (v : AVars) (outs orig all : List Nat)
    (hb : bundle = true ∨ (outs.Nodup ∧
      ∀ x ∈ outs ++ orig ++ all, ∀ y ∈ outs ++ orig ++ all, v.core x = v.core y → x = y)) :
    (∀ x ∈ all, v.old (v.core x) = false → ∃ p, (allocVars bundle v outs orig all).2 (v.core x) = some p) ∧
    (∀ c p, (allocVars bundle v outs orig all).2 c = some p →
      (p.area (v.bytes c + 192)).Inside (allocVars bundle v outs orig all).1 ∧ 64 ∣ p.ofs ∧ v.old c = false) ∧
    ∀ c c' p p', (allocVars bundle v outs orig all).2 c = some p → (allocVars bundle v outs orig all).2 c' = some p' → c ≠ c' →
      (p.area (v.bytes c + 192)).Apart (p'.area (v.bytes c' + 192)) := by
  have hd : bundle = true ∨ (((sortVars outs orig all).map v.core).Nodup ∧
      ∀ x ∈ sortVars outs orig all, ({} : AState).store (v.core x) = none) := by
    rcases hb with h | ⟨h1, h2⟩
    · exact .inl h
    · right
      refine ⟨?_, fun _ _ => rfl⟩
      rw [List.nodup_map_iff_inj_on (nodup_sortVars _ _ _ h1)]
      intro x hx y hy he
      rw [mem_sortVars] at hx hy
      exact h2 x (by simpa [or_assoc] using hx) y (by simpa [or_assoc] using hy) he
  have hh : Handed v {} := by
    refine ⟨?_, ?_, ?_, ?_, ?_⟩
    · intro c p h; cases h
    · intro c c' p p' h; cases h
    · intro c p h; cases h
    · intro k; exact Nat.dvd_zero _
    · intro c p h; cases h
  obtain ⟨r1, r2, r3, r4⟩ := passes bundle v (varSizes bundle v (sortVars outs orig all)) (sortVars outs orig all) {} {} hd
    ⟨fun _ => Nat.le_refl _, rfl, fun _ => rfl, fun _ => rfl⟩ hh (fun _ => Nat.le_refl _)
  have hp : bufPad = 192 := rfl
  refine ⟨?_, ?_, ?_⟩
  · intro x hx ho
    exact r4 x ((mem_sortVars _ _ _ _).2 (.inr hx)) ho
  · intro c p h
    refine ⟨?_, r1.line c p h, r1.fresh c p h⟩
    rintro k i ⟨rfl, h1, h2⟩
    have a1 := r1.inside c p h
    have a2 := r2 p.chunk
    have a3 := resBytes_ge (v.bytes c)
    simp only [Place.area] at h1 h2 ⊢
    show i < varSizes bundle v (sortVars outs orig all) p.chunk
    omega
  · rintro c c' p p' h h' hne k i ⟨⟨e1, a1, a2⟩, ⟨e2, b1, b2⟩⟩
    have a3 := resBytes_ge (v.bytes c)
    have b3 := resBytes_ge (v.bytes c')
    simp only [Place.area] at a1 a2 b1 b2 e1 e2
    have := r1.apart c c' p p' h h' hne (e1.symm.trans e2)
    omega

/-- Three vars of different sizes, the second of which has storage. -/
def storeDemo : AVars := { core := id, bytes := fun c => 100 * (c + 1), numa := fun c => if c = 2 then 1 else 0, old := fun c => c == 1 }

example : (allocVars true storeDemo [2] [0, 2] [0, 1, 2, 3]).2 0 = some ⟨(0, 0), 0⟩ ∧
    (allocVars true storeDemo [2] [0, 2] [0, 1, 2, 3]).2 3 = some ⟨(0, 0), 320⟩ ∧
    (allocVars true storeDemo [2] [0, 2] [0, 1, 2, 3]).2 2 = some ⟨(1, 0), 0⟩ ∧
    (allocVars true storeDemo [2] [0, 2] [0, 1, 2, 3]).2 1 = none ∧
    (allocVars true storeDemo [2] [0, 2] [0, 1, 2, 3]).1 (0, 0) = 320 + 640 := by decide +kernel

/-- Vars 1 and 2 have been fused (`fuse_vars`): both are core 1. Var 3 is larger. -/
def storeFused : AVars :=
  { core := fun gp => if gp = 2 then 1 else gp, bytes := fun c => if c = 3 then 5000 else 100, numa := fun _ => 0, old := fun _ => false }

/-- C30 is false for fused vars if allocations are not bundled, as is the default for offload builds: the sequence number
counts the second fused var in the first pass but not in the second, so that the next var gets the memory that was allocated
for the fused one: var 3 of 5000 bytes is given a chunk of 320 bytes. -/
theorem C30_fused_vars_overflow :
    (allocVars false storeFused [] [0, 1] [0, 1, 2, 3]).2 3 = some ⟨(0, 3), 0⟩ ∧
    (allocVars false storeFused [] [0, 1] [0, 1, 2, 3]).1 (0, 3) = 320 ∧ storeFused.bytes 3 = 5000 := by decide +kernel

/-! ## Scratch vars -/

/-- C30 (scratch). If no scratch var is larger than the first one with the same memory slot: every scratch var of every thread
gets storage inside the allocated memory, and scratch vars of different threads or with different slots do not overlap. -/
theorem C30_scratch_partial (bundle : Bool) (v : AScratch) (nvars nthreads : Nat)
    (hs : ∀ g < nvars, ∀ g' < nvars, v.slot g = v.slot g' → g < g' → (∀ h < g, v.slot h ≠ v.slot g) → v.bytes g' ≤ v.bytes g) :
    ∀ g < nvars, ∀ t < nthreads, ∃ p, (allocScratch bundle v nvars nthreads).2 g t = some p ∧
      (p.area (v.bytes g + 192)).Inside (allocScratch bundle v nvars nthreads).1 ∧
      ∀ g' < nvars, ∀ t' < nthreads, ∃ p', (allocScratch bundle v nvars nthreads).2 g' t' = some p' ∧
        ((t ≠ t' ∨ v.slot g ≠ v.slot g') → (p.area (v.bytes g + 192)).Apart (p'.area (v.bytes g' + 192))) ∧
        (t = t' → v.slot g = v.slot g' → p = p') := by
  obtain ⟨r1, r2⟩ := allocScratch_spec bundle v nvars nthreads
  -- a var is not larger than the area of its slot
  have hfit : ∀ g < nvars, v.bytes g ≤ firstBytes v nvars (v.slot g) := by
    intro g hg
    have hex : ∃ g', v.slot g' = v.slot g := ⟨g, rfl⟩
    classical
    have h1 := Nat.find_spec hex
    have h2 : ∀ h < Nat.find hex, v.slot h ≠ v.slot g := fun h hh => Nat.find_min hex hh
    have h3 : Nat.find hex ≤ g := Nat.find_min' hex rfl
    generalize Nat.find hex = f at h1 h2 h3
    have h4 : firstBytes v nvars (v.slot f) = v.bytes f := firstBytes_eq (by omega) (by rw [h1]; exact h2)
    rw [← h1, h4]
    rcases Nat.lt_or_eq_of_le h3 with h5 | h5
    · exact hs f (by omega) g hg h1 h5 (by rw [h1]; exact h2)
    · rw [h5]
  have hp : bufPad = 192 := rfl
  intro g hg t ht
  obtain ⟨p, h⟩ := r2 g hg t ht
  have hsl := r1.store g t p h
  have a3 := resBytes_ge (firstBytes v nvars (v.slot g))
  have a4 := hfit g hg
  refine ⟨p, h, ?_, ?_⟩
  · rintro k i ⟨rfl, h1, h2⟩
    have a1 := r1.inside t (v.slot g) p hsl
    simp only [Place.area] at h1 h2 ⊢
    show i < ((scratchOrder nvars nthreads).foldl (scratchStep bundle v) {}).reqs p.chunk
    omega
  · intro g' hg' t' ht'
    obtain ⟨p', h'⟩ := r2 g' hg' t' ht'
    have hsl' := r1.store g' t' p' h'
    refine ⟨p', h', ?_, ?_⟩
    · rintro hne k i ⟨⟨e1, a1, a2⟩, ⟨e2, b1, b2⟩⟩
      have b3 := resBytes_ge (firstBytes v nvars (v.slot g'))
      have b4 := hfit g' hg'
      simp only [Place.area] at a1 a2 b1 b2 e1 e2
      have := r1.apart t (v.slot g) p t' (v.slot g') p' hsl hsl' (by
        intro he
        simp only [Prod.mk.injEq] at he
        rcases hne with hne | hne
        · exact hne he.1
        · exact hne he.2) (e1.symm.trans e2)
      omega
    · rintro rfl he
      rw [he, hsl'] at hsl
      exact (Option.some.inj hsl).symm

/-- Scratch vars 0 and 1 share slot 0, scratch var 2 has slot 1. -/
def scratchDemo : AScratch := { slot := fun g => if g = 2 then 1 else 0, bytes := fun g => if g = 2 then 900 else 640, numa := fun _ => 0 }

example : (∀ g < 3, ∀ g' < 3, scratchDemo.slot g = scratchDemo.slot g' →
      scratchDemo.bytes g' ≤ scratchDemo.bytes g) ∧
    (allocScratch true scratchDemo 3 2).2 0 1 = some ⟨(0, 0), 832⟩ ∧ (allocScratch true scratchDemo 3 2).2 1 1 = some ⟨(0, 0), 832⟩ ∧
    (allocScratch true scratchDemo 3 2).2 2 0 = some ⟨(0, 0), 1664⟩ := by decide +kernel

/-- C30 (sizes of scratch vars). Without wave-fronts and temporal blocks, scratch vars with the same number of points in misc
dims have the same size, whatever their halos, if no halo is larger than the largest write halo. So the condition on sizes of
`C30_scratch_partial` holds for the slots that the compiler assigns. -/
theorem C30_scratch_sizes (vlenGt1 allowAddl : Bool) (elemBytes misc : Nat) (ds : List SDim) (hs hs' : List (Int × Int))
    (hext : ∀ d ∈ ds, d.ext = 0)
    (h : List.Forall₂ (fun d (h : Int × Int) => h.1 ≤ d.minL ∧ h.2 ≤ d.minR) ds hs)
    (h' : List.Forall₂ (fun d (h : Int × Int) => h.1 ≤ d.minL ∧ h.2 ≤ d.minR) ds hs') :
    scratchBytes vlenGt1 allowAddl elemBytes misc ds hs = scratchBytes vlenGt1 allowAddl elemBytes misc ds hs' := by
  have key : List.zipWith (fun d h => ((SDim.dimG d h).resized vlenGt1 allowAddl false).alloc) ds hs =
      List.zipWith (fun d h => ((SDim.dimG d h).resized vlenGt1 allowAddl false).alloc) ds hs' := by
    induction h generalizing hs' with
    | nil => cases h'; rfl
    | @cons d x ds hs hx hxs ih =>
      cases h' with
      | @cons _ y _ hs' hy hys =>
        rw [List.zipWith_cons_cons, List.zipWith_cons_cons, ih hs' (fun d hd => hext d (List.mem_cons_of_mem _ hd)) hys]
        congr 1
        have e0 := hext d (List.mem_cons_self ..)
        have l1 : max (x.1 + 0 + 0) (max 0 d.minL) = max (y.1 + 0 + 0) (max 0 d.minL) := by omega
        have l2 : max (x.2 + 0 + 0) (max 0 d.minR) = max (y.2 + 0 + 0) (max 0 d.minR) := by omega
        simp only [SDim.dimG, Var.DimG.resized, Var.DimG.newLPad, Var.DimG.newRPad, Var.DimG.newRPad0, e0, l1, l2, if_true]
  unfold scratchBytes
  rw [key]

example : (∀ d ∈ [({ mblk := 64, ext := 0, minL := 8, minR := 8 } : SDim)], d.ext = 0) ∧
    scratchBytes false false 4 1 [{ mblk := 64, ext := 0, minL := 8, minR := 8 }] [(1, 2)] = 320 ∧
    scratchBytes false false 4 1 [{ mblk := 64, ext := 0, minL := 8, minR := 8 }] [(8, 8)] = 320 := by decide +kernel

/-- Two scratch vars, used in different stages, with halos of 1 and 8 points in each of two dims; micro-blocks of 64 by 64
points in wave-fronts with an allowance of 8 points. -/
def scratchBad : AScratch :=
  { slot := fun _ => 0, numa := fun _ => 0
    bytes := fun g => scratchBytes false false 4 1 [⟨64, 8, 8, 8, 1, false⟩, ⟨64, 8, 8, 8, 1, true⟩]
      (if g = 0 then [(1, 1), (1, 1)] else [(8, 8), (8, 8)]) }

/-- C30 is false for scratch vars with wave-fronts: the compiler gives both scratch vars slot 0, since they have the same
number of points in misc dims and are not used in the same stage; but the second one needs 36864 bytes, and the area of the
slot, sized for the first, has 27136: the second one overlaps the scratch vars of the next thread, and that of the last thread
reaches beyond the allocated memory. -/
theorem C30_scratch_overlap :
    ((Comp.calcLifespans (fun _ => 1) [⟨[0], [0]⟩, ⟨[1], [1]⟩] [0, 1] [1]) >>= fun f => Outcome.ok (f 0, f 1)) =
      .ok (some (scratchBad.slot 0), some (scratchBad.slot 1)) ∧
    (allocScratch true scratchBad 2 2).2 1 0 = some ⟨(0, 0), 0⟩ ∧ scratchBad.bytes 1 = 36864 ∧
    (allocScratch true scratchBad 2 2).2 0 1 = some ⟨(0, 0), 27136⟩ ∧
    (allocScratch true scratchBad 2 2).2 1 1 = some ⟨(0, 0), 27136⟩ ∧
    (allocScratch true scratchBad 2 2).1 (0, 0) = 54272 ∧
    ¬(Place.area ⟨(0, 0), 0⟩ (scratchBad.bytes 1)).Apart (Place.area ⟨(0, 0), 27136⟩ (scratchBad.bytes 0)) ∧
    ¬(Place.area ⟨(0, 0), 27136⟩ (scratchBad.bytes 1)).Inside (allocScratch true scratchBad 2 2).1 := by
  have b1 : scratchBad.bytes 1 = 36864 := by decide +kernel
  have b0 : scratchBad.bytes 0 = 26896 := by decide +kernel
  have hs : (allocScratch true scratchBad 2 2).1 (0, 0) = 54272 := by decide +kernel
  refine ⟨by decide +kernel, by decide +kernel, b1, by decide +kernel, by decide +kernel, hs, ?_, ?_⟩
  · intro h
    apply h (0, 0) 30000
    rw [b0, b1]
    refine ⟨⟨rfl, ?_, ?_⟩, ⟨rfl, ?_, ?_⟩⟩ <;> simp only [Place.area] <;> omega
  · intro h
    have := h (0, 0) 60000 ⟨rfl, by simp only [Place.area]; omega, by simp only [Place.area]; omega⟩
    omega

/-! ## MPI buffers -/

/-- C30 (buffers). For every list of buffers of a rank: the buffers of the rank's own memory are given storage in the order of
the list; the storage of each, with the 192 bytes for a lock after it, is inside the allocated memory and overlaps no other. -/
theorem C30_buffers (numaPref : Int) (bufs : List ABuf) :
    (allocBufs numaPref bufs).store.map Prod.fst = bufs.filter (fun b => b.bytes ≠ 0 && (b.send || b.shm.isNone)) ∧
    (∀ x ∈ (allocBufs numaPref bufs).store, (x.2.area (x.1.bytes + 192)).Inside (allocBufs numaPref bufs).reqs) ∧
    (allocBufs numaPref bufs).store.Pairwise fun x y => (x.2.area (x.1.bytes + 192)).Apart (y.2.area (y.1.bytes + 192)) := by
  have hh : MHanded (allocBufs numaPref bufs) := allocBufs_handed numaPref bufs {}
    ⟨(by intro x hx; cases hx), List.Pairwise.nil⟩
  have hp : bufPad = 192 := rfl
  refine ⟨?_, ?_, ?_⟩
  · have := allocBufs_store numaPref bufs {}
    rw [List.map_nil, List.nil_append] at this
    exact this
  · rintro x hx k i ⟨rfl, h1, h2⟩
    have a1 := hh.inside x hx
    have a2 := resBytes_ge x.1.bytes
    simp only [Place.area] at h1 h2 ⊢
    omega
  · apply hh.apart.imp
    rintro x y hxy k i ⟨⟨e1, a1, a2⟩, ⟨e2, b1, b2⟩⟩
    have a3 := resBytes_ge x.1.bytes
    simp only [Place.area] at a1 a2 b1 b2 e1 e2
    have := hxy (e1.symm.trans e2)
    omega

/-- C30 (shared memory). The receive buffer of a rank for a sender in the same shared-memory group is the send buffer of the
sender: `b` is the only buffer of its var that the sender sends to rank `r` of the group. -/
theorem C30_shared_buffer (numaPref : Int) (bufs : List ABuf) (b : ABuf) (r : Nat) (hb : b ∈ bufs) (hs : b.send = true)
    (hr : b.shm = some r) (h0 : b.bytes ≠ 0) (hnd : bufs.Nodup)
    (hu : ∀ b' ∈ bufs, b'.send = true → b'.shm = some r → b'.var = b.var → b' = b) :
    (b, recvPlace (allocBufs numaPref bufs) b.var r) ∈ (allocBufs numaPref bufs).store := by
  obtain ⟨p, h1, h2, h3⟩ := allocBufs_sbOfs numaPref bufs {} b r hb hs hr h0 hu hnd
  have : p = recvPlace (allocBufs numaPref bufs) b.var r := by
    obtain ⟨k, o⟩ := p
    simp only at h2 h3
    unfold recvPlace allocBufs
    rw [h2, h3]
  rw [← this]
  exact h1

/-- Two vars, two neighbours; one shares memory. -/
def bufDemo : List ABuf :=
  [⟨0, 3, true, 100, some 1⟩, ⟨0, 3, false, 120, some 1⟩, ⟨0, 5, true, 80, none⟩, ⟨0, 5, false, 90, none⟩,
   ⟨1, 3, true, 200, some 1⟩, ⟨1, 3, false, 200, some 1⟩]

example : (allocBufs 0 bufDemo).store.map Prod.snd = [⟨(1000, 0), 0⟩, ⟨(0, 0), 0⟩, ⟨(0, 0), 320⟩, ⟨(1000, 0), 320⟩] ∧
    recvPlace (allocBufs 0 bufDemo) 1 1 = ⟨(1000, 0), 320⟩ ∧ bufDemo.Nodup ∧
    (∀ b' ∈ bufDemo, b'.send = true → b'.shm = some 1 → b'.var = 1 → b' = ⟨1, 3, true, 200, some 1⟩) := by decide +kernel

end Yask
