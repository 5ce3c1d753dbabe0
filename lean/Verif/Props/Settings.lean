import Verif.Setup.SettingsLemmas
import Verif.Sched.SchedSpec
import Mathlib.Tactic.SplitIfs

/-!
# C31, C32: block sizes and thread counts

`adjustSettings` is run by `prepare_solution()` on the requested sizes.
-/

namespace Yask
open Spec Setup

/-- C31: for all requested sizes (zero, negative or too large), the adjustment succeeds, and in every dim the sizes are
positive and each is no larger than the enclosing one. -/
theorem C31_nest (s : KSet) (h : s.Legal) :
    ∃ s', adjustSettings s = .ok s' ∧ s'.nd = s.nd ∧ s'.rank = s.rank ∧ s'.fold = s.fold ∧
      ∀ j < s.nd, 0 < (s'.blk j).pico ∧ (s'.blk j).pico ≤ (s'.blk j).nano ∧ (s'.blk j).nano ≤ (s'.blk j).micro ∧
        (s'.blk j).micro ≤ (s'.blk j).block ∧ (s'.blk j).block ≤ (s'.blk j).mega ∧ (s'.blk j).mega ≤ s.rank j := by
  obtain ⟨s', hs, he⟩ := adjust_ok s h
  have hfr := preBind_frame s
  refine ⟨s', hs, ?_, ?_, ?_, fun j hj => ?_⟩
  · rw [he]; exact hfr.1
  · rw [he]; exact hfr.2.1
  · rw [he]; exact hfr.2.2.1
  · obtain ⟨f1, f2, f3, f4, f5⟩ := preBind_nest s h j hj
    rw [he]
    exact ⟨f5.pos, f5.le, f4.le, f3.le, f2.le, f1.le⟩

/-- C31: mega-block, block, micro-block and pico-block sizes are the least whole numbers of vectors that satisfy the
request, or the enclosing size if that is smaller or if nothing was requested (blocks have a default size). Nano-block
sizes are too, unless there are several inner threads and no nano-block size was given. -/
theorem C31_fits (s s' : KSet) (h : s.Legal) (hs : adjustSettings s = .ok s') (j : Nat) (hj : j < s.nd) :
    Fits (s.blk j).mega (s.rank j) (s.fold j) (s'.blk j).mega ∧
    Fits (s.reqBlock j) (s'.blk j).mega (s.fold j) (s'.blk j).block ∧
    Fits (s.blk j).micro (s'.blk j).block (s.fold j) (s'.blk j).micro ∧
    (∃ req, Fits req (s'.blk j).micro (s.fold j) (s'.blk j).nano ∧
      (s.innerThreads ≤ 1 ∨ ((∀ k < s.nd, 0 ≤ (s.blk k).nano) ∧ 0 ≤ s.stepBlk.nano ∧
        ∃ k < s.nd, 0 < (s.blk k).nano) → req = (s.blk j).nano)) ∧
    Fits (s.blk j).pico (s'.blk j).nano (s.fold j) (s'.blk j).pico := by
  obtain ⟨t, ht, he⟩ := adjust_ok s h
  rw [hs] at ht
  cases ht
  obtain ⟨f1, f2, f3, f4, f5⟩ := preBind_nest s h j hj
  rw [he]
  refine ⟨f1, f2, f3, ⟨midNano s j, f4, fun hn => ?_⟩, f5⟩
  unfold midNano
  have hno : ∀ s0 : KSet, ¬ (s0.innerThreads > 1 ∧ nanoSum s0 = 0) → (defaultNano s0) = s0 := by
    intro s0 hc
    unfold defaultNano
    rw [if_neg hc]
  rw [hno]
  · rfl
  · rintro ⟨hc, hsum⟩
    rcases hn with hn | ⟨h0, hst, k, hk, hpos⟩
    · simp only at hc; omega
    · have key : ∀ (l : List Nat) (a : Int), 0 ≤ a → (∀ k ∈ l, 0 ≤ (s.blk k).nano) →
          a ≤ l.foldl (fun a j => a + (s.blk j).nano) a ∧
          ∀ k ∈ l, (s.blk k).nano ≤ l.foldl (fun a j => a + (s.blk j).nano) a := by
        intro l
        induction l with
        | nil => intro a ha _; simp
        | cons x l ih =>
          intro a ha hl
          have hx := hl x (by simp)
          obtain ⟨i1, i2⟩ := ih (a + (s.blk x).nano) (by omega) fun k hk => hl k (by simp [hk])
          simp only [List.foldl_cons]
          refine ⟨by omega, fun k hk => ?_⟩
          rcases List.mem_cons.1 hk with rfl | hk
          · omega
          · exact i2 k hk
      have := (key (List.range s.nd) s.stepBlk.nano hst
        (fun k hk => h0 k (List.mem_range.1 hk))).2 k (List.mem_range.2 hk)
      have e2 : nanoSum { s with
          stepBlk := adjustSteps s.stepBlk
          blk := fun j => adjustOuter s.defBlk (s.rank j) (s.fold j) (s.blk j) } =
        (List.range s.nd).foldl (fun a j => a + (s.blk j).nano) s.stepBlk.nano := rfl
      omega

/-- C31: step counts become nonnegative; positive requests are kept; without one, mega-blocks and micro-blocks get the
number of steps of blocks. -/
theorem C31_steps (s s' : KSet) (h : s.Legal) (hs : adjustSettings s = .ok s') :
    0 ≤ s'.stepBlk.mega ∧ 0 ≤ s'.stepBlk.block ∧ 0 ≤ s'.stepBlk.micro ∧
    s'.stepBlk.block = max s.stepBlk.block 0 ∧
    (0 < s.stepBlk.mega → s'.stepBlk.mega = s.stepBlk.mega) ∧
    (s.stepBlk.mega ≤ 0 → s'.stepBlk.mega = s'.stepBlk.block) ∧
    (0 < s.stepBlk.micro → s'.stepBlk.micro = s.stepBlk.micro) ∧
    (s.stepBlk.micro ≤ 0 → s'.stepBlk.micro = s'.stepBlk.block) := by
  obtain ⟨t, ht, he⟩ := adjust_ok s h
  rw [hs] at ht
  cases ht
  have e : s'.stepBlk = adjustSteps s.stepBlk := by rw [he]; exact (preBind_frame s).2.2.2.1
  rw [e]
  unfold adjustSteps
  simp only
  refine ⟨?_, ?_, ?_, trivial, ?_, ?_, ?_, ?_⟩ <;> (try intro _) <;> (try split_ifs) <;> omega

/-- C31 gives what the tiling theorems (C01 to C08) require of sizes and steps: a run with the adjusted sizes is a legal
configuration, provided halos are nonnegative and the parts' domains are inside the bounding boxes. -/
theorem C31_legal (s s' : KSet) (h : s.Legal) (hs : adjustSettings s = .ok s') (c : RunCfg)
    (hnd : c.nd = s.nd) (h8 : c.nd ≤ 8)
    (hd : ∀ j < c.nd, (c.dim j).fold = s.fold j ∧ (c.dim j).rankSize = s.rank j ∧
      (c.dim j).megaSize = (s'.blk j).mega ∧ (c.dim j).blockSize = (s'.blk j).block ∧
      (c.dim j).microSize = (s'.blk j).micro)
    (hms : c.megaSteps = s'.stepBlk.mega) (hbs : c.blockSteps = s'.stepBlk.block)
    (hhalo : ∀ j < c.nd, 0 ≤ (c.dim j).maxHalo)
    (hbb : ∀ st p x, c.dom st p x = true → ∀ j < c.nd, InIvl (x.getD j 0) (c.stageBB st j))
    (hext : ∀ st p x, c.dom st p x = true → ∀ j < c.nd, InIvl (x.getD j 0) (c.extBeg j, c.extEnd j))
    (hr : ∀ j < c.nd, ∀ left, c.exteriorExists j left = true → 1 < (c.dim j).nranks) : c.Ok := by
  obtain ⟨st1, st2, -⟩ := C31_steps s s' h hs
  have hn : ∀ j < c.nd, 0 < s.fold j ∧ 0 < s.rank j ∧ _ ∧ _ ∧ _ :=
    fun j hj => ⟨h.fold_pos j (hnd ▸ hj), h.rank_pos j (hnd ▸ hj),
      (C31_fits s s' h hs j (hnd ▸ hj)).1, (C31_fits s s' h hs j (hnd ▸ hj)).2.1,
      (C31_fits s s' h hs j (hnd ▸ hj)).2.2.1⟩
  refine ⟨h8, fun j hj => ?_, hhalo, fun j hj => ?_, fun j hj => ?_, fun j hj => ?_, fun j hj => ?_, fun j hj => ?_,
    hms ▸ st1, hbs ▸ st2, hbb, hext, hr⟩
  all_goals obtain ⟨g1, g2, f1, f2, f3⟩ := hn j hj
  all_goals obtain ⟨d1, d2, d3, d4, d5⟩ := hd j hj
  · omega
  · omega
  · have := f1.pos; omega
  · have := f2.pos; omega
  · intro hlt
    rw [d3, d4] at hlt
    rw [d1, d4]
    rcases f2.whole with hw | hw
    · exact Int.le_of_dvd f2.pos hw
    · omega
  · have := f3.pos; omega

/-- C31: adjusting adjusted settings (a second `prepare_solution()` without other changes) keeps all sizes. -/
theorem C31_stable (s s' : KSet) (h : s.Legal) (hnd : 0 < s.nd) (hst : 0 ≤ s.stepBlk.nano)
    (hs : adjustSettings s = .ok s') :
    ∃ s'', adjustSettings s' = .ok s'' ∧ s''.stepBlk = s'.stepBlk ∧ ∀ j < s.nd, s''.blk j = s'.blk j := by
  obtain ⟨t, ht, he⟩ := adjust_ok s h
  rw [hs] at ht
  cases ht
  have hfr := preBind_frame s
  have f1 : s'.nd = s.nd := by rw [he]; exact hfr.1
  have f2 : s'.rank = s.rank := by rw [he]; exact hfr.2.1
  have f3 : s'.fold = s.fold := by rw [he]; exact hfr.2.2.1
  have f4 : s'.stepBlk = adjustSteps s.stepBlk := by rw [he]; exact hfr.2.2.2.1
  have f5 : s'.defBlk = s.defBlk := by rw [he]; exact hfr.2.2.2.2.2.1
  have f6 : s'.blk = (preBind s).blk := by rw [he]
  have h' : s'.Legal := ⟨by rw [f1, f2]; exact h.rank_pos, by rw [f1, f3]; exact h.fold_pos, f5 ▸ h.def_pos⟩
  obtain ⟨u, hu, heu⟩ := adjust_ok s' h'
  refine ⟨u, hu, ?_, fun j hj => ?_⟩
  · rw [heu]
    show (preBind s').stepBlk = _
    rw [(preBind_frame s').2.2.2.1, f4]
    unfold adjustSteps
    simp only [BlkSizes.mk.injEq, and_true]
    refine ⟨?_, ?_, ?_⟩ <;> (try split_ifs) <;> omega
  · have hu2 : u.blk j = (preBind s').blk j := by rw [heu]
    have hj' : j < s'.nd := f1 ▸ hj
    have hf := h.fold_pos j hj
    obtain ⟨q1, q2, q3, q4, q5⟩ := preBind_nest s h j hj
    have hpos : ∀ k < s.nd, 0 < ((preBind s).blk k).nano := fun k hk => (preBind_nest s h k hk).2.2.2.1.pos
    have e0 := preBind_blk s j
    -- the nano-block size is not chosen again
    have hmid : midNano s' j = (s'.blk j).nano := by
      unfold midNano
      have hno : ∀ s0 : KSet, ¬ (s0.innerThreads > 1 ∧ nanoSum s0 = 0) → (defaultNano s0) = s0 := by
        intro s0 hc
        unfold defaultNano
        rw [if_neg hc]
      rw [hno]
      · rfl
      · rintro ⟨-, hsum⟩
        have hsum' : (List.range s'.nd).foldl (fun a k => a + (s'.blk k).nano) (adjustSteps s'.stepBlk).nano = 0 := hsum
        have key : ∀ (l : List Nat) (a : Int), 0 ≤ a → (∀ k ∈ l, 0 < (s'.blk k).nano) →
            a + l.length ≤ l.foldl (fun a j => a + (s'.blk j).nano) a := by
          intro l
          induction l with
          | nil => intro a ha _; simp
          | cons x l ih =>
            intro a ha hl
            have hx := hl x (by simp)
            have := ih (a + (s'.blk x).nano) (by omega) fun k hk => hl k (by simp [hk])
            simp only [List.foldl_cons, List.length_cons]
            push_cast
            omega
        have hk := key (List.range s'.nd) (adjustSteps s'.stepBlk).nano
          (by rw [f4]; unfold adjustSteps; exact hst)
          (fun k hk => by rw [f6]; exact hpos k (f1 ▸ List.mem_range.1 hk))
        rw [List.length_range] at hk
        have h0 : (adjustSteps s'.stepBlk).nano = s.stepBlk.nano := by rw [f4]; rfl
        omega
    have hreq : s'.reqBlock j = (s'.blk j).block := by
      unfold KSet.reqBlock
      rw [if_neg]
      rw [f6]
      have := q2.pos
      omega
    rw [hu2, preBind_blk s' j, hmid, hreq, f2, f3, f6]
    generalize hB : (preBind s).blk j = B at *
    have i1 : fitSize B.mega (s.rank j) (s.fold j) = B.mega := by
      rw [e0]; exact fitSize_idem (h.rank_pos j hj) hf
    have i2 : fitSize B.block B.mega (s.fold j) = B.block := by
      rw [e0] at q1 ⊢; exact fitSize_idem q1.pos hf
    have i3 : fitSize B.micro B.block (s.fold j) = B.micro := by
      rw [e0] at q2 ⊢; exact fitSize_idem q2.pos hf
    have i4 : fitSize B.nano B.micro (s.fold j) = B.nano := by
      rw [e0] at q3 ⊢; exact fitSize_idem q3.pos hf
    have i5 : fitSize B.pico B.nano (s.fold j) = B.pico := by
      rw [e0] at q4 ⊢; exact fitSize_idem q4.pos hf
    simp only [i1, i2, i3, i4, i5]

/-- A 2D problem with folds of 4 and 2 points, one inner thread, and block sizes 0 (default 32) and 5. -/
def setDemo : KSet :=
  { nd := 2, rank := fun j => if j = 0 then 50 else 21, fold := fun j => if j = 0 then 4 else 2, innerLoop := 1
    blk := fun j => if j = 0 then ⟨0, 0, 9, -3, 100⟩ else ⟨1000, 5, 0, 0, 1⟩
    stepBlk := ⟨0, 2, -1, 0, 0⟩, defBlk := 32, innerThreads := 1, bindInner := false, bindPosn := 1 }

example : setDemo.Legal ∧ 0 < setDemo.nd ∧ 0 ≤ setDemo.stepBlk.nano := by
  refine ⟨⟨fun j _ => ?_, fun j _ => ?_, by decide⟩, by decide, by decide⟩ <;>
    (simp only [setDemo]; split <;> decide)

example : (adjustSettings setDemo).bind (fun s => .ok (s.blk 0)) = .ok ⟨50, 32, 12, 12, 12⟩ := by decide +kernel
example : (adjustSettings setDemo).bind (fun s => .ok (s.blk 1)) = .ok ⟨21, 6, 6, 6, 2⟩ := by decide +kernel
example : (adjustSettings setDemo).bind (fun s => .ok s.stepBlk) = .ok ⟨2, 2, 2, 0, 0⟩ := by decide +kernel
-- With 4 inner threads the nano-blocks are slabs of one vector.
example : (adjustSettings { setDemo with innerThreads := 4, blk := fun _ => ⟨0, 0, 0, 0, 0⟩ }).bind
    (fun s => .ok (s.blk 0, s.bindPosn)) = .ok (⟨50, 32, 32, 4, 4⟩, 1) := by decide +kernel

/-- The claim "the block size used is the one requested with `set_block_size()`, rounded up to whole vectors, whenever
that fits" is false for a second `prepare_solution()`: sizes are adjusted in place, so a size limited by a small rank
domain stays small after the rank domain is enlarged. Here 64 points are requested and 16 are used, on 128. -/
theorem C31_second_prepare_wrong :
    ∃ s s1 s2 : KSet, s.Legal ∧ adjustSettings s = .ok s1 ∧ (s.blk 0).block = 64 ∧
      Setup.KSet.Legal { s1 with rank := fun _ => 128 } ∧
      adjustSettings { s1 with rank := fun _ => 128 } = .ok s2 ∧ (s2.blk 0).mega = 16 ∧ (s2.blk 0).block = 16 := by
  let s : KSet :=
    { nd := 1, rank := fun _ => 16, fold := fun _ => 4, innerLoop := 0, blk := fun _ => ⟨0, 64, 0, 0, 0⟩
      stepBlk := ⟨0, 0, 0, 0, 0⟩, defBlk := 32, innerThreads := 1, bindInner := false, bindPosn := 1 }
  have hl : s.Legal := ⟨fun _ _ => (by decide : (0 : Int) < 16), fun _ _ => (by decide : (0 : Int) < 4), (by decide : (0 : Int) < 32)⟩
  have e1 : adjustSettings s = .ok (preBind s) := rfl
  have e2 : adjustSettings { preBind s with rank := fun _ => 128 } = .ok (preBind { preBind s with rank := fun _ => 128 }) :=
    rfl
  exact ⟨s, preBind s, _, hl, e1, rfl, ⟨fun _ _ => (by decide : (0 : Int) < 128), fun _ _ => (by decide : (0 : Int) < 4), (by decide : (0 : Int) < 32)⟩, e2, by decide +kernel,
    by decide +kernel⟩

/-- C32: at least one outer and one inner thread are used, and no more than `max(1, max_threads)` in all. -/
theorem C32_threads (maxT outer inner : Int) :
    let r := numCompThreads maxT outer inner
    1 ≤ r.1 ∧ 1 ≤ r.2.1 ∧ r.2.2 = r.2.1 * r.1 ∧ 1 ≤ r.2.2 ∧ r.2.2 ≤ max 1 maxT := by
  unfold numCompThreads
  simp only
  set mt := max maxT 1 with hmt
  set it := min (max inner 1) mt with hit
  have hit1 : 1 ≤ it := by omega
  have hmt1 : 0 ≤ mt := by omega
  rw [tdiv_nonneg_eq hmt1]
  set mo := max (mt / it) 1 with hmo
  have h1 : it * (mt / it) ≤ mt := Int.mul_ediv_self_le (by omega)
  have h2 : 1 ≤ mt / it := by
    rw [Int.le_ediv_iff_mul_le (by omega)]; omega
  have hmo2 : mo = mt / it := by omega
  set ot := min (if outer ≤ 0 then mo else outer) mo with hot
  have hot1 : 1 ≤ ot := by split_ifs at hot <;> omega
  have hot2 : ot ≤ mo := by omega
  have h3 : it * ot ≤ it * mo := mul_le_mul_of_nonneg_left hot2 (by omega)
  have h4 : 1 * 1 ≤ it * ot := mul_le_mul hit1 hot1 (by omega) (by omega)
  refine ⟨hot1, hit1, trivial, by omega, ?_⟩
  rw [hmo2] at h3
  omega

/-- C32: a request that fits is used as it is; when the number of outer threads is not given, as many as fit are used. -/
theorem C32_requests_kept (maxT outer inner : Int) (hi : 1 ≤ inner) (hi2 : inner ≤ maxT) :
    let r := numCompThreads maxT outer inner
    r.2.1 = inner ∧ (1 ≤ outer → inner * outer ≤ maxT → r.1 = outer) ∧
    (outer ≤ 0 → ∀ n, inner * n ≤ maxT → n ≤ r.1) := by
  unfold numCompThreads
  simp only
  have e1 : max maxT 1 = maxT := by omega
  have e2 : max inner 1 = inner := by omega
  have e3 : min inner maxT = inner := by omega
  simp only [e1, e2, e3]
  rw [tdiv_nonneg_eq (by omega)]
  refine ⟨trivial, fun ho hp => ?_, fun ho n hn => ?_⟩
  · have : outer ≤ maxT / inner := by
      rw [Int.le_ediv_iff_mul_le (by omega)]; rw [mul_comm]; exact hp
    rw [if_neg (by omega)]; omega
  · have : n ≤ maxT / inner := by
      rw [Int.le_ediv_iff_mul_le (by omega)]; rw [mul_comm]; exact hn
    rw [if_pos ho]; omega

example : numCompThreads 8 0 3 = (2, 3, 6) ∧ numCompThreads 8 4 2 = (4, 2, 8) ∧ numCompThreads (-1) (-7) 9 = (1, 1, 1) ∧
    numCompThreads 8 100 2 = (4, 2, 8) := by decide +kernel

/-- C32 (binding). When data is bound to several inner threads, the dim along which nano-blocks are dealt to them
(`_bind_posn`, whose position 0 is the step dim) is the first domain dim other than the inner-loop dim that has at least one
nano-block per inner thread in a block, if there is such a dim. -/
theorem C32_binding_dim (s s' : KSet) (h : s.Legal) (hs : adjustSettings s = .ok s') (hb : s.bindInner = true)
    (ht : 1 < s.innerThreads) (j : Nat) (hj : j < s.nd) (hin : j ≠ s.innerLoop)
    (henough : (s.innerThreads - 1) * (s'.blk j).nano < (s'.blk j).block)
    (hfirst : ∀ i < j, i ≠ s.innerLoop → (s'.blk i).block ≤ (s.innerThreads - 1) * (s'.blk i).nano) :
    s'.bindPosn = j + 1 := by
  obtain ⟨t, ht1, he⟩ := adjust_ok s h
  rw [hs] at ht1
  cases ht1
  have hfr := preBind_frame s
  have hblk : s'.blk = (preBind s).blk := by rw [he]
  rw [hblk] at henough hfirst
  have hnano : ∀ i < s.nd, 0 < ((preBind s).blk i).nano ∧ 0 ≤ ((preBind s).blk i).block := fun i hi =>
    let hn := preBind_nest s h i hi
    ⟨hn.2.2.2.1.pos, le_of_lt hn.2.1.pos⟩
  have hcd : ∀ i < s.nd, (ceilDiv ((preBind s).blk i).block ((preBind s).blk i).nano ≥ s.innerThreads ↔
      (s.innerThreads - 1) * ((preBind s).blk i).nano < ((preBind s).blk i).block) := by
    intro i hi
    obtain ⟨n0, b0⟩ := hnano i hi
    obtain ⟨c1, c2⟩ := ceilDiv_spec b0 n0
    constructor
    · intro hge
      have h1 : (s.innerThreads - 1) * ((preBind s).blk i).nano ≤
          (ceilDiv ((preBind s).blk i).block ((preBind s).blk i).nano - 1) * ((preBind s).blk i).nano :=
        Int.mul_le_mul_of_nonneg_right (by omega) (le_of_lt n0)
      rw [Int.sub_mul (ceilDiv _ _) 1, Int.one_mul] at h1
      omega
    · intro hlt
      by_contra hc
      have h1 : ceilDiv ((preBind s).blk i).block ((preBind s).blk i).nano * ((preBind s).blk i).nano ≤
          (s.innerThreads - 1) * ((preBind s).blk i).nano :=
        Int.mul_le_mul_of_nonneg_right (by omega) (le_of_lt n0)
      omega
  have key : ∀ m k, m + k = s.nd → m ≤ j → findBind (preBind s) (List.range' m k) = .ok (j + 1) := by
    intro m k
    induction k generalizing m with
    | zero => intro h1 h2; omega
    | succ k ih =>
      intro h1 h2
      rw [List.range'_succ]
      unfold findBind
      rw [hfr.2.2.2.2.1, hfr.2.2.2.2.2.2.1]
      by_cases hm : m = s.innerLoop
      · rw [if_pos hm]
        exact ih (m + 1) (by omega) (by omega)
      · rw [if_neg hm, if_neg (by have := (hnano m (by omega)).1; omega)]
        by_cases hmj : m = j
        · subst hmj
          rw [if_pos ((hcd m hj).2 henough)]
        · rw [if_neg (by
            intro hge
            have := (hcd m (by omega)).1 hge
            have := hfirst m (by omega) hm
            omega)]
          exact ih (m + 1) (by omega) (by omega)
  have e : adjustSettings s = if (preBind s).bindInner ∧ (preBind s).innerThreads > 1 then do
      let p ← findBind (preBind s) (List.range (preBind s).nd)
      pure { preBind s with bindPosn := p }
    else pure (preBind s) := rfl
  rw [e, if_pos ⟨by rw [hfr.2.2.2.2.2.2.2]; exact hb, by rw [hfr.2.2.2.2.2.2.1]; exact ht⟩, hfr.1,
    List.range_eq_range', key 0 s.nd (by omega) (by omega)] at hs
  cases hs
  rfl

/-- In a block of 32 by 32 points, with nano-blocks of 32 by 8 points, 4 inner threads are bound along the second dim. -/
example :
    let s : KSet :=
      { nd := 3, rank := fun _ => 64, fold := fun _ => 4, innerLoop := 2, blk := fun j => ⟨0, 32, 0, if j = 1 then 8 else 32, 0⟩
        stepBlk := ⟨0, 0, 0, 0, 0⟩, defBlk := 32, innerThreads := 4, bindInner := true, bindPosn := 1 }
    ∃ s', adjustSettings s = .ok s' ∧ s'.bindPosn = 2 := by
  intro s
  refine ⟨{ preBind s with bindPosn := 2 }, ?_, rfl⟩
  have e : findBind (preBind s) (List.range (preBind s).nd) = .ok 2 := by decide +kernel
  have e' : adjustSettings s = (do
      let p ← findBind (preBind s) (List.range (preBind s).nd)
      pure { preBind s with bindPosn := p }) := rfl
  rw [e', e]
  rfl

end Yask
