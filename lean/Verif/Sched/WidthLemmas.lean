import Verif.Spec.ScratchSpec
import Verif.Sched.BatchLemmas

/-! Helper lemmas: how wide micro-blocks are. -/

namespace Yask
open Spec Var

/-- All actions of all traces. -/
def Every {α : Type*} (T : Traces α) (P : α → Prop) : Prop := ∀ t, T t → ∀ a ∈ t, P a

theorem every_nothing {α : Type*} (P : α → Prop) : Every (doNothing : Traces α) P := by
  intro t h a ha
  rw [show t = [] from h] at ha
  cases ha

theorem every_one {α : Type*} {P : α → Prop} {a : α} (h : P a) : Every (doOne a) P := by
  intro t ht b hb
  rw [show t = [a] from ht, List.mem_singleton] at hb
  rw [hb]; exact h

theorem every_seq {ι α : Type*} {P : α → Prop} (xs : List ι) (f : ι → Traces α) (h : ∀ x ∈ xs, Every (f x) P) :
    Every (doSeq (xs.map f)) P := by
  induction xs with
  | nil =>
    intro t ht a ha
    rw [show t = [] from ht] at ha
    cases ha
  | cons x xs ih =>
    rintro t ⟨u, v, hu, hv, rfl⟩ a ha
    rcases List.mem_append.1 ha with ha | ha
    · exact h x List.mem_cons_self u hu a ha
    · exact ih (fun y hy => h y (List.mem_cons_of_mem _ hy)) v hv a ha

theorem every_par {ι α : Type*} {P : α → Prop} (xs : List ι) (f : ι → Traces α) (h : ∀ x ∈ xs, Every (f x) P) :
    Every (doPar (xs.map f)) P := by
  induction xs with
  | nil =>
    intro t ht a ha
    rw [show t = [] from ht] at ha
    cases ha
  | cons x xs ih =>
    rintro t ⟨u, v, hu, hv, hi⟩ a ha
    rcases List.mem_append.1 ((interleave_perm hi).mem_iff.1 ha) with ha | ha
    · exact h x List.mem_cons_self u hu a ha
    · exact ih (fun y hy => h y (List.mem_cons_of_mem _ hy)) v hv a ha

/-- A piece of a scan. -/
theorem scan_piece {nd : Nat} {D : Nat → LoopDim} (hD : DimsOk nd D) {bx : Box} (hb : bx ∈ RunCfg.scan ((List.range nd).map D)) :
    ∃ idx, IsIdx nd D idx ∧ IsPiece nd D idx bx := by
  rw [scan_eq] at hb
  obtain ⟨idx, hi, rfl⟩ := List.mem_map.1 hb
  have := (mem_scanIdx nd D idx).1 hi
  exact ⟨idx, this, isPiece_bodyBox hD this⟩

theorem tile_spec {nd : Nat} {D : Nat → LoopDim} (hD : DimsOk nd D) {bx : Box} (hb : bx ∈ RunCfg.scan ((List.range nd).map D)) {j : Nat}
    (hj : j < nd) : (D j).begin_ ≤ (bx.getD j (0, 0)).1 ∧ (bx.getD j (0, 0)).1 < (bx.getD j (0, 0)).2 ∧ (bx.getD j (0, 0)).2 ≤ (D j).end_ ∧
      (bx.getD j (0, 0)).2 - (bx.getD j (0, 0)).1 ≤ (D j).stride := by
  obtain ⟨idx, hi, hp⟩ := scan_piece hD hb
  obtain ⟨h1, h2, h3⟩ := hD j hj
  have hch := hD.chain hj
  rw [hp j hj]
  have hlt := hch.lt (i := at_ idx j) (k := at_ idx j + 1) (hi.2 j hj).1 (by omega) (by have := (hi.2 j hj).2; omega)
  refine ⟨?_, hlt, ?_, ?_⟩
  · simp only [LoopDim.cut]; omega
  · simp only [LoopDim.cut]; omega
  · have e : (at_ idx j + 1) * (D j).stride = at_ idx j * (D j).stride + (D j).stride := by ring
    simp only [LoopDim.cut]; omega

namespace RunCfg
variable {c : RunCfg} {j : Nat}

theorem shiftMega_at {stage : Nat} {sect : Sect} {base mega : Box} {S : Int} (h : c.shiftMega stage sect base S = some mega) {i : Nat}
    (hi : i < c.nd) : mega.getD i (0, 0) = c.shiftTrim stage sect i (base.getD i (0, 0)) S ∧
      (mega.getD i (0, 0)).1 < (mega.getD i (0, 0)).2 := by
  rw [shiftMega_eq] at h
  split at h
  · next hc =>
    rw [Option.some.injEq] at h
    rw [← h, getD_map_range _ _ _ hi]
    exact ⟨rfl, hc.2 i hi⟩
  · cases h

/-- A trimmed mega-block. -/
theorem mega_bounds (h : c.Ok) (hz : c.Sized) (hj : j < c.nd) {base : Box} (hb : base ∈ scan c.rankLoop) {S : Int} (hS : 0 ≤ S)
    (hs : c.wfAngle j * S ≤ c.wfShiftPts j) (stage : Nat) (sect : Sect) {r : Ivl}
    (hr : r = c.shiftTrim stage sect j (base.getD j (0, 0)) S) (hne : r.1 < r.2) :
    (base.getD j (0, 0)).1 - c.wfAngle j * S ≤ r.1 ∧ r.2 ≤ (base.getD j (0, 0)).2 - c.wfAngle j * S ∧
    r.2 - r.1 ≤ (c.dim j).megaSize + 2 * c.wfShiftPts j ∧
    ((c.dim j).megaSize < (c.dim j).rankSize → (base.getD j (0, 0)).2 - (base.getD j (0, 0)).1 ≤ (c.dim j).megaSize) ∧
    (¬ (c.dim j).megaSize < (c.dim j).rankSize → base.getD j (0, 0) = ((c.rankD j).begin_, (c.rankD j).end_)) := by
  rw [rankLoop_eq] at hb
  obtain ⟨t1, t2, t3, t4⟩ := tile_spec (rankD_ok h) hb hj
  have hn := wfAngle_nonneg h hj
  have hsn := mul_nonneg hn hS
  have hwn := wfShiftPts_nonneg h hj
  have a1 := (shiftTrim_iff h hj stage sect (base.getD j (0, 0)) hs r.1).1 (by rw [← hr]; exact ⟨le_refl _, hne⟩)
  have a2 := (shiftTrim_iff h hj stage sect (base.getD j (0, 0)) hs (r.2 - 1)).1 (by rw [← hr]; exact ⟨by omega, by omega⟩)
  obtain ⟨⟨b1, b2⟩, ⟨b3, b4⟩, b5, b6, -⟩ := a1
  obtain ⟨⟨d1, d2⟩, ⟨d3, d4⟩, d5, d6, -⟩ := a2
  have hmw : (c.dim j).megaSize < (c.dim j).rankSize → (base.getD j (0, 0)).2 - (base.getD j (0, 0)).1 ≤ (c.dim j).megaSize := by
    intro hlt
    simp only [rankD, ge_iff_le] at t4
    rw [if_neg (by omega)] at t4
    exact t4
  have hone : ¬ (c.dim j).megaSize < (c.dim j).rankSize → base.getD j (0, 0) = ((c.rankD j).begin_, (c.rankD j).end_) := by
    intro hge
    obtain ⟨idx, hi, hp⟩ := scan_piece (rankD_ok h) hb
    have h1 := LoopDim.one_piece (c.rankD j) (h.fold_pos j hj) (rankD_ok h j hj).2.2 (by simp only [rankD]; rw [if_pos (by omega)])
    have h2 := hi.2 j hj
    have hch := (rankD_ok h).chain hj
    rw [hp j hj, show at_ idx j = 0 by omega]
    have h3 := hch.pos
    have e1 := hch.zero
    have e2 := hch.last
    rw [show (c.rankD j).numIters true = 0 + 1 by omega] at e2
    rw [e1, e2]
  refine ⟨by omega, by omega, ?_, hmw, hone⟩
  by_cases hlt : (c.dim j).megaSize < (c.dim j).rankSize
  · have := hmw hlt
    omega
  · have hB := h.rank_pos j hj
    have e := hone hlt
    have e1 : (base.getD j (0, 0)).1 = c.extBeg j := by rw [e]
    have e2 : (base.getD j (0, 0)).2 = (c.rankD j).end_ := by rw [e]
    have hl : c.extBeg j ≤ r.1 := by
      unfold extBeg
      cases hf : (c.dim j).firstRank with
      | true =>
        have := hz.first j hj stage hf
        unfold leftExt
        rw [hf]; simp only [if_true]; omega
      | false =>
        have hle : c.leftExt j = c.wfShiftPts j := by unfold leftExt; rw [hf]; rfl
        by_cases h0 : c.leftExt j = 0
        · unfold extBeg at e1; omega
        · have := b5 h0; omega
    have hr2 : r.2 ≤ c.extEnd j := by
      unfold extEnd
      cases hf : (c.dim j).lastRank with
      | true =>
        have := hz.last j hj stage hf
        unfold rightExt
        rw [hf]; simp only [if_true]; omega
      | false =>
        have hle : c.rightExt j = c.wfShiftPts j := by unfold rightExt; rw [hf]; rfl
        by_cases h0 : c.rightExt j = 0
        · have : (c.rankD j).end_ = c.extEnd j := by
            simp only [rankD]; split <;> omega
          unfold extEnd at this; omega
        · have := d6 h0; omega
    have l1 := leftExt_cases c j
    have l2 := rightExt_cases c j
    unfold extBeg at hl
    unfold extEnd rankEnd at hr2
    omega

/-- A piece of a scan whose stride is that of `strideOf`. -/
theorem strideOf_tile {fold inner outer r r' w : Int} (hf : 0 < fold) (hi : 0 < inner) (hw : w ≤ r')
    (hst : w ≤ strideOf fold inner outer r r') (hd : fold ∣ inner ∨ outer ≤ inner) : outer ≤ inner ∨ r < inner ∨ w ≤ inner := by
  unfold strideOf at hst
  by_cases ho : outer ≤ inner
  · exact Or.inl ho
  · rw [if_neg (by omega)] at hst
    have hd := hd.resolve_right ho
    have e : roundUp inner fold = inner := by
      have := roundUp_spec (a := inner) (b := fold) (by omega) hf
      have h1 : fold ∣ roundUp inner fold - inner := Int.dvd_sub this.2.2 hd
      obtain ⟨k, hk⟩ := h1
      have h2 := this.2.1
      have h3 := this.1
      have : k = 0 := by
        by_contra hne
        rcases lt_or_gt_of_ne hne with hlt | hgt
        · have : fold * k ≤ fold * (-1) := mul_le_mul_of_nonneg_left (by omega) (by omega)
          omega
        · have : fold * 1 ≤ fold * k := mul_le_mul_of_nonneg_left (by omega) (by omega)
          omega
      rw [this] at hk; omega
    rw [e] at hst
    split at hst <;> omega

theorem tile_one {nd : Nat} {D : Nat → LoopDim} (hD : DimsOk nd D) {bx : Box} (hb : bx ∈ RunCfg.scan ((List.range nd).map D)) {j : Nat}
    (hj : j < nd) (hst : (D j).stride = roundUp ((D j).end_ - (D j).begin_) (D j).align * 2) :
    bx.getD j (0, 0) = ((D j).begin_, (D j).end_) := by
  obtain ⟨idx, hi, hp⟩ := scan_piece hD hb
  have h1 := LoopDim.one_piece (D j) (hD j hj).2.1 (hD j hj).2.2 hst
  have h2 := hi.2 j hj
  have hch := hD.chain hj
  rw [hp j hj, show at_ idx j = 0 by omega]
  have e1 := hch.zero
  have e2 := hch.last
  rw [show (D j).numIters true = 0 + 1 by omega] at e2
  rw [e1, e2]

/-- One dim of a micro-block of a temporal block. -/
theorem microTrim_tb (j : Nat) {mega blk mb idxs : Ivl} {s : Int} (multi bridge : Bool) (hm : mega.1 ≤ blk.1 ∧ blk.2 ≤ mega.2)
    (hmb : blk.1 ≤ mb.1 ∧ mb.2 ≤ blk.2 + (blk.2 - blk.1)) {w : Int} (hi : mega.1 - w ≤ idxs.1 ∧ idxs.2 ≤ mega.2) (hw : 0 ≤ w)
    (ha : 0 ≤ c.tbAngle j * s) (hms : 0 ≤ c.mbAngle j * s) {r : Ivl}
    (hr : r = c.microTrim j (blk.1, blk.2 + (blk.2 - blk.1)) mb idxs (c.blockShape j mega blk idxs s multi bridge) s) :
    idxs.1 ≤ r.1 ∧ r.2 ≤ idxs.2 ∧ blk.1 - w ≤ r.1 ∧ r.2 ≤ blk.2 + c.tbAngle j * s ∧
    (r.2 - r.1 ≤ (mb.2 - mb.1) + w ∨
      r.2 - r.1 ≤ (mb.2 - mb.1) + c.tbAngle j * s + c.mbAngle j * s - (blk.2 - blk.1) ∨
      mb = (blk.1, blk.2 + (blk.2 - blk.1))) := by
  have hs : blk.1 - w ≤ (c.blockShape j mega blk idxs s multi bridge).1 ∧
      (c.blockShape j mega blk idxs s multi bridge).2 ≤ blk.2 + c.tbAngle j * s := by
    unfold blockShape
    cases multi <;> cases bridge <;> by_cases h1 : blk.1 ≤ mega.1 <;> by_cases h2 : blk.2 ≥ mega.2 <;> simp [h1, h2] <;> omega
  generalize c.blockShape j mega blk idxs s multi bridge = sh at hs hr
  unfold microTrim at hr
  by_cases h1 : mb.1 ≤ blk.1 <;> by_cases h2 : mb.2 ≥ blk.2 + (blk.2 - blk.1) <;> simp [h1, h2] at hr <;> subst hr <;> simp only
  · refine ⟨by omega, by omega, by omega, by omega, Or.inr (Or.inr (Prod.ext (by simp only; omega) (by simp only; omega)))⟩
  · refine ⟨by omega, by omega, by omega, by omega, Or.inl (by omega)⟩
  · refine ⟨by omega, by omega, by omega, by omega, Or.inr (Or.inl (by omega))⟩
  · refine ⟨by omega, by omega, by omega, by omega, Or.inl (by omega)⟩

/-- Width of the micro-blocks of a temporal block. -/
theorem width_tb (h : c.Ok) (hz : c.Sized) (hsh : c.ShiftsInRank) (hj : j < c.nd) (hbs : 0 < c.blockSteps) {base : Box}
    (hb : base ∈ scan c.rankLoop) {L s : Int} (hL : 0 ≤ L) (hs0 : 0 ≤ s) (hs1 : s ≤ c.numTbShifts) (hs2 : L + s ≤ c.numWfShifts)
    {blk mb : Box} (hblk : blk ∈ scan (c.megaLoop (c.shiftMegaAll base L))) (hmb : mb ∈ scan (c.blockLoop true blk)) (stage : Nat)
    (sect : Sect) (multi bridge : Bool) {idxs r : Ivl} (hi : idxs = c.shiftTrim stage sect j (base.getD j (0, 0)) (L + s))
    (hr : r = c.microTrim j ((c.adjBlock true blk).getD j (0, 0)) (mb.getD j (0, 0)) idxs
      (c.blockShape j ((c.shiftMegaAll base L).getD j (0, 0)) (blk.getD j (0, 0)) idxs s multi bridge) s) (hne : r.1 < r.2)
    (hine : idxs.1 < idxs.2) : r.2 - r.1 ≤ (c.dim j).microSize + scratchExt c j := by
  have hwa := wfAngle_nonneg h hj
  have hta := tbAngle_nonneg h hj
  have hma := mbAngle_nonneg h hj
  have hwS : c.wfAngle j * (L + s) ≤ c.wfShiftPts j := mul_le_mul_of_nonneg_left hs2 hwa
  obtain ⟨m1, m2, m3, m4, m5⟩ := mega_bounds h hz hj hb (by omega) hwS stage sect hi hine
  obtain ⟨idx, hidx, hpc⟩ := scan_piece (rankD_ok h) (by rw [← rankLoop_eq]; exact hb)
  have hmo := megaD_ok h (c.shiftMegaAll base L) (shiftMegaAll_lt h hidx hpc L)
  have hM : (c.shiftMegaAll base L).getD j (0, 0) =
      ((base.getD j (0, 0)).1 - c.wfAngle j * L, (base.getD j (0, 0)).2 - c.wfAngle j * L) := by
    unfold shiftMegaAll; rw [getD_map_range _ _ _ hj]; rfl
  rw [megaLoop_eq] at hblk
  have hblt : ∀ i < c.nd, (blk.getD i (0, 0)).1 < (blk.getD i (0, 0)).2 := fun i hi => (tile_spec hmo hblk hi).2.1
  obtain ⟨b1, b2, b3, b4⟩ := tile_spec hmo hblk hj
  have hbo := blockD_ok h true blk hblt
  rw [blockLoop_eq] at hmb
  obtain ⟨q1, q2, q3, q4⟩ := tile_spec hbo hmb hj
  simp only [megaD, hM] at b1 b3 b4
  have hadj := adjBlock_at c true blk hj
  simp only [if_true] at hadj
  simp only [blockD] at q1 q3 q4
  rw [hadj] at q1 q3 q4 hr
  simp only at q1 q3 q4
  have e0 : c.wfAngle j * (L + s) = c.wfAngle j * L + c.wfAngle j * s := by ring
  have ws0 : 0 ≤ c.wfAngle j * s := mul_nonneg hwa hs0
  have wL0 : 0 ≤ c.wfAngle j * L := mul_nonneg hwa hL
  have ts0 : 0 ≤ c.tbAngle j * s := mul_nonneg hta hs0
  have ms0 : 0 ≤ c.mbAngle j * s := mul_nonneg hma hs0
  have ts1 : c.tbAngle j * s ≤ c.tbAngle j * c.numTbShifts := mul_le_mul_of_nonneg_left hs1 hta
  have ms1 : c.mbAngle j * s ≤ c.mbAngle j * c.numTbShifts := mul_le_mul_of_nonneg_left hs1 hma
  rw [hM] at hr
  obtain ⟨r1, r2, r3, r4, r5⟩ := microTrim_tb (c := c) j multi bridge (mega := ((base.getD j (0, 0)).1 - c.wfAngle j * L,
    (base.getD j (0, 0)).2 - c.wfAngle j * L)) (blk := blk.getD j (0, 0)) (mb := mb.getD j (0, 0)) (idxs := idxs) (s := s)
    ⟨b1, b3⟩ ⟨q1, q3⟩ (w := c.wfAngle j * s) ⟨by simp only; omega, by simp only; omega⟩ ws0 ts0 ms0 hr
  have hf := h.fold_pos j hj
  generalize hW : (blk.getD j (0, 0)).2 - (blk.getD j (0, 0)).1 = W at *
  generalize hX : (mb.getD j (0, 0)).2 - (mb.getD j (0, 0)).1 = X at *
  unfold scratchExt
  generalize hS : c.wfShiftPts j = S at *
  generalize hT : c.tbAngle j * c.numTbShifts = T at *
  have hWpos : 0 < W := by omega
  by_cases hmc : (c.dim j).blockSize ≤ (c.dim j).microSize
  · by_cases hbm : (c.dim j).megaSize ≤ (c.dim j).blockSize
    · omega
    · rcases strideOf_tile hf (h.block_pos j hj) (by omega) b4 (hz.block j hj) with hh | hh | hh
      · omega
      · omega
      · omega
  · rcases strideOf_tile hf (h.micro_pos j hj) (by omega) q4 (hz.micro j hj) with hh | hh | hh
    · omega
    · omega
    · rcases r5 with r5 | r5 | r5
      · omega
      · have hmb : c.mbAngle j = c.rawTbAngle j := by unfold mbAngle; rw [if_pos ⟨hbs, by omega⟩]
        by_cases hbm : (c.dim j).blockSize < (c.dim j).megaSize
        · have htb : c.tbAngle j = c.rawTbAngle j := by unfold tbAngle; rw [if_pos ⟨hbs, hbm⟩]
          rw [hmb, ← htb] at r5
          omega
        · have htb : c.tbAngle j = 0 := by unfold tbAngle; rw [if_neg (by omega)]
          have hts : c.tbAngle j * s = 0 := by rw [htb, zero_mul]
          by_cases hwc : (c.dim j).megaSize < (c.dim j).rankSize ∨ (c.dim j).nranks > 1
          · have hwf : c.mbAngle j ≤ c.wfAngle j := by
              have := roundHalo_ge h hj
              unfold wfAngle; simp only; rw [if_pos hwc, hmb]; unfold rawTbAngle; split <;> omega
            have : c.mbAngle j * s ≤ c.wfAngle j * s := mul_le_mul_of_nonneg_right hwf hs0
            omega
          · have hwf : c.wfAngle j = 0 := by unfold wfAngle; simp only; rw [if_neg hwc]
            have h1 := hsh j hj hwf htb
            have h2 := tile_one hmo hblk hj (by simp only [megaD, strideOf]; rw [if_pos (by omega)])
            simp only [megaD, hM] at h2
            have h3 := m5 (by omega)
            rw [h3] at h2
            have hWW : W = (c.rankD j).end_ - (c.rankD j).begin_ := by rw [← hW, h2]; simp only; omega
            have h4 : (c.dim j).rankSize ≤ W := by
              have l1 := leftExt_cases c j
              have l2 := rightExt_cases c j
              have : c.wfShiftPts j = 0 := by unfold wfShiftPts; rw [hwf, zero_mul]
              rw [hWW]
              simp only [rankD, extBeg, extEnd, rankEnd]
              split <;> omega
            omega
      · have : X = 2 * W := by rw [← hX, r5]; simp only; omega
        omega

/-- Width of the micro-blocks without temporal blocking. -/
theorem width_noTb (h : c.Ok) (hz : c.Sized) (hj : j < c.nd) {base mega : Box}
    (hb : base ∈ scan c.rankLoop) {S : Int} (hS0 : 0 ≤ S) (hS2 : c.wfAngle j * S ≤ c.wfShiftPts j)
    {blk mb : Box} (stage : Nat) (sect : Sect) (hmega : c.shiftMega stage sect base S = some mega)
    (hblk : blk ∈ scan (c.megaLoop mega)) (hmb : mb ∈ scan (c.blockLoop false blk)) {r : Ivl}
    (hr : r = c.microTrim j ((c.adjBlock false blk).getD j (0, 0)) (mb.getD j (0, 0)) (mega.getD j (0, 0))
      (c.blockShape j (mega.getD j (0, 0)) (blk.getD j (0, 0)) (mega.getD j (0, 0)) 0 false false) 0) :
    r.2 - r.1 ≤ (c.dim j).microSize + scratchExt c j := by
  have hmj : ∀ i < c.nd, mega.getD i (0, 0) = c.shiftTrim stage sect i (base.getD i (0, 0)) S ∧
      (mega.getD i (0, 0)).1 < (mega.getD i (0, 0)).2 := by
    intro i hi
    exact shiftMega_at hmega hi
  obtain ⟨m1, m2, m3, m4, m5⟩ := mega_bounds h hz hj hb hS0 hS2 stage sect (hmj j hj).1 (hmj j hj).2
  have hmo := megaD_ok h mega fun i hi => (hmj i hi).2
  rw [megaLoop_eq] at hblk
  have hblt : ∀ i < c.nd, (blk.getD i (0, 0)).1 < (blk.getD i (0, 0)).2 := fun i hi => (tile_spec hmo hblk hi).2.1
  obtain ⟨b1, b2, b3, b4⟩ := tile_spec hmo hblk hj
  have hbo := blockD_ok h false blk hblt
  rw [blockLoop_eq] at hmb
  obtain ⟨q1, q2, q3, q4⟩ := tile_spec hbo hmb hj
  simp only [megaD] at b1 b3 b4
  have hadj := adjBlock_at c false blk hj
  simp only [Bool.false_eq_true, if_false] at hadj
  simp only [blockD] at q1 q3 q4
  rw [hadj] at q1 q3 q4 hr
  simp only at q1 q3 q4
  have hta := tbAngle_nonneg h hj
  have hf := h.fold_pos j hj
  have hw0 := wfShiftPts_nonneg h hj
  have hrr : (mb.getD j (0, 0)).1 ≤ r.1 ∧ r.2 ≤ (mb.getD j (0, 0)).2 := by
    have hsh : (blk.getD j (0, 0)).1 ≤ (c.blockShape j (mega.getD j (0, 0)) (blk.getD j (0, 0)) (mega.getD j (0, 0)) 0 false false).1 ∧
        (c.blockShape j (mega.getD j (0, 0)) (blk.getD j (0, 0)) (mega.getD j (0, 0)) 0 false false).2 ≤ (blk.getD j (0, 0)).2 := by
      unfold blockShape
      by_cases h1 : (blk.getD j (0, 0)).1 ≤ (mega.getD j (0, 0)).1 <;> by_cases h2 : (blk.getD j (0, 0)).2 ≥ (mega.getD j (0, 0)).2 <;>
        simp [h1, h2] <;> omega
    generalize c.blockShape j (mega.getD j (0, 0)) (blk.getD j (0, 0)) (mega.getD j (0, 0)) 0 false false = sh at hsh hr
    unfold microTrim at hr
    by_cases h1 : (mb.getD j (0, 0)).1 ≤ (blk.getD j (0, 0)).1 <;> by_cases h2 : (mb.getD j (0, 0)).2 ≥ (blk.getD j (0, 0)).2 <;>
      simp only [h1, h2, decide_true, decide_false, Bool.and_true, Bool.and_false, if_true, if_false, mul_zero, sub_zero,
        Bool.false_eq_true, ite_self] at hr <;> subst hr <;> simp only <;> omega
  generalize hW : (blk.getD j (0, 0)).2 - (blk.getD j (0, 0)).1 = W at *
  generalize hX : (mb.getD j (0, 0)).2 - (mb.getD j (0, 0)).1 = X at *
  have : 0 ≤ scratchExt c j ∧ 2 * c.wfShiftPts j ≤ scratchExt c j := by unfold scratchExt; omega
  by_cases hmc : (c.dim j).blockSize ≤ (c.dim j).microSize
  · by_cases hbm : (c.dim j).megaSize ≤ (c.dim j).blockSize
    · omega
    · rcases strideOf_tile hf (h.block_pos j hj) (by omega) b4 (hz.block j hj) with hh | hh | hh <;> omega
  · rcases strideOf_tile hf (h.micro_pos j hj) (by omega) q4 (hz.micro j hj) with hh | hh | hh <;> omega

theorem shiftMicro_at {mb adj blk mega idxs bx : Box} {s : Int} {multi : Bool} {bridge : Nat → Bool}
    (h : c.shiftMicro mb adj blk mega s multi bridge idxs = some bx) {i : Nat} (hi : i < c.nd) :
    bx.getD i (0, 0) = c.microTrim i (adj.getD i (0, 0)) (mb.getD i (0, 0)) (idxs.getD i (0, 0))
      (c.blockShape i (mega.getD i (0, 0)) (blk.getD i (0, 0)) (idxs.getD i (0, 0)) s multi (bridge i)) s ∧
      (bx.getD i (0, 0)).1 < (bx.getD i (0, 0)).2 := by
  unfold shiftMicro at h
  simp only at h
  split at h
  · next hc =>
    rw [Option.some.injEq] at h
    rw [← h, getD_map_range _ _ _ hi]
    exact ⟨rfl, (hc i hi).2⟩
  · cases h

/-- A micro-block is nonempty and fits in the domain and right pad of the scratch vars. -/
def Narrow (c : RunCfg) (x : Int × Nat × Box) : Prop :=
  x.2.2.length = c.nd ∧ ∀ j < c.nd, (x.2.2.getD j (0, 0)).1 < (x.2.2.getD j (0, 0)).2 ∧
    (x.2.2.getD j (0, 0)).2 - (x.2.2.getD j (0, 0)).1 ≤ (c.dim j).microSize + scratchExt c j

theorem shiftMicro_length {mb adj blk mega idxs bx : Box} {s : Int} {multi : Bool} {bridge : Nat → Bool}
    (h : c.shiftMicro mb adj blk mega s multi bridge idxs = some bx) : bx.length = c.nd := by
  unfold shiftMicro at h
  simp only at h
  split at h
  · rw [Option.some.injEq] at h
    rw [← h]; simp
  · cases h

/-- The action that lists micro-blocks. -/
abbrev listMicro : Int → Nat → Box → Traces (Int × Nat × Box) := fun t st bx => doOne (t, st, bx)

theorem narrow_noTb (h : c.Ok) (hz : c.Sized) {base mega : Box} (hb : base ∈ scan c.rankLoop) {S : Int} (hS0 : 0 ≤ S)
    (hS2 : ∀ j < c.nd, c.wfAngle j * S ≤ c.wfShiftPts j) {blk : Box} (dir : Int) (stage : Nat) (sect : Sect)
    (hmega : c.shiftMega stage sect base S = some mega) (hblk : blk ∈ scan (c.megaLoop mega)) (t : Int) :
    Every (c.calcBlockNoTbWith listMicro dir stage S sect base mega blk t) c.Narrow := by
  unfold calcBlockNoTbWith
  refine every_seq _ _ fun mb hmb => ?_
  unfold calcMicroWith
  refine every_seq _ _ fun i hi => every_seq _ _ fun q hq => ?_
  rw [List.mem_range] at hi hq
  obtain rfl : i = 0 := by omega
  simp only [List.length_singleton] at hq
  obtain rfl : q = 0 := by omega
  simp only [List.length_singleton, zero_mul, add_zero, Nat.cast_zero, List.getD_cons_zero]
  rw [hmega]
  simp only
  split
  · exact every_nothing _
  · next bx hbx =>
    refine every_one ⟨shiftMicro_length hbx, fun j hj => ?_⟩
    obtain ⟨e, hlt⟩ := shiftMicro_at hbx hj
    exact ⟨hlt, width_noTb h hz hj hb hS0 (hS2 j hj) stage sect hmega hblk hmb e⟩

theorem narrow_tb (h : c.Ok) (hz : c.Sized) (hsh : c.ShiftsInRank) (hbs : 0 < c.blockSteps) {base : Box} (hb : base ∈ scan c.rankLoop)
    {L : Int} (hL : 0 ≤ L) {nt : Nat} (hs1 : ∀ i < nt, ∀ q < c.nst, ((i * c.nst + q : Nat) : Int) ≤ c.numTbShifts)
    (hs2 : ∀ i < nt, ∀ q < c.nst, L + ((i * c.nst + q : Nat) : Int) ≤ c.numWfShifts) {blk : Box}
    (hblk : blk ∈ scan (c.megaLoop (c.shiftMegaAll base L))) (dir : Int) (phase : Nat) (hph : phase ≤ c.nd) (sect : Sect) (t : Int) :
    Every (c.calcBlockTbWith listMicro dir L phase sect base (c.shiftMegaAll base L) blk t nt) c.Narrow := by
  have hn := h.nd_le
  unfold calcBlockTbWith
  rw [nChooseK_eq c.nd phase (by omega)]
  simp only [Int.toNat_natCast]
  refine every_seq _ _ fun sh hsh' => ?_
  rw [List.mem_range] at hsh'
  obtain ⟨l, mk, h1, h2, h3⟩ := nChooseKSet_spec c.nd phase sh (by omega) (by omega) hsh'
  simp only [h2]
  refine every_seq _ _ fun mb hmb => ?_
  unfold calcMicroWith
  refine every_seq _ _ fun i hi => every_seq _ _ fun q hq => ?_
  rw [List.mem_range] at hi hq
  simp only [List.length_range] at hq ⊢
  split
  · exact every_nothing _
  · next idxs hidxs =>
    split
    · exact every_nothing _
    · next bx hbx =>
      refine every_one ⟨shiftMicro_length hbx, fun j hj => ?_⟩
      obtain ⟨e, hlt⟩ := shiftMicro_at hbx hj
      obtain ⟨ei, hi2⟩ := shiftMega_at hidxs hj
      exact ⟨hlt, width_tb h hz hsh hj hbs hb hL (by positivity) (hs1 i hi q hq) (hs2 i hi q hq) hblk hmb _ sect true _ ei e hlt hi2⟩

theorem narrow_mega (h : c.Ok) (hz : c.Sized) (hsh : c.ShiftsInRank) {base : Box} (hb : base ∈ scan c.rankLoop) (dir : Int)
    (stages : List Nat) (sect : Sect) (t0 : Int) (nt : Nat)
    (hst : (c.wfSteps = 0 ∧ nt ≤ 1 ∧ stages.length = 1) ∨ ((nt : Int) ≤ c.wfSteps ∧ stages = List.range c.nst)) :
    Every (c.calcMegaWith listMicro dir stages sect base t0 nt) c.Narrow := by
  unfold calcMegaWith
  by_cases ht : c.tbSteps = 0
  · rw [if_pos ht]
    refine every_seq _ _ fun i hi => every_seq _ _ fun q hq => ?_
    rw [List.mem_range] at hi hq
    simp only
    split
    · exact every_nothing _
    · next mega hmega =>
      refine every_par _ _ fun blk hblk => ?_
      refine narrow_noTb h hz hb (by positivity) (fun j hj => ?_) dir _ sect hmega hblk _
      refine mul_le_mul_of_nonneg_left ?_ (wfAngle_nonneg h hj)
      rcases hst with ⟨s1, s2, s3⟩ | ⟨s1, s2⟩
      · obtain rfl : i = 0 := by omega
        obtain rfl : q = 0 := by omega
        simpa using numWfShifts_nonneg c
      · have hl : stages.length = c.nst := by rw [s2, List.length_range]
        rw [hl] at hq ⊢
        have := lt_numShifts hi hq
        have hwp : 0 < c.wfSteps := by omega
        unfold numWfShifts
        have hp : 0 < (c.nst : Int) * c.wfSteps := mul_pos (by omega) hwp
        rw [if_pos hwp, if_pos hp]
        have e : (c.nst : Int) * nt ≤ (c.nst : Int) * c.wfSteps := mul_le_mul_of_nonneg_left s1 (by omega)
        have this' : ((i * c.nst + q + 1 : Nat) : Int) ≤ ((c.nst * nt : Nat) : Int) := by exact_mod_cast this
        rw [Nat.cast_mul c.nst nt] at this'
        push_cast at this' ⊢
        omega
  · rw [if_neg ht]
    simp only
    refine every_seq _ _ fun layer hlay => every_seq _ _ fun phase hph => every_par _ _ fun blk hblk => ?_
    rw [List.mem_range] at hph
    have h0 := tbSteps_nonneg h
    obtain ⟨idx, hidx, hpc⟩ := scan_piece (rankD_ok h) (by rw [← rankLoop_eq]; exact hb)
    rcases hst with ⟨s1, s2, s3⟩ | ⟨s1, s2⟩
    · exfalso
      have hw : c.megaSteps = 0 ∧ c.blockSteps = 0 := by
        have := h.mega_steps; have := h.block_steps; unfold wfSteps at s1; omega
      apply ht
      unfold tbSteps; rw [if_neg (by omega), hw.2]
    · have hl := layer_ok (en := false) h (by simp) ht hidx hpc nt layer s1
      exact narrow_tb h hz hsh hl.tb hb hl.nonneg hl.tbs hl.wfs hblk dir phase (by omega) sect _

/-- All micro-blocks of a run. -/
theorem narrow_run (h : c.Ok) (hz : c.Sized) (hsh : c.ShiftsInRank) (first last : Int) : Every (c.microRuns first last) c.Narrow := by
  have hw := wfSteps_nonneg h
  unfold microRuns runSolutionWith
  refine every_seq _ _ fun k _ => ?_
  unfold runBatchWith
  by_cases h0 : c.wfSteps = 0
  · rw [if_pos h0]
    refine every_seq _ _ fun stage _ => every_seq _ _ fun sect _ => every_seq _ _ fun base hb => ?_
    refine narrow_mega h hz hsh hb _ _ _ _ _ (Or.inl ⟨h0, ?_, rfl⟩)
    rw [h0]
    exact min_le_left _ _
  · rw [if_neg h0]
    refine every_seq _ _ fun sect _ => every_seq _ _ fun base hb => ?_
    refine narrow_mega h hz hsh hb _ _ _ _ _ (Or.inr ⟨?_, rfl⟩)
    omega

end RunCfg
end Yask
