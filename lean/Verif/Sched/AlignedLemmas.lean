import Verif.Sched.WidthLemmas

/-! Helper lemmas: micro-blocks that begin on vectors. -/

namespace Yask
open Spec Var

theorem dvd_max' {f x y o : Int} (hx : f ∣ x - o) (hy : f ∣ y - o) : f ∣ max x y - o := by
  rcases max_choice x y with h | h <;> rw [h] <;> assumption

theorem dvd_sub_mul {f x o a s : Int} (hx : f ∣ x - o) (ha : f ∣ a) : f ∣ x - a * s - o := by
  rw [show x - a * s - o = x - o - a * s by ring]
  exact Int.dvd_sub hx (ha.mul_right s)

theorem tile_aligned {nd : Nat} {D : Nat → LoopDim} (hD : DimsOk nd D) {bx : Box} (hb : bx ∈ RunCfg.scan ((List.range nd).map D)) {j : Nat}
    (hj : j < nd) (hs : (D j).align ∣ (D j).stride) (h0 : (D j).align ∣ (D j).begin_ - (D j).alignOfs) :
    (D j).align ∣ (bx.getD j (0, 0)).1 - (D j).alignOfs := by
  obtain ⟨idx, hi, hp⟩ := scan_piece hD hb
  obtain ⟨h1, h2, h3⟩ := hD j hj
  obtain ⟨t1, t2, t3, t4⟩ := tile_spec hD hb hj
  rw [hp j hj] at t2 t3 ⊢
  simp only at t2 t3 ⊢
  have hle : (D j).align ≤ (D j).stride := Int.le_of_dvd h1 hs
  have he : (D j).alignedBegin true - (D j).alignOfs = roundDownFlr ((D j).begin_ - (D j).alignOfs) (D j).align := by
    unfold LoopDim.alignedBegin LoopDim.adjAlign
    simp only [if_true]
    rw [min_eq_left hle]; ring
  have ha : (D j).align ∣ (D j).alignedBegin true + at_ idx j * (D j).stride - (D j).alignOfs := by
    rw [show (D j).alignedBegin true + at_ idx j * (D j).stride - (D j).alignOfs =
      (D j).alignedBegin true - (D j).alignOfs + at_ idx j * (D j).stride by ring, he]
    exact Int.dvd_add (roundDownFlr_spec _ h2).2.2 (hs.mul_left _)
  have hc : (D j).cut (at_ idx j) = max ((D j).alignedBegin true + at_ idx j * (D j).stride) (D j).begin_ := by
    have : (D j).cut (at_ idx j + 1) ≤ (D j).end_ := by unfold LoopDim.cut; exact min_le_right _ _
    unfold LoopDim.cut at t2 this ⊢
    omega
  rw [hc]
  exact dvd_max' ha h0

namespace RunCfg
variable {c : RunCfg} {j : Nat}

theorem wfAngle_dvd (h : c.Ok) (hj : j < c.nd) : (c.dim j).fold ∣ c.wfAngle j := by
  unfold wfAngle
  simp only
  split
  · exact (roundUp_spec (h.halo_nonneg j hj) (h.fold_pos j hj)).2.2
  · exact Int.dvd_zero _

theorem wfShiftPts_dvd (h : c.Ok) (hj : j < c.nd) : (c.dim j).fold ∣ c.wfShiftPts j := (wfAngle_dvd h hj).mul_right _

theorem strideOf_dvd {fold inner outer r r' : Int} (hf : 0 < fold) (hi : 0 ≤ inner) (hr : 0 ≤ r') :
    fold ∣ strideOf fold inner outer r r' := by
  unfold strideOf
  split
  · exact ((roundUp_spec hr hf).2.2).mul_right _
  · split
    · exact ((roundUp_spec hi hf).2.2).mul_right _
    · exact (roundUp_spec hi hf).2.2

/-- Mega-blocks begin on vectors. -/
theorem base_aligned (h : c.Ok) (hv : c.OnVectors) (hj : j < c.nd) {base : Box} (hb : base ∈ scan c.rankLoop) :
    (c.dim j).fold ∣ (base.getD j (0, 0)).1 - (c.dim j).rankBeg := by
  have hd := rankD_ok h
  refine tile_aligned (D := c.rankD) hd (by rw [← rankLoop_eq]; exact hb) hj ?_ ?_
  · simp only [rankD]
    have hlt := (hd j hj).2.2
    simp only [rankD] at hlt
    split
    · exact ((roundUp_spec (by omega) (h.fold_pos j hj)).2.2).mul_right _
    · rcases hv.mega j hj with hh | hh
      · exact hh
      · omega
  · have e : c.extBeg j - (c.dim j).rankBeg = -(c.leftExt j) := by unfold extBeg; ring
    simp only [rankD]
    rw [e]
    apply Int.dvd_neg.2
    unfold leftExt
    split
    · exact Int.dvd_zero _
    · exact wfShiftPts_dvd h hj

theorem shiftTrim_aligned (h : c.Ok) (hv : c.OnVectors) (hj : j < c.nd) (stage : Nat) (sect : Sect) {b : Ivl}
    (hb : (c.dim j).fold ∣ b.1 - (c.dim j).rankBeg) (S : Int) :
    (c.dim j).fold ∣ (c.shiftTrim stage sect j b S).1 - (c.dim j).rankBeg := by
  have ha := wfAngle_dvd h hj
  have h1 : (c.dim j).fold ∣ max (b.1 - c.wfAngle j * S) (c.stageBB stage j).1 - (c.dim j).rankBeg :=
    dvd_max' (dvd_sub_mul hb ha) (hv.stage stage j hj)
  have h2 : (c.dim j).fold ∣ (c.dim j).rankBeg - c.leftExt j + c.wfAngle j * S - (c.dim j).rankBeg := by
    rw [show (c.dim j).rankBeg - c.leftExt j + c.wfAngle j * S - (c.dim j).rankBeg = c.wfAngle j * S - c.leftExt j by ring]
    refine Int.dvd_sub (ha.mul_right _) ?_
    unfold leftExt
    split
    · exact Int.dvd_zero _
    · exact wfShiftPts_dvd h hj
  obtain ⟨i1, i2⟩ := hv.interior j hj
  have hi : (c.dim j).fold ∣ (c.intRange j (c.wfAngle j * S)).1 - (c.dim j).rankBeg ∧
      (c.dim j).fold ∣ (c.intRange j (c.wfAngle j * S)).2 - (c.dim j).rankBeg := by
    have hw := wfShiftPts_dvd h hj
    have hs := ha.mul_right S
    unfold intRange
    simp only
    split
    · constructor
      · simp only
        split
        · rw [show (c.dim j).intBeg + c.wfShiftPts j - c.wfAngle j * S - (c.dim j).rankBeg =
            ((c.dim j).intBeg - (c.dim j).rankBeg) + (c.wfShiftPts j - c.wfAngle j * S) by ring]
          exact Int.dvd_add i1 (Int.dvd_sub hw hs)
        · exact i1
      · simp only
        split
        · rw [show (c.dim j).intEnd - c.wfShiftPts j + c.wfAngle j * S - (c.dim j).rankBeg =
            ((c.dim j).intEnd - (c.dim j).rankBeg) + (c.wfAngle j * S - c.wfShiftPts j) by ring]
          exact Int.dvd_add i2 (Int.dvd_sub hs hw)
        · exact i2
    · exact ⟨i1, i2⟩
  have hsect : ∀ r : Ivl, (c.dim j).fold ∣ r.1 - (c.dim j).rankBeg →
      (c.dim j).fold ∣ (c.sectTrim sect j (c.wfAngle j * S) r).1 - (c.dim j).rankBeg := by
    intro r hr
    unfold sectTrim
    cases sect with
    | whole => exact hr
    | interior => exact dvd_max' hr hi.1
    | ext dim left =>
      simp only
      cases left <;> by_cases e1 : j = dim <;> by_cases e2 : j < dim <;> simp [e1, e2] <;>
        first
          | omega
          | (try subst e1
             first
               | exact hr
               | exact dvd_max' hr (dvd_max' hi.2 hi.1)
               | exact dvd_max' (dvd_max' hr hi.2) hi.1
               | exact dvd_max' hr hi.1)
  unfold shiftTrim
  apply hsect
  have hite : ∀ (P : Prop) [Decidable P] (x y : Int), (c.dim j).fold ∣ x - (c.dim j).rankBeg → (c.dim j).fold ∣ y - (c.dim j).rankBeg →
      (c.dim j).fold ∣ (if P then x else y) - (c.dim j).rankBeg := by
    intro P _ x y hx hy
    split <;> assumption
  exact hite _ _ _ (dvd_max' h1 h2) h1

theorem aligned_noTb (h : c.Ok) (hv : c.OnVectors) {base mega : Box} (hb : base ∈ scan c.rankLoop) {S : Int} {blk : Box} (dir : Int)
    (stage : Nat) (sect : Sect) (hmega : c.shiftMega stage sect base S = some mega) (hblk : blk ∈ scan (c.megaLoop mega)) (t : Int) :
    Every (c.calcBlockNoTbWith listMicro dir stage S sect base mega blk t) (fun x => Aligned c x.2.2) := by
  unfold calcBlockNoTbWith
  refine every_seq _ _ fun mb hmb => ?_
  unfold calcMicroWith
  refine every_seq _ _ fun i hi => every_seq _ _ fun q hq => ?_
  rw [List.mem_range] at hi hq
  obtain rfl : i = 0 := by omega
  simp only [List.length_singleton] at hq
  obtain rfl : q = 0 := by omega
  simp only [List.length_singleton, zero_mul, add_zero, Nat.cast_zero, List.getD_cons_zero]
  rw [hmega]
  simp only
  split
  · exact every_nothing _
  · next bx hbx =>
    refine every_one fun j hj => ?_
    obtain ⟨e, hlt⟩ := shiftMicro_at hbx hj
    have hm : ∀ i < c.nd, (mega.getD i (0, 0)).1 < (mega.getD i (0, 0)).2 := fun i hi => (shiftMega_at hmega hi).2
    have hmo := megaD_ok h mega hm
    rw [megaLoop_eq] at hblk
    have hblt : ∀ i < c.nd, (blk.getD i (0, 0)).1 < (blk.getD i (0, 0)).2 := fun i hi => (tile_spec hmo hblk hi).2.1
    have hbo := blockD_ok h false blk hblt
    rw [blockLoop_eq] at hmb
    have hf := h.fold_pos j hj
    have a1 : (c.dim j).fold ∣ (mega.getD j (0, 0)).1 - (c.dim j).rankBeg := by
      rw [(shiftMega_at hmega hj).1]
      exact shiftTrim_aligned h hv hj stage sect (base_aligned h hv hj hb) S
    have a2 : (c.dim j).fold ∣ (blk.getD j (0, 0)).1 - (c.dim j).rankBeg := by
      refine tile_aligned (D := c.megaD mega) hmo hblk hj ?_ a1
      have := hm j hj
      exact strideOf_dvd hf (by have := h.block_pos j hj; omega) (by omega)
    have hadj := adjBlock_at c false blk hj
    simp only [Bool.false_eq_true, if_false] at hadj
    have a3 : (c.dim j).fold ∣ (mb.getD j (0, 0)).1 - (c.dim j).rankBeg := by
      have := hblt j hj
      refine tile_aligned (D := c.blockD false blk) hbo hmb hj ?_ ?_
      · exact strideOf_dvd hf (by have := h.micro_pos j hj; omega) (by rw [hadj]; simp only; omega)
      · simp only [blockD]; rw [hadj]; exact a2
    rw [e]
    have hsh : (c.dim j).fold ∣ (c.blockShape j (mega.getD j (0, 0)) (blk.getD j (0, 0)) (mega.getD j (0, 0)) 0 false false).1 -
        (c.dim j).rankBeg := by
      unfold blockShape
      simp only [mul_zero, add_zero, Bool.false_eq_true, if_false]
      split
      · exact a1
      · exact a2
    unfold microTrim
    simp only [mul_zero, sub_zero, ite_self]
    refine dvd_max' (dvd_max' ?_ a1) hsh
    split
    · exact hsh
    · exact a3

/-- All micro-blocks of a run. -/
theorem aligned_run (h : c.Ok) (hv : c.OnVectors) (first last : Int) : Every (c.microRuns first last) (fun x => Aligned c x.2.2) := by
  have ht : c.tbSteps = 0 := by unfold tbSteps; rw [if_neg (by have := hv.block; omega)]; exact hv.block
  have key : ∀ base ∈ scan c.rankLoop, ∀ dir stages sect t0 nt,
      Every (c.calcMegaWith listMicro dir stages sect base t0 nt) (fun x => Aligned c x.2.2) := by
    intro base hb dir stages sect t0 nt
    unfold calcMegaWith
    rw [if_pos ht]
    refine every_seq _ _ fun i hi => every_seq _ _ fun q hq => ?_
    simp only
    split
    · exact every_nothing _
    · next mega hmega => exact every_par _ _ fun blk hblk => aligned_noTb h hv hb dir _ sect hmega hblk _
  unfold microRuns runSolutionWith
  refine every_seq _ _ fun k _ => ?_
  unfold runBatchWith
  split
  · exact every_seq _ _ fun stage _ => every_seq _ _ fun sect _ => every_seq _ _ fun base hb => key base hb _ _ _ _ _
  · exact every_seq _ _ fun sect _ => every_seq _ _ fun base hb => key base hb _ _ _ _ _

end RunCfg
end Yask
