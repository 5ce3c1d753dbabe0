import Verif.Sched.SettingLemmas

/-! Helper lemmas: temporal blocking of one mega-block. -/

namespace Yask
open Spec
namespace RunCfg

variable {c : RunCfg} {j : Nat}

theorem shiftMegaAll_at (c : RunCfg) (base : Box) (s : Int) {j : Nat} (hj : j < c.nd) :
    (c.shiftMegaAll base s).getD j (0, 0) =
      ((base.getD j (0, 0)).1 - c.wfAngle j * s, (base.getD j (0, 0)).2 - c.wfAngle j * s) := by
  unfold shiftMegaAll shiftOnly
  rw [getD_map_range _ _ _ hj]

theorem mega_block_one (h : c.Ok) (hj : j < c.nd) (mega : Box)
    (hm : ∀ j < c.nd, (mega.getD j (0, 0)).1 < (mega.getD j (0, 0)).2)
    (hb : (c.dim j).blockSize ≥ (c.dim j).megaSize) : (c.megaD mega j).numIters true = 1 := by
  have hok := megaD_ok h mega hm
  have := (hok.chain hj).pos
  have h1 := LoopDim.one_piece (c.megaD mega j) (h.fold_pos j hj) (hok j hj).2.2
    (by simp only [megaD, strideOf, hb, if_true])
  omega

/-- With a single mega-block and no extensions, the last block is a full block or the remainder. -/
theorem last_block (h : c.Ok) (hj : j < c.nd) (mega : Box)
    (hm : ∀ j < c.nd, (mega.getD j (0, 0)).1 < (mega.getD j (0, 0)).2)
    (he : mega.getD j (0, 0) = ((c.dim j).rankBeg, (c.dim j).rankBeg + (c.dim j).rankSize))
    (hn : (c.megaD mega j).numIters true ≠ 1) {L : Int}
    (hL : L ≤ (c.dim j).blockSize)
    (hrem : (let rem := (c.dim j).rankSize % roundUp (c.dim j).blockSize (c.dim j).fold
     rem = 0 ∨ L ≤ rem)) :
    L ≤ (c.megaD mega j).end_ - (c.megaD mega j).cut ((c.megaD mega j).numIters true - 1) := by
  have hok := megaD_ok h mega hm
  have hf := h.fold_pos j hj
  have hch := hok.chain hj
  have hR := h.rank_pos j hj
  have hb : ¬ (c.dim j).blockSize ≥ (c.dim j).megaSize := fun hb => hn (mega_block_one h hj mega hm hb)
  have hbf := h.block_ge j hj (by omega)
  have hT := roundUp_spec (a := (c.dim j).blockSize) (b := (c.dim j).fold) (by omega) hf
  set T := roundUp (c.dim j).blockSize (c.dim j).fold with hTdef
  have hTpos : 0 < T := by omega
  set d := c.megaD mega j with hd
  have hbeg : d.begin_ = (c.dim j).rankBeg := by simp only [hd, megaD, he]
  have hend : d.end_ = (c.dim j).rankBeg + (c.dim j).rankSize := by simp only [hd, megaD, he]
  have hspos := (hok j hj).1
  have hofs : d.alignOfs = (c.dim j).rankBeg := rfl
  have hab : d.alignedBegin true = (c.dim j).rankBeg := by
    have h0 : d.begin_ - d.alignOfs = 0 := by rw [hbeg, hofs]; omega
    unfold LoopDim.alignedBegin
    rw [if_pos rfl, h0, hofs]
    have hadj : 0 < d.adjAlign := by
      unfold LoopDim.adjAlign; rw [lt_min_iff]; exact ⟨hf, hspos⟩
    have := roundDownFlr_spec 0 hadj
    have h1 : roundDownFlr 0 d.adjAlign = 0 := by
      obtain ⟨k, hk⟩ := this.2.2
      rw [hk] at this ⊢
      have : k = 0 := by
        by_contra hne
        rcases lt_or_gt_of_ne hne with hlt | hgt
        · have : d.adjAlign * k ≤ -d.adjAlign := by nlinarith
          omega
        · have : d.adjAlign ≤ d.adjAlign * k := by nlinarith
          omega
      rw [this]; ring
    rw [h1]; ring
  have hst : d.stride = if T > (c.dim j).rankSize then T * 2 else T := by
    simp only [hd, megaD, strideOf, if_neg hb, he, ← hTdef]
    rw [show (c.dim j).rankBeg + (c.dim j).rankSize - (c.dim j).rankBeg = (c.dim j).rankSize by ring]
  have hspec := ceilIdivFlr_spec (d.end_ - d.alignedBegin true) hspos
  have hni : d.numIters true = ceilIdivFlr (d.end_ - d.alignedBegin true) d.stride := rfl
  rw [← hni] at hspec
  have hTle : ¬ T > (c.dim j).rankSize := by
    intro hgt
    rw [if_pos hgt] at hst
    rw [hst, hab, hend] at hspec
    have hpos := hch.pos
    have : 2 ≤ d.numIters true := by omega
    have : 2 * (T * 2) ≤ d.numIters true * (T * 2) := mul_le_mul_of_nonneg_right this (by omega)
    omega
  rw [if_neg hTle] at hst
  rw [hst, hab, hend] at hspec
  have hpos := hch.pos
  set n := d.numIters true with hndef
  have hcut : d.cut (n - 1) = (c.dim j).rankBeg + (n - 1) * T := by
    unfold LoopDim.cut
    rw [hab, hst, hbeg, hend]
    have : 0 ≤ (n - 1) * T := mul_nonneg (by omega) (by omega)
    have h2 : (n - 1) * T = n * T - T := by ring
    omega
  rw [hcut, hend]
  have h2 : (n - 1) * T = n * T - T := by ring
  set r := (c.dim j).rankSize % T with hr
  have hr0 := Int.emod_nonneg (c.dim j).rankSize (ne_of_gt hTpos)
  have hr1 := Int.emod_lt_of_pos (c.dim j).rankSize hTpos
  have hdm := Int.emod_add_mul_ediv (c.dim j).rankSize T
  set q := (c.dim j).rankSize / T with hq
  rcases hrem with h0 | hle
  · -- full last block
    have h0' : r = 0 := h0
    have e : T * q = (c.dim j).rankSize := by omega
    have : n = q := by
      rcases lt_trichotomy n q with hlt | heq | hgt
      · have : T * (n + 1) ≤ T * q := mul_le_mul_of_nonneg_left (by omega) (by omega)
        have h3 : T * (n + 1) = n * T + T := by ring
        omega
      · exact heq
      · have : T * (q + 1) ≤ T * n := mul_le_mul_of_nonneg_left (by omega) (by omega)
        have h3 : T * (q + 1) = T * q + T := by ring
        have h4 : T * n = n * T := by ring
        omega
    have h4 : T * q = n * T := by rw [this]; ring
    omega
  · by_cases hr00 : r = 0
    · -- L ≤ 0
      have hle' : L ≤ r := hle
      omega
    · have : n = q + 1 := by
        rcases lt_trichotomy n (q + 1) with hlt | heq | hgt
        · have : T * n ≤ T * q := mul_le_mul_of_nonneg_left (by omega) (by omega)
          have h4 : T * n = n * T := by ring
          omega
        · exact heq
        · have : T * (q + 2) ≤ T * n := mul_le_mul_of_nonneg_left (by omega) (by omega)
          have h3 : T * (q + 2) = T * q + T * 2 := by ring
          have h4 : T * n = n * T := by ring
          omega
      have h4 : n * T = T * q + T := by rw [this]; ring
      have hle' : L ≤ r := hle
      omega

theorem piece_lt {nd : Nat} {D : Nat → LoopDim} (hD : DimsOk nd D) {idx : List Int} {bx : Box}
    (hi : IsIdx nd D idx) (hb : IsPiece nd D idx bx) :
    ∀ j < nd, (bx.getD j (0, 0)).1 < (bx.getD j (0, 0)).2 := by
  intro j hj
  rw [hb j hj]
  exact (hD.chain hj).lt_succ _ (hi.2 j hj).1 (hi.2 j hj).2

theorem shiftMegaAll_lt (h : c.Ok) {m : List Int} {base : Box} (hm : IsIdx c.nd c.rankD m)
    (hb : IsPiece c.nd c.rankD m base) (S0 : Int) :
    ∀ j < c.nd, ((c.shiftMegaAll base S0).getD j (0, 0)).1 <
      ((c.shiftMegaAll base S0).getD j (0, 0)).2 := by
  intro j hj
  rw [shiftMegaAll_at c base S0 hj]
  have := piece_lt (rankD_ok h) hm hb j hj
  omega

theorem tbOk (h : c.Ok) (hrem : c.NoShortRemainder) (htb : 0 < c.blockSteps) {m : List Int} {base : Box}
    (hm : IsIdx c.nd c.rankD m) (hb : IsPiece c.nd c.rankD m base) (S0 : Int) (hj : j < c.nd) :
    c.TbOk j (c.dim j).maxHalo c.numTbShifts ((c.shiftMegaAll base S0).getD j (0, 0)).2
      ((c.megaD (c.shiftMegaAll base S0) j).numIters true)
      (c.megaD (c.shiftMegaAll base S0) j).cut (c.wfAngle j) := by
  have hlt := shiftMegaAll_lt h hm hb S0
  have hok := megaD_ok h _ hlt
  have hbp := h.block_pos j hj
  have hbl : 2 * (c.tbAngle j * c.numTbShifts) ≤ (c.dim j).blockSize := by
    by_cases hz : c.tbAngle j = 0
    · rw [hz]; omega
    · have := block_long h hj hz
      have := h.fold_pos j hj
      omega
  have hf := h.fold_pos j hj
  have hn1 : (c.megaD (c.shiftMegaAll base S0) j).numIters true ≠ 1 →
      ¬ (c.dim j).blockSize ≥ (c.dim j).megaSize :=
    fun hn hb => hn (mega_block_one h hj _ hlt hb)
  refine ⟨?_, tbAngle_nonneg h hj, fun _ => tbWidth_ge h hj, ?_, ?_⟩
  · intro hn
    have := hn1 hn
    have h2 := rawTbAngle_ge h hj
    unfold tbAngle
    rw [if_pos ⟨htb, by omega⟩]
    exact h2
  · intro K hK0 hKn
    have hn := hn1 (by omega)
    rw [LoopDim.cut_full _ (hok j hj).1 (hok j hj).2.1 K hK0 hKn]
    have := strideOf_ge (r := ((c.shiftMegaAll base S0).getD j (0, 0)).2 -
      ((c.shiftMegaAll base S0).getD j (0, 0)).1) (r' := ((c.shiftMegaAll base S0).getD j (0, 0)).2 -
      ((c.shiftMegaAll base S0).getD j (0, 0)).1) hf (show 0 < (c.dim j).blockSize by omega) hn
    have e : (c.megaD (c.shiftMegaAll base S0) j).stride = strideOf (c.dim j).fold (c.dim j).blockSize
      (c.dim j).megaSize (((c.shiftMegaAll base S0).getD j (0, 0)).2 -
      ((c.shiftMegaAll base S0).getD j (0, 0)).1) (((c.shiftMegaAll base S0).getD j (0, 0)).2 -
      ((c.shiftMegaAll base S0).getD j (0, 0)).1) := rfl
    omega
  · intro hn
    rcases hrem j hj with h1 | h1 | h1 | h1
    · exact Or.inr (tbAngle_le_wf h hj (Or.inl h1))
    · exact Or.inr (tbAngle_le_wf h hj (Or.inr h1))
    · exact (hn1 hn (by omega)).elim
    · by_cases hw : (c.dim j).megaSize < (c.dim j).rankSize ∨ 1 < (c.dim j).nranks
      · exact Or.inr (tbAngle_le_wf h hj hw)
      · left
        have hw0 : c.wfAngle j = 0 := by
          unfold wfAngle; simp only; rw [if_neg (by omega)]
        have hws : c.wfShiftPts j = 0 := by unfold wfShiftPts; rw [hw0]; ring
        have hle : c.leftExt j = 0 := by rcases leftExt_cases c j with h | h <;> omega
        have hre : c.rightExt j = 0 := by rcases rightExt_cases c j with h | h <;> omega
        have hch := (rankD_ok h).chain hj
        have hone : (c.rankD j).numIters true ≤ 1 := by
          apply LoopDim.one_piece _ hf (rankD_ok h j hj).2.2
          simp only [rankD, show (c.dim j).megaSize ≥ (c.dim j).rankSize by omega, if_true]
        have hm0 : at_ m j = 0 := by
          have := hm.2 j hj; omega
        have hn1 : (c.rankD j).numIters true = 1 := by have := hch.pos; omega
        have hpc := hb j hj
        rw [hm0, hch.zero, show (0 : Int) + 1 = (c.rankD j).numIters true by omega, hch.last] at hpc
        have he : (c.shiftMegaAll base S0).getD j (0, 0) =
            ((c.dim j).rankBeg, (c.dim j).rankBeg + (c.dim j).rankSize) := by
          rw [shiftMegaAll_at c base S0 hj, hpc, hw0]
          simp only [rankD, extBeg, extEnd, rankEnd, hle, hre, hws]
          simp
        exact last_block h hj _ hlt he hn (by omega) h1

/-! ### One layer of a mega-block -/

/-- Evaluations of one layer, shape and micro-block. -/
abbrev InTb (c : RunCfg) (dir : Int) (S0 : Int) (bridge : Nat → Bool) (sect : Sect) (base blk mb : Box)
    (t0 : Int) (i q : Nat) (a : Task) : Prop :=
  c.InMicro dir (List.range c.nst) S0 true bridge sect base (c.shiftMegaAll base S0) blk
    (c.adjBlock true blk) mb t0 i q a

theorem before_shift {dir : Int} (hdir : dir = 1 ∨ dir = -1) {t0 : Int} {i q i' q' n : Nat}
    {a b : Task} (ha : a.step = t0 + dir * i) (hb : b.step = t0 + dir * i') (hq : a.stage = q)
    (hq' : b.stage = q') (hqn : q < n) (_hqn' : q' < n) (h : Task.Before dir a b) :
    i * n + q < i' * n + q' := by
  rcases h with h | ⟨h1, h2⟩
  · rw [ha, hb] at h
    have hi : i < i' := by rcases hdir with rfl | rfl <;> omega
    have : (i + 1) * n ≤ i' * n := Nat.mul_le_mul_right n hi
    have e : (i + 1) * n = i * n + n := by ring
    omega
  · have hi : i = i' := by
      rw [ha, hb] at h1
      rcases hdir with rfl | rfl <;> omega
    subst hi
    omega

theorem same_shift {dir : Int} (hdir : dir = 1 ∨ dir = -1) {t0 : Int} {i q i' q' : Nat} {a : Task}
    (ha : a.step = t0 + dir * i) (hb : a.step = t0 + dir * i') (hq : a.stage = q)
    (hq' : a.stage = q') : i = i' ∧ q = q' := by
  refine ⟨?_, by omega⟩
  rw [ha] at hb
  rcases hdir with rfl | rfl <;> omega

section layer
variable {dir : Int} {S0 t0 : Int} {sect : Sect} {base : Box} {m : List Int}

/-- Bits and block index determined by an evaluation. -/
theorem tb_unique (h : c.Ok) (hdir : dir = 1 ∨ dir = -1)
    (hm : IsIdx c.nd c.rankD m) (hb : IsPiece c.nd c.rankD m base)
    {K K' : List Int} {blk blk' : Box}
    (hK : IsIdx c.nd (c.megaD (c.shiftMegaAll base S0)) K)
    (hK' : IsIdx c.nd (c.megaD (c.shiftMegaAll base S0)) K')
    (hp : IsPiece c.nd (c.megaD (c.shiftMegaAll base S0)) K blk)
    (hp' : IsPiece c.nd (c.megaD (c.shiftMegaAll base S0)) K' blk')
    {br br' : Nat → Bool} {mb mb' : Box} {i q i' q' : Nat} {a : Task}
    (hq : q < c.nst) (hq' : q' < c.nst)
    (h1 : c.InTb dir S0 br sect base blk mb t0 i q a)
    (h2 : c.InTb dir S0 br' sect base blk' mb' t0 i' q' a) :
    (∀ j < c.nd, at_ K j = at_ K' j) ∧ (∀ j < c.nd, br j = br' j) := by
  have hlt := shiftMegaAll_lt h hm hb S0
  have hok := megaD_ok h _ hlt
  have e : ∀ q, q < c.nst → (List.range c.nst).getD q 0 = q := fun q hq => by
    simp [List.getD_eq_getElem?_getD, List.getElem?_range hq]
  obtain ⟨a1, a2, _, _, a5⟩ := h1
  obtain ⟨b1, b2, _, _, b5⟩ := h2
  rw [e q hq] at a2 a5
  rw [e q' hq'] at b2 b5
  obtain ⟨rfl, rfl⟩ := same_shift hdir a1 b1 a2 b2
  have key : ∀ j < c.nd, at_ K j = at_ K' j ∧ br j = br' j := by
    intro j hj
    have c1 := (c.microTrim_sub j _ _ _ _ _ _ (a5 j hj)).2
    have c2 := (c.microTrim_sub j _ _ _ _ _ _ (b5 j hj)).2
    rw [hp j hj] at c1
    rw [hp' j hj] at c2
    exact blockShape_unique c j (hok.chain hj) _ _ _
      (mul_nonneg (tbAngle_nonneg h hj) (by positivity)) (hK.2 j hj).1 (hK.2 j hj).2 (hK'.2 j hj).1
      (hK'.2 j hj).2 c1 c2
  exact ⟨fun j hj => (key j hj).1, fun j hj => (key j hj).2⟩

/-- An earlier evaluation near a later one is in an earlier phase, or in the same block and shape. -/
theorem tb_order (h : c.Ok) (hrem : c.NoShortRemainder) (htb : 0 < c.blockSteps)
    (hdir : dir = 1 ∨ dir = -1)
    (hm : IsIdx c.nd c.rankD m) (hb : IsPiece c.nd c.rankD m base)
    {K K' : List Int} {blk blk' : Box}
    (hK : IsIdx c.nd (c.megaD (c.shiftMegaAll base S0)) K)
    (hK' : IsIdx c.nd (c.megaD (c.shiftMegaAll base S0)) K')
    (hp : IsPiece c.nd (c.megaD (c.shiftMegaAll base S0)) K blk)
    (hp' : IsPiece c.nd (c.megaD (c.shiftMegaAll base S0)) K' blk')
    {br br' : Nat → Bool} {mb mb' : Box} {i q i' q' : Nat} {a b : Task}
    (hq : q < c.nst) (hq' : q' < c.nst) (hS0 : 0 ≤ S0)
    (hS : ((i' * c.nst + q' : Nat) : Int) ≤ c.numTbShifts)
    (hS' : S0 + ((i * c.nst + q : Nat) : Int) ≤ c.numWfShifts)
    (h1 : c.InTb dir S0 br sect base blk mb t0 i q a)
    (h2 : c.InTb dir S0 br' sect base blk' mb' t0 i' q' b)
    (hmp : c.MustPrecede dir a b) :
    (∀ j < c.nd, br j = true → br' j = true) ∧
      (∀ j < c.nd, br j = br' j → at_ K j = at_ K' j) := by
  have hlt := shiftMegaAll_lt h hm hb S0
  have hok := megaD_ok h _ hlt
  have e : ∀ q, q < c.nst → (List.range c.nst).getD q 0 = q := fun q hq => by
    simp [List.getD_eq_getElem?_getD, List.getElem?_range hq]
  obtain ⟨a1, a2, _, _, a5⟩ := h1
  obtain ⟨b1, b2, _, _, b5⟩ := h2
  rw [e q hq] at a2 a5
  rw [e q' hq'] at b2 b5
  rw [List.length_range] at a5 b5
  have hs := before_shift hdir a1 b1 a2 b2 hq hq' hmp.1
  have key : ∀ j < c.nd, (br j = true → br' j = true) ∧ (br j = br' j → at_ K j = at_ K' j) := by
    intro j hj
    have c1 := c.microTrim_sub j _ _ _ _ _ _ (a5 j hj)
    have c2 := (c.microTrim_sub j _ _ _ _ _ _ (b5 j hj)).2
    rw [hp j hj] at c1
    rw [hp' j hj] at c2
    have hle : c.wfAngle j * (S0 + ((i * c.nst + q : Nat) : Int)) ≤ c.wfShiftPts j :=
      mul_le_mul_of_nonneg_left hS' (wfAngle_nonneg h hj)
    have hend : (c.megaIvl q sect base (S0 + ((i * c.nst + q : Nat) : Int)) j).2 ≤
        ((c.shiftMegaAll base S0).getD j (0, 0)).2 - c.wfAngle j * ((i * c.nst + q : Nat) : Int) := by
      by_contra hc
      have hnon := c1.1
      have hx := (shiftTrim_iff h hj q sect (base.getD j (0, 0)) hle
        ((c.megaIvl q sect base (S0 + ((i * c.nst + q : Nat) : Int)) j).2 - 1)).1
        ⟨by have := lt_of_le_of_lt hnon.1 hnon.2
            exact Int.le_sub_one_of_lt this, by show _ < (c.megaIvl _ _ _ _ _).2; omega⟩
      rw [shiftMegaAll_at c base S0 hj, not_le] at hc
      have h2 := hx.1.2
      simp only [] at hc
      have h3 : c.wfAngle j * (S0 + ((i * c.nst + q : Nat) : Int)) =
        c.wfAngle j * S0 + c.wfAngle j * ((i * c.nst + q : Nat) : Int) := by ring
      omega
    exact blockShape_order c j (hok.chain hj) (tbOk h hrem htb hm hb S0 hj) _ _
      (by positivity) (by exact_mod_cast hs) hS c1.1 hend (hmp.2 j hj)
      (hK.2 j hj).1 (hK.2 j hj).2 (hK'.2 j hj).1
      (hK'.2 j hj).2 c1.2 c2
  exact ⟨fun j hj => (key j hj).1, fun j hj => (key j hj).2⟩

end layer

end RunCfg
end Yask
