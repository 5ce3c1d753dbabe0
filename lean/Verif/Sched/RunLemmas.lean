import Verif.Sched.MegaLemmas

/-! Helper lemmas: traces of `calc_mega_block`, of one wave-front and of a whole run. -/

namespace Yask
open Spec
namespace RunCfg

variable {c : RunCfg} {dir : Int} {en : Bool}

theorem step_lt (hdir : dir = 1 ∨ dir = -1) {t0 : Int} {i i' : Nat} {a b : Task}
    (ha : a.step = t0 + dir * i) (hb : b.step = t0 + dir * i') (hlt : i < i') :
    a ≠ b ∧ c.okOrd dir en a b := by
  have : dir * a.step < dir * b.step := by
    rw [ha, hb]
    rcases hdir with rfl | rfl <;> omega
  refine ⟨by rintro rfl; omega, fun _ h => ?_⟩
  rcases h.1 with h | h
  · omega
  · rw [h.1] at this; omega

theorem stage_lt {a b : Task} (h1 : a.step = b.step) (h2 : a.stage < b.stage) :
    a ≠ b ∧ c.okOrd dir en a b := by
  refine ⟨by rintro rfl; omega, fun _ h => ?_⟩
  have := h.1
  unfold Task.Before at this
  rw [h1] at this
  omega

/-- Steps in sequence, and stages in sequence inside each step. -/
theorem good_steps (hdir : dir = 1 ∨ dir = -1) (t0 : Int) (nt : Nat) (stages : List Nat)
    (hst : stages.Pairwise (· < ·)) (f : Nat → Nat → Traces Task) (P : Nat → Nat → Task → Prop)
    (hP : ∀ i q a, P i q a → a.step = t0 + dir * i ∧ a.stage = stages.getD q 0)
    (hg : ∀ i < nt, ∀ q < stages.length, Good (c.okOrd dir en) (f i q) (P i q)) :
    Good (c.okOrd dir en)
      (doSeq ((List.range nt).map fun (i : Nat) =>
        doSeq ((List.range stages.length).map fun (q : Nat) => f i q)))
      (fun a => ∃ i < nt, ∃ q < stages.length, P i q a) := by
  refine (good_seq (List.range nt) _ (fun i a => ∃ q < stages.length, P i q a) ?_ ?_).congr ?_
  · intro i hi
    refine (good_seq (List.range stages.length) _ (fun q a => P i q a) ?_ ?_).congr ?_
    · intro q hq
      exact hg i (List.mem_range.1 hi) q (List.mem_range.1 hq)
    · refine List.Pairwise.imp_of_mem ?_ List.pairwise_lt_range
      intro q q' hq hq' hlt a b ha hb
      rw [List.mem_range] at hq hq'
      have ha := hP _ _ _ ha
      have hb := hP _ _ _ hb
      apply stage_lt (ha.1.trans hb.1.symm)
      rw [ha.2, hb.2, List.getD_eq_getElem _ _ hq, List.getD_eq_getElem _ _ hq']
      exact List.pairwise_iff_getElem.1 hst q q' hq hq' hlt
    · intro a; simp only [List.mem_range]
  · refine List.pairwise_lt_range.imp ?_
    rintro i i' hi a b ⟨q, _, ha⟩ ⟨q', _, hb⟩
    exact step_lt hdir (hP _ _ _ ha).1 (hP _ _ _ hb).1 hi
  · intro a; simp only [List.mem_range]

/-- Evaluations of one (step, stage) in a mega-block. -/
def InMega (c : RunCfg) (dir : Int) (stages : List Nat) (sect : Sect) (base : Box) (t0 : Int)
    (i q : Nat) (a : Task) : Prop :=
  a.step = t0 + dir * i ∧ a.stage = stages.getD q 0 ∧ c.Valid a ∧ c.sectOk sect ∧
    ∀ j < c.nd, InIvl (at_ a.pt j)
      (c.megaIvl (stages.getD q 0) sect base (i * stages.length + q : Nat) j)

/-! ### Without temporal blocking -/

theorem good_calcBlockNoTb (h : c.Ok) (hdir : dir = 1 ∨ dir = -1) (stage : Nat) (S : Int) (sect : Sect)
    (hsect : c.sectOk sect) (base : Box)
    (hne : ∀ j < c.nd, (c.megaIvl stage sect base S j).1 < (c.megaIvl stage sect base S j).2)
    {mega : Box} (hmega : mega = (List.range c.nd).map fun (j : Nat) => c.megaIvl stage sect base S j)
    {K : List Int} (hK : IsIdx c.nd (c.megaD mega) K) (t : Int) :
    Good (c.okOrd dir en)
      (c.calcBlockNoTb dir stage S sect base mega (pieceBox c.nd (c.megaD mega) K) t)
      (fun a => a.step = t ∧ a.stage = stage ∧ c.Valid a ∧ ∀ j < c.nd,
        InIvl (at_ a.pt j) ((c.megaD mega j).cut (at_ K j), (c.megaD mega j).cut (at_ K j + 1))) := by
  have hma : ∀ j < c.nd, mega.getD j (0, 0) = c.megaIvl stage sect base S j := fun j hj => by
    rw [hmega]; exact getD_map_range _ _ _ hj
  have hmo : DimsOk c.nd (c.megaD mega) := megaD_ok h mega (fun j hj => by rw [hma j hj]; exact hne j hj)
  set blk := pieceBox c.nd (c.megaD mega) K with hblk
  have hpk := isPiece_bodyBox hmo hK
  have hbo : DimsOk c.nd (c.blockD false blk) := blockD_ok h false blk (piece_lt hmo hK hpk)
  unfold calcBlockNoTb
  rw [blockLoop_eq]
  -- the region of a micro-block
  have hreg : ∀ M, IsIdx c.nd (c.blockD false blk) M → ∀ i q a, i < 1 → q < 1 →
      (c.InMicro dir [stage] S false (fun _ => false) sect base mega blk (c.adjBlock false blk)
        (pieceBox c.nd (c.blockD false blk) M) t i q a ↔
       a.step = t ∧ a.stage = stage ∧ c.Valid a ∧ ∀ j < c.nd,
        InIvl (at_ a.pt j) (c.microTrim j ((c.adjBlock false blk).getD j (0, 0))
          ((c.blockD false blk j).cut (at_ M j), (c.blockD false blk j).cut (at_ M j + 1))
          (c.megaIvl stage sect base S j) ((c.megaD mega j).cut (at_ K j), (c.megaD mega j).cut (at_ K j + 1))
          0)) := by
    intro M hM i q a hi hq
    obtain rfl : i = 0 := by omega
    obtain rfl : q = 0 := by omega
    unfold InMicro
    simp only [List.length_singleton, zero_mul, add_zero, Nat.cast_zero, mul_zero, List.getD_cons_zero]
    refine and_congr_right fun _ => and_congr_right fun _ => and_congr_right fun _ => ?_
    have e : ∀ j < c.nd, c.blockShape j (mega.getD j (0, 0)) (blk.getD j (0, 0))
        (c.megaIvl stage sect base S j) 0 false false =
        ((c.megaD mega j).cut (at_ K j), (c.megaD mega j).cut (at_ K j + 1)) := by
      intro j hj
      have hs := c.blockShape_single j (hmo.chain hj) (hK.2 j hj).1 (hK.2 j hj).2
      have e2 : (mega.getD j (0, 0)) = ((c.megaD mega j).begin_, (c.megaD mega j).end_) := rfl
      rw [hpk j hj, ← hma j hj, e2]
      exact hs
    constructor
    · rintro ⟨_, hh⟩ j hj
      have := hh j hj
      rw [e j hj, isPiece_bodyBox hbo hM j hj] at this
      exact this
    · intro hh
      refine ⟨hsect, fun j hj => ?_⟩
      rw [e j hj, isPiece_bodyBox hbo hM j hj]
      exact hh j hj
  refine (good_seq_scan c.nd (c.blockD false blk) _ (fun M a => ∃ i < 1, ∃ q < 1,
      c.InMicro dir [stage] S false (fun _ => false) sect base mega blk (c.adjBlock false blk)
        (pieceBox c.nd (c.blockD false blk) M) t i q a) ?_ ?_ ?_).congr ?_
  · intro M hM
    exact c.good_calcMicro dir en hdir [stage] (List.pairwise_singleton _ _) _ _ _ _ _ _ _ _ _ _ _
  · rintro M M' a hM hM' ⟨i, hi, q, hq, ha⟩ ⟨i', hi', q', hq', hb⟩ j hj
    rw [hreg M hM i q a hi hq] at ha
    rw [hreg M' hM' i' q' a hi' hq'] at hb
    exact microTrim_unique c j (hbo.chain hj) _ _ (hM.2 j hj).1 (hM.2 j hj).2 (hM'.2 j hj).1
        (hM'.2 j hj).2 (ha.2.2.2 j hj) (hb.2.2.2 j hj)
  · rintro M M' a b hM hM' ⟨i, hi, q, hq, ha⟩ ⟨i', hi', q', hq', hb⟩ hn
    rw [hreg M hM i q a hi hq] at ha
    rw [hreg M' hM' i' q' b hi' hq'] at hb
    exact absurd (c.okOrd_same dir en (ha.1.trans hb.1.symm) (ha.2.1.trans hb.2.1.symm)) hn
  · intro a
    constructor
    · rintro ⟨M, hM, i, hi, q, hq, ha⟩
      rw [hreg M hM i q a hi hq] at ha
      exact ⟨ha.1, ha.2.1, ha.2.2.1, fun j hj => (c.microTrim_sub j _ _ _ _ _ _ (ha.2.2.2 j hj)).2⟩
    · rintro ⟨h1, h2, h3, h4⟩
      have hex : ∀ j, ∃ M, j < c.nd → 0 ≤ M ∧ M < (c.blockD false blk j).numIters true ∧
          InIvl (at_ a.pt j) (c.microTrim j ((c.adjBlock false blk).getD j (0, 0))
          ((c.blockD false blk j).cut M, (c.blockD false blk j).cut (M + 1))
          (c.megaIvl stage sect base S j) ((c.megaD mega j).cut (at_ K j), (c.megaD mega j).cut (at_ K j + 1))
          0) := by
        intro j
        by_cases hj : j < c.nd
        · have hx := h4 j hj
          have hin : InIvl (at_ a.pt j) (c.megaIvl stage sect base S j) := by
            have hc := hmo.chain hj
            have l1 := hc.le (le_refl 0) (hK.2 j hj).1 (le_of_lt (hK.2 j hj).2)
            have l2 := hc.le (by have := (hK.2 j hj).1; omega : 0 ≤ at_ K j + 1)
              (by have := (hK.2 j hj).2; omega) (le_refl _)
            rw [hc.zero] at l1
            rw [hc.last] at l2
            rw [← hma j hj]
            exact ⟨le_trans l1 hx.1, lt_of_lt_of_le hx.2 l2⟩
          obtain ⟨M, g1, g2, g3⟩ := microTrim_exists c j (hbo.chain hj) _ _ 0 _ hin hx
          exact ⟨M, fun _ => ⟨g1, g2, g3⟩⟩
        · exact ⟨0, fun h => absurd h hj⟩
      choose Mf hMf using hex
      have hat : ∀ j < c.nd, at_ ((List.range c.nd).map Mf) j = Mf j := fun j hj => getD_map_range _ _ _ hj
      have hM : IsIdx c.nd (c.blockD false blk) ((List.range c.nd).map Mf) := by
        refine ⟨by simp, fun j hj => ?_⟩
        rw [hat j hj]
        exact ⟨(hMf j hj).1, (hMf j hj).2.1⟩
      refine ⟨_, hM, 0, by omega, 0, by omega, ?_⟩
      rw [hreg _ hM 0 0 a (by omega) (by omega)]
      refine ⟨h1, h2, h3, fun j hj => ?_⟩
      rw [hat j hj]
      exact (hMf j hj).2.2

theorem good_calcMega_noTb (h : c.Ok) (hdir : dir = 1 ∨ dir = -1) (htb : c.tbSteps = 0)
    (stages : List Nat) (hst : stages.Pairwise (· < ·)) (sect : Sect) (base : Box) (t0 : Int) (nt : Nat) :
    Good (c.okOrd dir en) (c.calcMega dir stages sect base t0 nt)
      (fun a => ∃ i < nt, ∃ q < stages.length, c.InMega dir stages sect base t0 i q a) := by
  unfold calcMega
  rw [if_pos htb]
  apply good_steps hdir t0 nt stages hst _ _ (fun i q a ha => ⟨ha.1, ha.2.1⟩)
  intro i _ q _
  simp only [shiftMega_eq]
  set stage := stages.getD q 0 with hstage
  set S : Int := ((i * stages.length + q : Nat) : Int) with hS
  by_cases h1 : c.sectOk sect ∧ ∀ j < c.nd,
      (c.megaIvl stage sect base S j).1 < (c.megaIvl stage sect base S j).2
  · rw [if_pos h1]
    simp only []
    set mega := (List.range c.nd).map fun (j : Nat) => c.megaIvl stage sect base S j with hmega
    have hma : ∀ j < c.nd, mega.getD j (0, 0) = c.megaIvl stage sect base S j := fun j hj => by
      rw [hmega]; exact getD_map_range _ _ _ hj
    have hmo : DimsOk c.nd (c.megaD mega) :=
      megaD_ok h mega (fun j hj => by rw [hma j hj]; exact h1.2 j hj)
    rw [megaLoop_eq]
    refine (good_par_scan c.nd (c.megaD mega) _ (fun K a => a.step = t0 + dir * i ∧ a.stage = stage ∧
      c.Valid a ∧ ∀ j < c.nd,
        InIvl (at_ a.pt j) ((c.megaD mega j).cut (at_ K j), (c.megaD mega j).cut (at_ K j + 1)))
      ?_ ?_ ?_).congr ?_
    · intro K hK
      exact good_calcBlockNoTb h hdir stage S sect h1.1 base h1.2 hmega hK _
    · rintro K K' a hK hK' ha hb j hj
      have hc := hmo.chain hj
      have u := ha.2.2.2 j hj
      have v := hb.2.2.2 j hj
      exact le_antisymm (hc.idx_le (hK.2 j hj).2 (hK'.2 j hj).1 u.1 v.2 (le_refl _))
        (hc.idx_le (hK'.2 j hj).2 (hK.2 j hj).1 v.1 u.2 (le_refl _))
    · rintro K K' a b hK hK' ha hb hn
      exact absurd (c.okOrd_same dir en (ha.1.trans hb.1.symm) (ha.2.1.trans hb.2.1.symm)) hn
    · intro a
      constructor
      · rintro ⟨K, hK, g1, g2, g3, g4⟩
        refine ⟨g1, g2, g3, h1.1, fun j hj => ?_⟩
        have hc := hmo.chain hj
        have hx := g4 j hj
        have l1 := hc.le (le_refl 0) (hK.2 j hj).1 (le_of_lt (hK.2 j hj).2)
        have l2 := hc.le (by have := (hK.2 j hj).1; omega : 0 ≤ at_ K j + 1)
          (by have := (hK.2 j hj).2; omega) (le_refl _)
        rw [hc.zero] at l1
        rw [hc.last] at l2
        show InIvl (at_ a.pt j) (c.megaIvl stage sect base S j)
        rw [← hma j hj]
        exact ⟨le_trans l1 hx.1, lt_of_lt_of_le hx.2 l2⟩
      · rintro ⟨g1, g2, g3, _, g5⟩
        have hex : ∀ j, ∃ K, j < c.nd → 0 ≤ K ∧ K < (c.megaD mega j).numIters true ∧
            (c.megaD mega j).cut K ≤ at_ a.pt j ∧ at_ a.pt j < (c.megaD mega j).cut (K + 1) := by
          intro j
          by_cases hj : j < c.nd
          · have hx : InIvl (at_ a.pt j) (c.megaIvl stage sect base S j) := g5 j hj
            rw [← hma j hj] at hx
            obtain ⟨K, k1, k2, k3, k4⟩ := (hmo.chain hj).exists_idx hx.1 hx.2
            exact ⟨K, fun _ => ⟨k1, k2, k3, k4⟩⟩
          · exact ⟨0, fun h => absurd h hj⟩
        choose Kf hKf using hex
        have hat : ∀ j < c.nd, at_ ((List.range c.nd).map Kf) j = Kf j :=
          fun j hj => getD_map_range _ _ _ hj
        refine ⟨(List.range c.nd).map Kf, ⟨by simp, fun j hj => ?_⟩, g1, g2, g3, fun j hj => ?_⟩
        · rw [hat j hj]; exact ⟨(hKf j hj).1, (hKf j hj).2.1⟩
        · rw [hat j hj]; exact ⟨(hKf j hj).2.2.1, (hKf j hj).2.2.2⟩
  · rw [if_neg h1]
    refine good_nothing ?_
    rintro a ⟨_, _, _, h4, h5⟩
    exact h1 ⟨h4, fun j hj => lt_of_le_of_lt (h5 j hj).1 (h5 j hj).2⟩

/-! ### With temporal blocking -/

theorem lt_numShifts {n st i q : Nat} (hi : i < st) (hq : q < n) : i * n + q + 1 ≤ n * st := by
  have : (i + 1) * n ≤ st * n := Nat.mul_le_mul_right n hi
  have e : (i + 1) * n = i * n + n := by ring
  have e2 : st * n = n * st := by ring
  omega

theorem tbSteps_nonneg (h : c.Ok) : 0 ≤ c.tbSteps := by
  have hb := h.block_steps
  have key : ∀ k, k ≤ c.nd → 0 ≤ c.tbMaxSteps k := by
    intro k
    induction k with
    | zero =>
      intro _
      have := wfSteps_nonneg h
      unfold tbMaxSteps; omega
    | succ k ih =>
      intro hk
      have := ih (by omega)
      unfold tbMaxSteps
      split
      · next ha =>
        have hf := h.block_ge k (by omega) (block_lt_of_tbAngle (by omega))
        have : 0 ≤ ((c.dim k).blockSize - (c.dim k).fold + c.tbAngle k * 2).tdiv
            (c.tbAngle k * 2 * c.nst) := Int.tdiv_nonneg (by omega) (by positivity)
        omega
      · exact this
  have := key c.nd (le_refl _)
  unfold tbSteps
  split <;> omega

theorem layer_ok (h : c.Ok) (hrem : en = true → c.NoShortRemainder) (htb : c.tbSteps ≠ 0) {m : List Int} {base : Box}
    (hm : IsIdx c.nd c.rankD m) (hb : IsPiece c.nd c.rankD m base) (nt layer : Nat)
    (hnt : (nt : Int) ≤ c.wfSteps) :
    LayerOk c en ((layer * c.tbSteps.toNat * c.nst : Nat) : Int) base m
      (min c.tbSteps.toNat (nt - layer * c.tbSteps.toNat)) := by
  have h0 := tbSteps_nonneg h
  have hpos : 0 < c.tbSteps := by omega
  have hbs : 0 < c.blockSteps := by
    have := h.block_steps
    by_contra hc
    have : c.blockSteps = 0 := by omega
    unfold tbSteps at hpos
    rw [if_neg (by omega)] at hpos
    omega
  refine ⟨h, hrem, hbs, hm, hb, by positivity, ?_, ?_⟩
  · intro i hi q hq
    have hi' : i < c.tbSteps.toNat := by omega
    have := lt_numShifts hi' hq
    unfold numTbShifts
    have hp : 0 < (c.nst : Int) * c.tbSteps := mul_pos (by omega) hpos
    rw [if_pos hpos, if_pos hp]
    have e : ((c.nst * c.tbSteps.toNat : Nat) : Int) = (c.nst : Int) * c.tbSteps := by
      rw [Nat.cast_mul, Int.toNat_of_nonneg h0]
    omega
  · intro i hi q hq
    have hi' : layer * c.tbSteps.toNat + i < nt := by omega
    have := lt_numShifts hi' hq
    have hwp : 0 < c.wfSteps := by omega
    unfold numWfShifts
    have hp : 0 < (c.nst : Int) * c.wfSteps := mul_pos (by omega) hwp
    rw [if_pos hwp, if_pos hp]
    have e : (c.nst : Int) * nt ≤ (c.nst : Int) * c.wfSteps := mul_le_mul_of_nonneg_left hnt (by omega)
    have e2 : (layer * c.tbSteps.toNat + i) * c.nst + q =
      layer * c.tbSteps.toNat * c.nst + (i * c.nst + q) := by ring
    rw [e2] at this
    have this' : ((layer * c.tbSteps.toNat * c.nst + (i * c.nst + q) + 1 : Nat) : Int) ≤
      ((c.nst * nt : Nat) : Int) := by exact_mod_cast this
    rw [Nat.cast_mul c.nst nt] at this'
    push_cast at this' ⊢
    omega

theorem good_calcMega_tb (h : c.Ok) (hrem : en = true → c.NoShortRemainder) (hdir : dir = 1 ∨ dir = -1)
    (htb : c.tbSteps ≠ 0) (sect : Sect) {m : List Int} {base : Box}
    (hm : IsIdx c.nd c.rankD m) (hb : IsPiece c.nd c.rankD m base) (t0 : Int) (nt : Nat)
    (hnt : (nt : Int) ≤ c.wfSteps) :
    Good (c.okOrd dir en) (c.calcMega dir (List.range c.nst) sect base t0 nt)
      (fun a => ∃ i < nt, ∃ q < c.nst, c.InMega dir (List.range c.nst) sect base t0 i q a) := by
  have h0 := tbSteps_nonneg h
  unfold calcMega
  rw [if_neg htb]
  simp only []
  have hstp : 0 < c.tbSteps.toNat := by omega
  have hlay := fun layer => layer_ok h hrem htb hm hb nt layer hnt
  set st := c.tbSteps.toNat with hst
  refine (good_seq _ _ (fun layer a => c.InLayer dir ((layer * st * c.nst : Nat) : Int) sect base
    (t0 + dir * (layer * st : Nat)) (min st (nt - layer * st)) a) ?_ ?_).congr ?_
  · intro layer _
    exact good_layer (hlay layer) hdir
  · refine List.pairwise_lt_range.imp ?_
    rintro l l' hl a b ⟨i, hi, q, hq, a1, _⟩ ⟨i', hi', q', hq', b1, _⟩
    have : l * st + i < l' * st + i' := by
      have : (l + 1) * st ≤ l' * st := Nat.mul_le_mul_right st hl
      have e : (l + 1) * st = l * st + st := by ring
      omega
    refine step_lt hdir (t0 := t0) (i := l * st + i) (i' := l' * st + i') ?_ ?_ this
    · rw [a1]; push_cast; ring
    · rw [b1]; push_cast; ring
  · intro a
    simp only [List.mem_range]
    constructor
    · rintro ⟨l, hl, i, hi, q, hq, a1, a2, a3, a4, a5⟩
      refine ⟨l * st + i, by omega, q, hq, by rw [a1]; push_cast; ring,
        by rw [range_getD hq]; exact a2, a3, a4, fun j hj => ?_⟩
      have := a5 j hj
      rw [range_getD hq, List.length_range]
      have e : (((l * st + i) * c.nst + q : Nat) : Int) =
        ((l * st * c.nst : Nat) : Int) + ((i * c.nst + q : Nat) : Int) := by push_cast; ring
      rw [e]
      exact this
    · rintro ⟨i, hi, q, hq, a1, a2, a3, a4, a5⟩
      rw [range_getD hq] at a2 a5
      rw [List.length_range] at a5
      have hdm := Nat.div_add_mod i st
      have hmod := Nat.mod_lt i hstp
      have hmul : st * (i / st) = i / st * st := Nat.mul_comm _ _
      refine ⟨i / st, ?_, i % st, by omega, q, hq, ?_, a2, a3, a4, fun j hj => ?_⟩
      · rw [Nat.div_lt_iff_lt_mul hstp]
        have := Nat.div_add_mod (nt + st - 1) st
        have h3 := Nat.mod_lt (nt + st - 1) hstp
        have h4 : st * ((nt + st - 1) / st) = (nt + st - 1) / st * st := Nat.mul_comm _ _
        omega
      · rw [a1]
        have : (i : Int) = ((i / st * st : Nat) : Int) + ((i % st : Nat) : Int) := by
          rw [← Nat.cast_add]; congr 1; omega
        rw [this]; ring
      · have := a5 j hj
        have e : (((i / st * st * c.nst : Nat) : Int) + ((i % st * c.nst + q : Nat) : Int)) =
          ((i * c.nst + q : Nat) : Int) := by
          rw [← Nat.cast_add]; congr 1
          have : i * c.nst = (i / st * st + i % st) * c.nst := by congr 1; omega
          rw [this]; ring
        rw [e]; exact this

end RunCfg
end Yask
