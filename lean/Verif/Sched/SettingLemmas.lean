import Verif.Sched.GoodLemmas

/-! Helper lemmas: consequences of a legal configuration, dimension by dimension. -/

namespace Yask
open Spec
namespace RunCfg

variable {c : RunCfg} {j : Nat}

/-- Scan of dimension `j` over mega-blocks. -/
abbrev rankD (c : RunCfg) (j : Nat) : LoopDim :=
  let d := c.dim j
  let b := c.extBeg j
  let e := if c.wfSteps > 0 ∧ c.rightExt j = 0 then c.extEnd j + c.wfShiftPts j else c.extEnd j
  { begin_ := b, end_ := e
    stride := if d.megaSize ≥ d.rankSize then roundUp (e - b) d.fold * 2 else d.megaSize
    align := d.fold, alignOfs := d.rankBeg, tileSize := 1 }

theorem rankLoop_eq (c : RunCfg) : c.rankLoop = (List.range c.nd).map c.rankD := rfl

/-- Scan of dimension `j` over blocks. -/
abbrev megaD (c : RunCfg) (mega : Box) (j : Nat) : LoopDim :=
  let d := c.dim j
  let m := mega.getD j (0, 0)
  { begin_ := m.1, end_ := m.2
    stride := strideOf d.fold d.blockSize d.megaSize (m.2 - m.1) (m.2 - m.1)
    align := d.fold, alignOfs := d.rankBeg, tileSize := 1 }

theorem megaLoop_eq (c : RunCfg) (mega : Box) : c.megaLoop mega = (List.range c.nd).map (c.megaD mega) := rfl

/-- Scan of dimension `j` over micro-blocks. -/
abbrev blockD (c : RunCfg) (tb : Bool) (blk : Box) (j : Nat) : LoopDim :=
  let d := c.dim j
  let b := blk.getD j (0, 0)
  let a := (c.adjBlock tb blk).getD j (0, 0)
  { begin_ := a.1, end_ := a.2
    stride := strideOf d.fold d.microSize d.blockSize (b.2 - b.1) (a.2 - a.1)
    align := d.fold, alignOfs := d.rankBeg, tileSize := 1 }

theorem blockLoop_eq (c : RunCfg) (tb : Bool) (blk : Box) :
    c.blockLoop tb blk = (List.range c.nd).map (c.blockD tb blk) := rfl

/-! ### Signs -/

theorem wfSteps_nonneg (h : c.Ok) : 0 ≤ c.wfSteps := by
  have := h.mega_steps; unfold wfSteps; omega

theorem numWfShifts_nonneg (c : RunCfg) : 0 ≤ c.numWfShifts := by
  unfold numWfShifts; split <;> try split
  all_goals first | omega | skip
  next h1 h2 =>
    have : 0 ≤ (c.nst : Int) * c.wfSteps := by positivity
    omega

theorem roundHalo_ge (h : c.Ok) (hj : j < c.nd) :
    (c.dim j).maxHalo ≤ roundUp (c.dim j).maxHalo (c.dim j).fold :=
  (roundUp_spec (h.halo_nonneg j hj) (h.fold_pos j hj)).1

theorem wfAngle_nonneg (h : c.Ok) (hj : j < c.nd) : 0 ≤ c.wfAngle j := by
  have h1 := roundHalo_ge h hj
  have h2 := h.halo_nonneg j hj
  unfold wfAngle
  simp only
  split <;> omega

theorem wfShiftPts_nonneg (h : c.Ok) (hj : j < c.nd) : 0 ≤ c.wfShiftPts j :=
  mul_nonneg (wfAngle_nonneg h hj) (numWfShifts_nonneg c)

theorem leftExt_cases (c : RunCfg) (j : Nat) : c.leftExt j = 0 ∨ c.leftExt j = c.wfShiftPts j := by
  unfold leftExt; split <;> simp

theorem rightExt_cases (c : RunCfg) (j : Nat) : c.rightExt j = 0 ∨ c.rightExt j = c.wfShiftPts j := by
  unfold rightExt; split <;> simp

theorem rawTbAngle_ge (h : c.Ok) (hj : j < c.nd) : (c.dim j).maxHalo ≤ c.rawTbAngle j := by
  have h1 := roundHalo_ge h hj
  unfold rawTbAngle
  split <;> omega

theorem tbAngle_nonneg (h : c.Ok) (hj : j < c.nd) : 0 ≤ c.tbAngle j := by
  have := rawTbAngle_ge h hj
  have h2 := h.halo_nonneg j hj
  unfold tbAngle
  split <;> omega

theorem mbAngle_nonneg (h : c.Ok) (hj : j < c.nd) : 0 ≤ c.mbAngle j := by
  have := rawTbAngle_ge h hj
  have h2 := h.halo_nonneg j hj
  unfold mbAngle
  split <;> omega

/-! ### The rank -/

theorem rankD_ok (h : c.Ok) : DimsOk c.nd c.rankD := by
  intro j hj
  have h1 := wfShiftPts_nonneg h hj
  have h2 := leftExt_cases c j
  have h3 := rightExt_cases c j
  have h4 := h.rank_pos j hj
  have h5 := h.fold_pos j hj
  have h6 := h.mega_pos j hj
  have hbe : (c.rankD j).begin_ < (c.rankD j).end_ := by
    simp only [rankD, extBeg, extEnd, rankEnd]
    split <;> omega
  refine ⟨?_, h5, hbe⟩
  have := roundUp_spec (a := (c.rankD j).end_ - (c.rankD j).begin_) (b := (c.dim j).fold)
    (by omega) h5
  simp only [rankD] at this hbe ⊢
  split <;> omega

theorem rank_one_or_angle (h : c.Ok) (hj : j < c.nd) :
    (c.rankD j).numIters true ≤ 1 ∨ (c.dim j).maxHalo ≤ c.wfAngle j := by
  by_cases hm : (c.dim j).megaSize ≥ (c.dim j).rankSize
  · left
    apply LoopDim.one_piece _ (h.fold_pos j hj) (rankD_ok h j hj).2.2
    simp only [rankD, hm, if_true]
  · right
    have h1 := roundHalo_ge h hj
    unfold wfAngle
    simp only
    rw [if_pos (Or.inl (by omega))]
    exact h1

/-- `x` belongs to the given section of the rank in dimension `j`. -/
def InSect (c : RunCfg) (sect : Sect) (j : Nat) (amt x : Int) : Prop :=
  let i := c.intRange j amt
  match sect with
  | .whole => True
  | .interior => InIvl x i
  | .ext dim left =>
    (j = dim → if left then x < i.1 else i.2 ≤ x ∧ i.1 ≤ x) ∧ (j < dim → InIvl x i)

theorem shiftTrim_iff (h : c.Ok) (hj : j < c.nd) (stage : Nat) (sect : Sect) (base : Ivl) {s : Int}
    (hs : c.wfAngle j * s ≤ c.wfShiftPts j) (x : Int) :
    InIvl x (c.shiftTrim stage sect j base s) ↔
      (base.1 ≤ x + c.wfAngle j * s ∧ x + c.wfAngle j * s < base.2) ∧ InIvl x (c.stageBB stage j) ∧
      (c.leftExt j ≠ 0 → (c.dim j).rankBeg - c.leftExt j + c.wfAngle j * s ≤ x) ∧
      (c.rightExt j ≠ 0 → x < c.rankEnd j + c.rightExt j - c.wfAngle j * s) ∧
      c.InSect sect j (c.wfAngle j * s) x := by
  have h2 := leftExt_cases c j
  have h3 := rightExt_cases c j
  generalize hb : (c.stageBB stage j) = bb
  have key : ∀ r : Ivl, InIvl x (c.sectTrim sect j (c.wfAngle j * s) r) ↔
      InIvl x r ∧ c.InSect sect j (c.wfAngle j * s) x := by
    intro r
    unfold sectTrim InSect
    generalize c.intRange j (c.wfAngle j * s) = i
    cases sect with
    | whole => simp
    | interior => simp only [InIvl]; omega
    | ext dim left =>
      simp only [InIvl]
      by_cases h1 : j = dim
      · subst h1
        cases left <;> simp <;> omega
      · by_cases h2 : j < dim
        · simp only [h1, h2, if_true, if_false]; simp; omega
        · simp [h1, h2]
  unfold shiftTrim
  simp only [hb]
  rw [key, ← and_assoc, ← and_assoc, ← and_assoc]
  refine and_congr_left fun _ => ?_
  unfold shiftOnly InIvl
  simp only []
  have e1 : ∀ u : Int, (if u < (c.dim j).rankBeg ∧ c.leftExt j ≠ 0 then
      max u ((c.dim j).rankBeg - c.leftExt j + c.wfAngle j * s) else u) ≤ x ↔
      u ≤ x ∧ (c.leftExt j ≠ 0 → (c.dim j).rankBeg - c.leftExt j + c.wfAngle j * s ≤ x) := by
    intro u; split <;> omega
  have e2 : ∀ u : Int, x < (if u > c.rankEnd j ∧ c.rightExt j ≠ 0 then
      min u (c.rankEnd j + c.rightExt j - c.wfAngle j * s) else u) ↔
      x < u ∧ (c.rightExt j ≠ 0 → x < c.rankEnd j + c.rightExt j - c.wfAngle j * s) := by
    intro u; split <;> omega
  rw [e1, e2]
  constructor
  · rintro ⟨⟨a1, a2⟩, a3, a4⟩
    refine ⟨⟨⟨⟨by omega, by omega⟩, by omega, by omega⟩, a2⟩, a4⟩
  · rintro ⟨⟨⟨⟨a1, a2⟩, a3, a4⟩, a5⟩, a6⟩
    exact ⟨⟨by omega, a5⟩, by omega, a6⟩

theorem eval_iff (h : c.Ok) (hj : j < c.nd) {s : Int} (hs : 0 ≤ s) (x : Int)
    (hx : InIvl x (c.extBeg j, c.extEnd j)) :
    (c.leftExt j ≠ 0 → (c.dim j).rankBeg - c.leftExt j + c.wfAngle j * s ≤ x) ∧
      (c.rightExt j ≠ 0 → x < c.rankEnd j + c.rightExt j - c.wfAngle j * s) ↔
    c.evalBeg j s ≤ x ∧ x < c.evalEnd j s := by
  unfold evalBeg evalEnd rankEnd
  unfold extBeg extEnd rankEnd at hx
  simp only [InIvl] at hx
  have := mul_nonneg (wfAngle_nonneg h hj) hs
  split <;> split <;> omega

theorem mega_exists (h : c.Ok) (hj : j < c.nd) {s : Int} (hs : 0 ≤ s)
    (hs2 : c.wfAngle j * s ≤ c.wfShiftPts j) (hw : c.wfSteps > 0 ∨ s = 0)
    {x : Int} (hx : InIvl x (c.extBeg j, c.extEnd j))
    (hr : c.rightExt j ≠ 0 → x < c.rankEnd j + c.rightExt j - c.wfAngle j * s) :
    ∃ m, 0 ≤ m ∧ m < (c.rankD j).numIters true ∧ (c.rankD j).cut m ≤ x + c.wfAngle j * s ∧
      x + c.wfAngle j * s < (c.rankD j).cut (m + 1) := by
  have hp := mul_nonneg (wfAngle_nonneg h hj) hs
  simp only [InIvl] at hx
  have h3 := rightExt_cases c j
  refine ((rankD_ok h).chain hj).exists_idx (x := x + c.wfAngle j * s) ?_ ?_
  · simp only [rankD]; omega
  · simp only [rankD]
    by_cases hr0 : c.rightExt j = 0
    · rcases hw with hw | rfl
      · simp only [hw, hr0, and_self, if_true]; omega
      · have hq := wfShiftPts_nonneg h hj
        simp only [mul_zero, add_zero]
        split <;> omega
    · simp only [hr0, and_false, if_false]
      have := hr hr0
      unfold extEnd
      omega

theorem mega_unique (h : c.Ok) (hj : j < c.nd) {m m' y : Int}
    (m0 : 0 ≤ m) (mn : m < (c.rankD j).numIters true) (m0' : 0 ≤ m')
    (mn' : m' < (c.rankD j).numIters true)
    (h1 : (c.rankD j).cut m ≤ y ∧ y < (c.rankD j).cut (m + 1))
    (h2 : (c.rankD j).cut m' ≤ y ∧ y < (c.rankD j).cut (m' + 1)) : m = m' :=
  le_antisymm (((rankD_ok h).chain hj).idx_le mn m0' h1.1 h2.2 (le_refl _))
    (((rankD_ok h).chain hj).idx_le mn' m0 h2.1 h1.2 (le_refl _))

/-- The mega-block of an earlier evaluation is not after the one of a later evaluation near it. -/
theorem mega_order (h : c.Ok) (hj : j < c.nd) {m1 m2 x1 x2 s1 s2 : Int} (hs : s1 < s2)
    (m0 : 0 ≤ m1) (mn : m1 < (c.rankD j).numIters true) (m0' : 0 ≤ m2)
    (mn' : m2 < (c.rankD j).numIters true)
    (h1 : (c.rankD j).cut m1 ≤ x1 + c.wfAngle j * s1)
    (h2 : x2 + c.wfAngle j * s2 < (c.rankD j).cut (m2 + 1))
    (hn : x1 - x2 ≤ (c.dim j).maxHalo) : m1 ≤ m2 := by
  rcases rank_one_or_angle h hj with ho | ha
  · omega
  · refine ((rankD_ok h).chain hj).idx_le mn m0' h1 h2 ?_
    have : c.wfAngle j * s1 + c.wfAngle j ≤ c.wfAngle j * s2 := by
      have := wfAngle_nonneg h hj
      nlinarith
    omega

/-! ### Temporal blocks -/

theorem strideOf_pos {fold inner outer r r' : Int} (hf : 0 < fold) (hi : 0 < inner) (hr' : 0 < r') :
    0 < strideOf fold inner outer r r' := by
  have h1 := roundUp_spec (a := inner) (b := fold) (by omega) hf
  have h2 := roundUp_spec (a := r') (b := fold) (by omega) hf
  unfold strideOf
  split
  · omega
  · split <;> omega

theorem strideOf_ge {fold inner outer r r' : Int} (hf : 0 < fold) (hi : 0 < inner)
    (ho : ¬ inner ≥ outer) : inner ≤ strideOf fold inner outer r r' := by
  have h1 := roundUp_spec (a := inner) (b := fold) (by omega) hf
  unfold strideOf
  rw [if_neg ho]
  split <;> omega

theorem megaD_ok (h : c.Ok) (mega : Box)
    (hm : ∀ j < c.nd, (mega.getD j (0, 0)).1 < (mega.getD j (0, 0)).2) : DimsOk c.nd (c.megaD mega) := by
  intro j hj
  have hf := h.fold_pos j hj
  have hb := h.block_pos j hj
  have := hm j hj
  exact ⟨strideOf_pos hf (by omega) (by omega), hf, this⟩

theorem adjBlock_at (c : RunCfg) (tb : Bool) (blk : Box) {j : Nat} (hj : j < c.nd) :
    (c.adjBlock tb blk).getD j (0, 0) =
      ((blk.getD j (0, 0)).1, if tb then
        (blk.getD j (0, 0)).2 + ((blk.getD j (0, 0)).2 - (blk.getD j (0, 0)).1)
        else (blk.getD j (0, 0)).2) := by
  unfold adjBlock
  rw [getD_map_range _ _ _ hj]

theorem blockD_ok (h : c.Ok) (tb : Bool) (blk : Box)
    (hm : ∀ j < c.nd, (blk.getD j (0, 0)).1 < (blk.getD j (0, 0)).2) :
    DimsOk c.nd (c.blockD tb blk) := by
  intro j hj
  have hf := h.fold_pos j hj
  have hb := h.micro_pos j hj
  have := hm j hj
  have hlt : ((c.adjBlock tb blk).getD j (0, 0)).1 < ((c.adjBlock tb blk).getD j (0, 0)).2 := by
    rw [adjBlock_at c tb blk hj]
    split <;> omega
  exact ⟨strideOf_pos hf hb (by omega), hf, hlt⟩

theorem micro_one_or_angle (h : c.Ok) (hj : j < c.nd) (htb : 0 < c.blockSteps) (tb : Bool) (blk : Box)
    (hm : ∀ j < c.nd, (blk.getD j (0, 0)).1 < (blk.getD j (0, 0)).2) :
    (c.blockD tb blk j).numIters true = 1 ∨ (c.dim j).maxHalo ≤ c.mbAngle j := by
  have hok := blockD_ok h tb blk hm
  by_cases hm : (c.dim j).microSize ≥ (c.dim j).blockSize
  · left
    have := (hok.chain hj).pos
    have h1 := LoopDim.one_piece (c.blockD tb blk j) (h.fold_pos j hj) (hok j hj).2.2
      (by simp only [blockD, strideOf, hm, if_true])
    omega
  · right
    have h1 := rawTbAngle_ge h hj
    unfold mbAngle
    rw [if_pos ⟨htb, by omega⟩]
    exact h1

theorem tbMaxSteps_le (c : RunCfg) (k : Nat) : ∀ n, k < n → c.tbAngle k > 0 →
    c.tbMaxSteps n ≤
      ((c.dim k).blockSize - (c.dim k).fold + c.tbAngle k * 2).tdiv (c.tbAngle k * 2 * c.nst) := by
  intro n
  induction n with
  | zero => intro hk; omega
  | succ n ih =>
    intro hk ha
    unfold tbMaxSteps
    rcases Nat.lt_succ_iff_lt_or_eq.1 hk with hlt | rfl
    · have := ih hlt ha
      split <;> omega
    · rw [if_pos ha]; omega

theorem block_lt_of_tbAngle (hz : c.tbAngle j ≠ 0) : (c.dim j).blockSize < (c.dim j).megaSize := by
  unfold tbAngle at hz
  by_contra hc
  exact hz (if_neg fun h => hc h.2)

/-- A full block is long enough for the shifts of a block. -/
theorem block_long (h : c.Ok) (hj : j < c.nd) (hz : c.tbAngle j ≠ 0) :
    2 * (c.tbAngle j * c.numTbShifts) ≤ (c.dim j).blockSize - (c.dim j).fold := by
  have hb := h.block_ge j hj (block_lt_of_tbAngle hz)
  have ha := tbAngle_nonneg h hj
  by_cases ht : c.tbSteps > 0
  · by_cases hn : (c.nst : Int) * c.tbSteps > 0
    · have hbs : c.blockSteps > 0 := by
        unfold tbSteps at ht; split at ht
        · assumption
        · exact ht
      have h1 := tbMaxSteps_le c j c.nd hj (by omega)
      have h2 : c.tbSteps ≤ c.tbMaxSteps c.nd := by
        unfold tbSteps; rw [if_pos hbs]; omega
      have hnp : 0 < (c.nst : Int) := by
        by_contra hc
        have : (c.nst : Int) = 0 := by omega
        rw [this] at hn; simp at hn
      have hnum : 0 ≤ (c.dim j).blockSize - (c.dim j).fold + c.tbAngle j * 2 := by omega
      rw [tdiv_nonneg_eq hnum] at h1
      have hd : 0 < c.tbAngle j * 2 * c.nst := by positivity
      have h3 := Int.ediv_mul_le ((c.dim j).blockSize - (c.dim j).fold + c.tbAngle j * 2)
        (ne_of_gt hd)
      have h4 : c.tbSteps * (c.tbAngle j * 2 * c.nst) ≤
          ((c.dim j).blockSize - (c.dim j).fold + c.tbAngle j * 2) / (c.tbAngle j * 2 * c.nst) *
            (c.tbAngle j * 2 * c.nst) := mul_le_mul_of_nonneg_right (by omega) (by omega)
      have h5 : c.tbSteps * (c.tbAngle j * 2 * c.nst) =
          2 * (c.tbAngle j * ((c.nst : Int) * c.tbSteps - 1)) + c.tbAngle j * 2 := by ring
      have h6 : c.numTbShifts = (c.nst : Int) * c.tbSteps - 1 := by
        unfold numTbShifts; rw [if_pos ht, if_pos hn]
      rw [h6]
      omega
    · have : c.numTbShifts = (c.nst : Int) * c.tbSteps := by
        unfold numTbShifts; rw [if_pos ht, if_neg hn]
      have : c.tbAngle j * c.numTbShifts ≤ 0 := by
        rw [this]; exact mul_nonpos_of_nonneg_of_nonpos ha (by omega)
      omega
  · have : c.numTbShifts = 0 := by unfold numTbShifts; rw [if_neg ht]
    rw [this]; omega

theorem tbWidth_ge (h : c.Ok) (hj : j < c.nd) :
    2 * (c.tbAngle j * c.numTbShifts) ≤ c.tbWidth j := by
  have hf := h.fold_pos j hj
  have hb := h.block_pos j hj
  unfold tbWidth
  simp only
  split
  · rename_i hc
    have h2 := block_long h hj (by omega)
    have : c.numTbShifts * c.tbAngle j = c.tbAngle j * c.numTbShifts := by ring
    omega
  · rename_i hc
    have ha := tbAngle_nonneg h hj
    have : c.tbAngle j * c.numTbShifts ≤ 0 := by
      by_cases hz : c.tbAngle j = 0
      · rw [hz]; omega
      · exact mul_nonpos_of_nonneg_of_nonpos ha (by omega)
    omega

theorem tbAngle_le_wf (h : c.Ok) (hj : j < c.nd)
    (hw : (c.dim j).megaSize < (c.dim j).rankSize ∨ 1 < (c.dim j).nranks) :
    c.tbAngle j ≤ c.wfAngle j := by
  have h1 := roundHalo_ge h hj
  have h2 := h.halo_nonneg j hj
  unfold wfAngle
  simp only
  rw [if_pos (by omega)]
  unfold tbAngle rawTbAngle
  split <;> try split
  all_goals omega

end RunCfg
end Yask
