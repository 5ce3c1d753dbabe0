import Verif.Sched.TbLemmas
import Mathlib.Data.List.Perm.Subperm

/-! Helper lemmas: traces of a mega-block. -/

namespace Yask
open Spec

theorem combos_sub {n p p' : Nat} {l l' : List Nat} (h : l ∈ combos 0 n p) (h' : l' ∈ combos 0 n p')
    (hs : ∀ j < n, j ∈ l → j ∈ l') : p ≤ p' ∧ (p = p' → l = l') := by
  rw [mem_combos] at h h'
  have hsub : l ⊆ l' := fun j hj => hs j (by have := h.2.2 j hj; omega) hj
  have hnd : l.Nodup := h.2.1.imp (fun h => by omega)
  have hp := List.subperm_of_subset hnd hsub
  refine ⟨by have := hp.length_le; omega, fun hpp => ?_⟩
  have := hp.perm_of_length_le (by omega)
  exact this.eq_of_pairwise (le := (· ≤ ·)) (fun a b _ _ h1 h2 => le_antisymm h1 h2)
    (h.2.1.imp (fun h => by omega)) (h'.2.1.imp (fun h => by omega))

theorem filter_mem_combos (n : Nat) (b : Nat → Bool) :
    (List.range n).filter b ∈ combos 0 n ((List.range n).filter b).length := by
  rw [mem_combos]
  refine ⟨rfl, List.Pairwise.filter _ List.pairwise_lt_range, fun x hx => ?_⟩
  have := List.mem_range.1 (List.mem_filter.1 hx).1
  omega

namespace RunCfg

variable {c : RunCfg} {dir : Int} {en : Bool}

theorem range_getD {n q : Nat} (hq : q < n) : (List.range n).getD q 0 = q := by
  simp [List.getD_eq_getElem?_getD, List.getElem?_range hq]

/-- Evaluations of one layer in the mega-block `base`, before dividing it into blocks. -/
def InLayer (c : RunCfg) (dir S0 : Int) (sect : Sect) (base : Box) (t0 : Int) (nt : Nat) (a : Task) :
    Prop :=
  ∃ i < nt, ∃ q < c.nst, a.step = t0 + dir * i ∧ a.stage = q ∧ c.Valid a ∧ c.sectOk sect ∧
    ∀ j < c.nd, InIvl (at_ a.pt j) (c.megaIvl q sect base (S0 + (i * c.nst + q : Nat)) j)

section layer
variable {S0 t0 : Int} {sect : Sect} {base : Box} {m : List Int} {nt : Nat}

/-- Evaluations of a shape `l` of the block `K`. -/
def InShape (c : RunCfg) (dir S0 : Int) (sect : Sect) (base : Box) (t0 : Int) (nt : Nat)
    (K : List Int) (l : List Nat) (a : Task) : Prop :=
  ∃ M, IsIdx c.nd (c.blockD true (pieceBox c.nd (c.megaD (c.shiftMegaAll base S0)) K)) M ∧
    ∃ i < nt, ∃ q < c.nst, c.InTb dir S0 (fun j => decide (j ∈ l)) sect base
      (pieceBox c.nd (c.megaD (c.shiftMegaAll base S0)) K)
      (pieceBox c.nd (c.blockD true (pieceBox c.nd (c.megaD (c.shiftMegaAll base S0)) K)) M) t0 i q a

/-- What the lemmas below need to know about one layer. -/
structure LayerOk (c : RunCfg) (en : Bool) (S0 : Int) (base : Box) (m : List Int) (nt : Nat) : Prop where
  ok : c.Ok
  rem : en = true → c.NoShortRemainder
  tb : 0 < c.blockSteps
  idx : IsIdx c.nd c.rankD m
  piece : IsPiece c.nd c.rankD m base
  nonneg : 0 ≤ S0
  tbs : ∀ i < nt, ∀ q < c.nst, ((i * c.nst + q : Nat) : Int) ≤ c.numTbShifts
  wfs : ∀ i < nt, ∀ q < c.nst, S0 + ((i * c.nst + q : Nat) : Int) ≤ c.numWfShifts

theorem LayerOk.mega (h : LayerOk c en S0 base m nt) : DimsOk c.nd (c.megaD (c.shiftMegaAll base S0)) :=
  megaD_ok h.ok _ (shiftMegaAll_lt h.ok h.idx h.piece S0)

theorem LayerOk.blk (h : LayerOk c en S0 base m nt) {K : List Int}
    (hK : IsIdx c.nd (c.megaD (c.shiftMegaAll base S0)) K) :
    DimsOk c.nd (c.blockD true (pieceBox c.nd (c.megaD (c.shiftMegaAll base S0)) K)) :=
  blockD_ok h.ok _ _ (piece_lt h.mega hK (isPiece_bodyBox h.mega hK))

theorem inShape_order (h : LayerOk c en S0 base m nt) (hdir : dir = 1 ∨ dir = -1)
    {K K' : List Int} {l l' : List Nat}
    (hK : IsIdx c.nd (c.megaD (c.shiftMegaAll base S0)) K)
    (hK' : IsIdx c.nd (c.megaD (c.shiftMegaAll base S0)) K') {a b : Task}
    (ha : c.InShape dir S0 sect base t0 nt K l a) (hb : c.InShape dir S0 sect base t0 nt K' l' b)
    (hen : en = true) (hmp : c.MustPrecede dir a b) :
    (∀ j < c.nd, j ∈ l → j ∈ l') ∧ (l = l' → ∀ j < c.nd, at_ K j = at_ K' j) := by
  obtain ⟨M, hM, i, hi, q, hq, h1⟩ := ha
  obtain ⟨M', hM', i', hi', q', hq', h2⟩ := hb
  have := tb_order h.ok (h.rem hen) h.tb hdir h.idx h.piece hK hK' (isPiece_bodyBox h.mega hK)
    (isPiece_bodyBox h.mega hK') hq hq' h.nonneg (h.tbs i' hi' q' hq') (h.wfs i hi q hq) h1 h2 hmp
  exact ⟨fun j hj hl => by simpa using this.1 j hj (by simpa using hl),
    fun hl j hj => this.2 j hj (by rw [hl])⟩

theorem inShape_unique (h : LayerOk c en S0 base m nt) (hdir : dir = 1 ∨ dir = -1)
    {K K' : List Int} {l l' : List Nat}
    (hK : IsIdx c.nd (c.megaD (c.shiftMegaAll base S0)) K)
    (hK' : IsIdx c.nd (c.megaD (c.shiftMegaAll base S0)) K') {a : Task}
    (ha : c.InShape dir S0 sect base t0 nt K l a) (hb : c.InShape dir S0 sect base t0 nt K' l' a) :
    (∀ j < c.nd, at_ K j = at_ K' j) ∧ (∀ j < c.nd, j ∈ l ↔ j ∈ l') := by
  obtain ⟨M, hM, i, hi, q, hq, h1⟩ := ha
  obtain ⟨M', hM', i', hi', q', hq', h2⟩ := hb
  have := tb_unique h.ok hdir h.idx h.piece hK hK' (isPiece_bodyBox h.mega hK)
    (isPiece_bodyBox h.mega hK') hq hq' h1 h2
  exact ⟨this.1, fun j hj => by simpa using this.2 j hj⟩

/-- The micro-blocks of one shape. -/
theorem good_shape (h : LayerOk c en S0 base m nt) (hdir : dir = 1 ∨ dir = -1) {K : List Int}
    (hK : IsIdx c.nd (c.megaD (c.shiftMegaAll base S0)) K) (l : List Nat) :
    Good (c.okOrd dir en)
      (doSeq ((scan (c.blockLoop true (pieceBox c.nd (c.megaD (c.shiftMegaAll base S0)) K))).map fun mb =>
          c.calcMicro dir (List.range c.nst) S0 true (fun j => decide (j ∈ l)) sect base
            (c.shiftMegaAll base S0) (pieceBox c.nd (c.megaD (c.shiftMegaAll base S0)) K)
            (c.adjBlock true (pieceBox c.nd (c.megaD (c.shiftMegaAll base S0)) K)) mb t0 nt))
      (c.InShape dir S0 sect base t0 nt K l) := by
  set blk := pieceBox c.nd (c.megaD (c.shiftMegaAll base S0)) K with hblk
  have hbo := h.blk hK
  rw [blockLoop_eq]
  have hmo : ∀ M M' : List Int, ∀ i q i' q' : Nat, ∀ a b : Task,
      IsIdx c.nd (c.blockD true blk) M → IsIdx c.nd (c.blockD true blk) M' →
      q < c.nst → q' < c.nst →
      c.InTb dir S0 (fun j => decide (j ∈ l)) sect base blk (pieceBox c.nd (c.blockD true blk) M)
        t0 i q a →
      c.InTb dir S0 (fun j => decide (j ∈ l)) sect base blk (pieceBox c.nd (c.blockD true blk) M')
        t0 i' q' b →
      (a = b → ∀ j < c.nd, at_ M j = at_ M' j) ∧
      (c.MustPrecede dir a b → ∀ j < c.nd, at_ M j ≤ at_ M' j) := by
    intro M M' i q i' q' a b hM hM' hq hq' ha hb
    obtain ⟨a1, a2, _, _, a5⟩ := ha
    obtain ⟨b1, b2, _, _, b5⟩ := hb
    rw [range_getD hq] at a2 a5
    rw [range_getD hq'] at b2 b5
    rw [List.length_range] at a5 b5
    constructor
    · rintro rfl j hj
      obtain ⟨rfl, rfl⟩ := same_shift hdir a1 b1 a2 b2
      have u := a5 j hj
      have v := b5 j hj
      rw [isPiece_bodyBox hbo hM j hj] at u
      rw [isPiece_bodyBox hbo hM' j hj] at v
      exact microTrim_unique c j (hbo.chain hj) _ _ (hM.2 j hj).1 (hM.2 j hj).2 (hM'.2 j hj).1
        (hM'.2 j hj).2 u v
    · intro hmp j hj
      have hs := before_shift hdir a1 b1 a2 b2 hq hq' hmp.1
      have u := a5 j hj
      have v := b5 j hj
      rw [isPiece_bodyBox hbo hM j hj] at u
      rw [isPiece_bodyBox hbo hM' j hj] at v
      exact microTrim_order c j (hbo.chain hj) (micro_one_or_angle h.ok hj h.tb true blk
        (piece_lt h.mega hK (isPiece_bodyBox h.mega hK))) (mbAngle_nonneg h.ok hj) _ _ _ _
        (by exact_mod_cast hs) (hmp.2 j hj).1 (hM.2 j hj).1 (hM.2 j hj).2 (hM'.2 j hj).1
        (hM'.2 j hj).2 u v
  refine (good_seq_scan c.nd (c.blockD true blk) _ (fun M a => ∃ i < nt, ∃ q < c.nst,
    c.InTb dir S0 (fun j => decide (j ∈ l)) sect base blk (pieceBox c.nd (c.blockD true blk) M) t0 i q a)
    ?_ ?_ ?_).congr ?_
  · intro M hM
    refine (c.good_calcMicro dir en hdir (List.range c.nst) List.pairwise_lt_range _ _ _ _ _ _ _ _ _ _ _).congr ?_
    intro a
    simp only [List.length_range]
  · rintro M M' a hM hM' ⟨i, _, q, hq, ha⟩ ⟨i', _, q', hq', hb⟩
    exact (hmo M M' i q i' q' a a hM hM' hq hq' ha hb).1 rfl
  · rintro M M' a b hM hM' ⟨i, _, q, hq, ha⟩ ⟨i', _, q', hq', hb⟩ hnok
    exact (hmo M' M i' q' i q b a hM' hM hq' hq hb ha).2 (c.not_okOrd dir en hnok).2
  · intro a; rfl

/-- The shapes of one block and phase. -/
theorem good_calcBlockTb (h : LayerOk c en S0 base m nt) (hdir : dir = 1 ∨ dir = -1) {K : List Int}
    (hK : IsIdx c.nd (c.megaD (c.shiftMegaAll base S0)) K) (phase : Nat) (hph : phase ≤ c.nd) :
    Good (c.okOrd dir en)
      (c.calcBlockTb dir S0 phase sect base (c.shiftMegaAll base S0)
        (pieceBox c.nd (c.megaD (c.shiftMegaAll base S0)) K) t0 nt)
      (fun a => ∃ l ∈ combos 0 c.nd phase, c.InShape dir S0 sect base t0 nt K l a) := by
  have hn := h.ok.nd_le
  unfold calcBlockTb
  rw [nChooseK_eq c.nd phase (by omega)]
  simp only [Int.toNat_natCast]
  refine (good_seq (List.range (c.nd.choose phase)) _
    (fun r a => ∃ l, (combos 0 c.nd phase)[r]? = some l ∧ c.InShape dir S0 sect base t0 nt K l a)
    ?_ ?_).congr ?_
  · intro r hr
    rw [List.mem_range] at hr
    obtain ⟨l, mk, h1, h2, h3⟩ := nChooseKSet_spec c.nd phase r (by omega) (by omega) hr
    simp only [h2]
    have hl := (mem_combos 0 c.nd phase l).1 (List.mem_of_getElem? h1)
    have hbr : (fun (j : Nat) => decide (phase > 0) && isBitSet mk j) = fun j => decide (j ∈ l) := by
      funext j
      rw [h3 j]
      by_cases hp : phase > 0
      · simp [hp]
      · have : l = [] := List.length_eq_zero_iff.1 (by omega)
        simp [this]
    rw [hbr]
    refine (good_shape h hdir hK l).congr ?_
    intro a
    rw [h1]
    simp
  · refine List.Pairwise.imp_of_mem ?_ List.pairwise_lt_range
    rintro r r' hr hr' hlt a b ⟨l, hl, ha⟩ ⟨l', hl', hb⟩
    have hm := List.mem_of_getElem? hl
    have hm' := List.mem_of_getElem? hl'
    have hne : l ≠ l' := by
      rintro rfl
      rw [List.mem_range, ← combos_length 0] at hr hr'
      rw [List.getElem?_eq_getElem hr, Option.some.injEq] at hl
      rw [List.getElem?_eq_getElem hr', Option.some.injEq, ← hl] at hl'
      have := (combos_nodup 0 c.nd phase).getElem_inj_iff.1 hl'
      omega
    constructor
    · rintro rfl
      have := (inShape_unique h hdir hK hK ha hb).2
      exact hne ((combos_sub hm hm' (fun j hj => (this j hj).1)).2 rfl)
    · intro hen hmp
      have := (inShape_order h hdir hK hK hb ha hen hmp).1
      exact hne ((combos_sub hm' hm this).2 rfl).symm
  · intro a
    simp only [List.mem_range]
    constructor
    · rintro ⟨r, _, l, hl, ha⟩
      exact ⟨l, List.mem_of_getElem? hl, ha⟩
    · rintro ⟨l, hl, ha⟩
      obtain ⟨r, hr, rfl⟩ := List.mem_iff_getElem.1 hl
      exact ⟨r, by rwa [combos_length] at hr, _, List.getElem?_eq_getElem hr, ha⟩

/-- Every evaluation of the layer is in some shape of some block. -/
theorem inShape_exists (h : LayerOk c en S0 base m nt) {a : Task}
    (ha : c.InLayer dir S0 sect base t0 nt a) :
    ∃ K l, IsIdx c.nd (c.megaD (c.shiftMegaAll base S0)) K ∧ l ∈ combos 0 c.nd l.length ∧
      c.InShape dir S0 sect base t0 nt K l a := by
  obtain ⟨i, hi, q, hq, a1, a2, a3, a4, a5⟩ := ha
  have hex : ∀ j, ∃ K b, j < c.nd → 0 ≤ K ∧ K < (c.megaD (c.shiftMegaAll base S0) j).numIters true ∧
      InIvl (at_ a.pt j) (c.blockShape j ((c.shiftMegaAll base S0).getD j (0, 0))
        ((c.megaD (c.shiftMegaAll base S0) j).cut K, (c.megaD (c.shiftMegaAll base S0) j).cut (K + 1))
        (c.megaIvl q sect base (S0 + (i * c.nst + q : Nat)) j) (i * c.nst + q : Nat) true b) := by
    intro j
    by_cases hj : j < c.nd
    · obtain ⟨K, b, h1, h2, h3⟩ := blockShape_exists c j (h.mega.chain hj) _ (i * c.nst + q : Nat) _ (a5 j hj)
      exact ⟨K, b, fun _ => ⟨h1, h2, h3⟩⟩
    · exact ⟨0, false, fun h => absurd h hj⟩
  choose Kf bf hKb using hex
  have hat : ∀ j < c.nd, at_ ((List.range c.nd).map Kf) j = Kf j := fun j hj => getD_map_range _ _ _ hj
  have hK : IsIdx c.nd (c.megaD (c.shiftMegaAll base S0)) ((List.range c.nd).map Kf) := by
    refine ⟨by simp, fun j hj => ?_⟩
    rw [hat j hj]
    exact ⟨(hKb j hj).1, (hKb j hj).2.1⟩
  refine ⟨(List.range c.nd).map Kf, (List.range c.nd).filter bf, hK, filter_mem_combos _ _, ?_⟩
  set blk := pieceBox c.nd (c.megaD (c.shiftMegaAll base S0)) ((List.range c.nd).map Kf) with hblk
  have hbk : ∀ j < c.nd, blk.getD j (0, 0) = ((c.megaD (c.shiftMegaAll base S0) j).cut (Kf j),
      (c.megaD (c.shiftMegaAll base S0) j).cut (Kf j + 1)) := by
    intro j hj
    have := isPiece_bodyBox h.mega hK j hj
    rw [hat j hj] at this
    exact this
  have hbo := h.blk hK
  have hsh : ∀ j < c.nd, InIvl (at_ a.pt j) (c.blockShape j ((c.shiftMegaAll base S0).getD j (0, 0))
        (blk.getD j (0, 0)) (c.megaIvl q sect base (S0 + (i * c.nst + q : Nat)) j)
        (i * c.nst + q : Nat) true (decide (j ∈ (List.range c.nd).filter bf))) := by
    intro j hj
    rw [hbk j hj]
    have : decide (j ∈ (List.range c.nd).filter bf) = bf j := by
      simp [hj]
    rw [this]
    exact (hKb j hj).2.2
  have hex2 : ∀ j, ∃ M, j < c.nd → 0 ≤ M ∧ M < (c.blockD true blk j).numIters true ∧
      InIvl (at_ a.pt j) (c.microTrim j ((c.adjBlock true blk).getD j (0, 0))
        ((c.blockD true blk j).cut M, (c.blockD true blk j).cut (M + 1))
        (c.megaIvl q sect base (S0 + (i * c.nst + q : Nat)) j)
        (c.blockShape j ((c.shiftMegaAll base S0).getD j (0, 0))
        (blk.getD j (0, 0)) (c.megaIvl q sect base (S0 + (i * c.nst + q : Nat)) j)
        (i * c.nst + q : Nat) true (decide (j ∈ (List.range c.nd).filter bf)))
        (i * c.nst + q : Nat)) := by
    intro j
    by_cases hj : j < c.nd
    · obtain ⟨M, h1, h2, h3⟩ := microTrim_exists c j (hbo.chain hj) _ _ (i * c.nst + q : Nat) _
        (a5 j hj) (hsh j hj)
      exact ⟨M, fun _ => ⟨h1, h2, h3⟩⟩
    · exact ⟨0, fun h => absurd h hj⟩
  choose Mf hMf using hex2
  have hatM : ∀ j < c.nd, at_ ((List.range c.nd).map Mf) j = Mf j := fun j hj => getD_map_range _ _ _ hj
  have hM : IsIdx c.nd (c.blockD true blk) ((List.range c.nd).map Mf) := by
    refine ⟨by simp, fun j hj => ?_⟩
    rw [hatM j hj]
    exact ⟨(hMf j hj).1, (hMf j hj).2.1⟩
  refine ⟨(List.range c.nd).map Mf, hM, i, hi, q, hq, ?_⟩
  refine ⟨a1, by rw [range_getD hq]; exact a2, a3, a4, fun j hj => ?_⟩
  rw [isPiece_bodyBox hbo hM j hj, hatM j hj, range_getD hq, List.length_range]
  exact (hMf j hj).2.2

theorem inShape_layer {K : List Int} {l : List Nat} {a : Task}
    (ha : c.InShape dir S0 sect base t0 nt K l a) : c.InLayer dir S0 sect base t0 nt a := by
  obtain ⟨M, _, i, hi, q, hq, h1, h2, h3, h4, h5⟩ := ha
  rw [range_getD hq] at h2 h5
  rw [List.length_range] at h5
  exact ⟨i, hi, q, hq, h1, h2, h3, h4, fun j hj => (c.microTrim_sub j _ _ _ _ _ _ (h5 j hj)).1⟩

/-- All phases of one layer. -/
theorem good_layer (h : LayerOk c en S0 base m nt) (hdir : dir = 1 ∨ dir = -1) :
    Good (c.okOrd dir en)
      (doSeq ((List.range (c.nd + 1)).map fun (phase : Nat) =>
        doPar ((scan (c.megaLoop (c.shiftMegaAll base S0))).map fun blk =>
          c.calcBlockTb dir S0 phase sect base (c.shiftMegaAll base S0) blk t0 nt)))
      (c.InLayer dir S0 sect base t0 nt) := by
  refine (good_seq (List.range (c.nd + 1)) _ (fun phase a =>
    ∃ K, IsIdx c.nd (c.megaD (c.shiftMegaAll base S0)) K ∧ ∃ l ∈ combos 0 c.nd phase,
      c.InShape dir S0 sect base t0 nt K l a) ?_ ?_).congr ?_
  · intro phase hph
    rw [List.mem_range] at hph
    rw [megaLoop_eq]
    refine (good_par_scan c.nd (c.megaD (c.shiftMegaAll base S0)) _
      (fun K a => ∃ l ∈ combos 0 c.nd phase, c.InShape dir S0 sect base t0 nt K l a) ?_ ?_ ?_).congr ?_
    · intro K hK
      exact good_calcBlockTb h hdir hK phase (by omega)
    · rintro K K' a hK hK' ⟨l, _, ha⟩ ⟨l', _, hb⟩
      exact (inShape_unique h hdir hK hK' ha hb).1
    · rintro K K' a b hK hK' ⟨l, hl, ha⟩ ⟨l', hl', hb⟩ hnok
      have := inShape_order h hdir hK' hK hb ha (c.not_okOrd dir en hnok).1 (c.not_okOrd dir en hnok).2
      exact this.2 ((combos_sub hl' hl this.1).2 rfl)
    · intro a; rfl
  · refine List.pairwise_lt_range.imp ?_
    rintro p p' hp a b ⟨K, hK, l, hl, ha⟩ ⟨K', hK', l', hl', hb⟩
    constructor
    · rintro rfl
      have := (inShape_unique h hdir hK hK' ha hb).2
      have := (combos_sub hl' hl (fun j hj => (this j hj).2)).1
      omega
    · intro hen hmp
      have := (combos_sub hl' hl (inShape_order h hdir hK' hK hb ha hen hmp).1).1
      omega
  · intro a
    simp only [List.mem_range]
    constructor
    · rintro ⟨_, _, K, _, l, _, ha⟩
      exact inShape_layer ha
    · intro ha
      obtain ⟨K, l, hK, hl, hs⟩ := inShape_exists h ha
      refine ⟨l.length, ?_, K, hK, l, hl, hs⟩
      have h1 := (mem_combos 0 c.nd l.length l).1 hl
      have : l.Nodup := h1.2.1.imp (fun h => by omega)
      have := (List.subperm_of_subset this (l₂ := List.range c.nd)
        (fun x hx => List.mem_range.2 (by have := h1.2.2 x hx; omega))).length_le
      simp at this
      omega

end layer

end RunCfg
end Yask
