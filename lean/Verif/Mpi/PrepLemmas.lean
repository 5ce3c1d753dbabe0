import Verif.Props.Boxes
import Verif.Spec.PrepSpec

/-!
# Lemmas: the state after `prepare_solution()` fits the run on several ranks
-/

namespace Yask
open Spec Mpi Setup RunCfg

theorem placed_setup {fi : Bool} {fold : Nat → Int} {nd : Nat} {oldNbr : Nat → Nat → Option Nat} {minSize : Nat → Nat → Nat}
    {opts : List ROpts} {r : RankRes} (h : placeRanks fi fold nd oldNbr minSize opts = .ok r) :
    setupRanks fi fold nd oldNbr opts = .ok r := by
  unfold placeRanks at h
  cases hs : setupRanks fi fold nd oldNbr opts with
  | throws => rw [hs] at h; cases h
  | undefined => rw [hs] at h; cases h
  | ok r' =>
    rw [hs, Outcome.bind_ok] at h
    unfold checkSizes at h
    split at h
    · cases h
    · exact h

theorem nbrSlot_lt {fi : Bool} {nd : Nat} {d : Nat → Int} (hd : Spec.Near nd d) : nbrSlot fi nd d < 3 ^ nd := by
  have h := layout_lt fi ((List.range nd).map fun _ => (3 : Int)) ((List.range nd).map fun j => d j + 1) (by
    have := inSpace_of_getD (sizes := (List.range nd).map fun _ => (3 : Int)) (f := fun j => d j + 1) (by
      intro j hj
      simp only [List.length_map, List.length_range] at hj
      rw [map_range_getD _ hj]
      have := hd j hj
      omega)
    simpa using this)
  rw [prodVals_eq, List.map_const', List.prod_replicate, List.length_range] at h
  unfold nbrSlot
  rw [List.map_const', List.length_range]
  exact_mod_cast h

/-- The width of the wave-front extension matters only in the directions of the neighbour. -/
theorem mkBuf_congr {nd : Nat} {a : XRank} {ok send wf : Bool} {maxD : Int} {ext ext' d : Nat → Int}
    (h : ∀ j < nd, d j ≠ 0 → ext j = ext' j) : mkBuf nd a ok send wf maxD ext d = mkBuf nd a ok send wf maxD ext' d := by
  have hr : ∀ vec, ∀ j < nd, a.range vec send ext d j = a.range vec send ext' d j := by
    intro vec j hj
    unfold XRank.range
    by_cases h0 : d j = 0
    · simp [h0]
    · rw [h j hj h0]
  have hrng : ∀ j, (if a.used j && decide (j < nd) then a.range (a.varVecOk nd ok) send ext d j else (0, 0)) =
      if a.used j && decide (j < nd) then a.range (a.varVecOk nd ok) send ext' d j else (0, 0) := by
    intro j
    by_cases hj : j < nd
    · rw [hr _ j hj]
    · simp [hj]
  unfold mkBuf
  simp only [hrng]

theorem mkBuf_facts {nd : Nat} {a : XRank} {ok send wf : Bool} {maxD : Int} {ext d : Nat → Int} {x : XBuf}
    (h : mkBuf nd a ok send wf maxD ext d = some x) :
    (List.range nd).foldl (fun s j => s + |d j|) (0 : Int) ≤ (if wf then (nd : Int) else maxD) ∧
    (List.range nd).any (fun j => a.used j && decide (d j ≠ 0)) = true ∧
    ∀ j < nd, a.used j = true → x.fin j - x.beg j ≠ 0 := by
  unfold mkBuf at h
  extract_lets maxd mandist vec rng at h
  split at h; · cases h
  rename_i h1
  split at h; · cases h
  rename_i h2
  split at h; · cases h
  rename_i h3
  simp only [Option.some.injEq] at h
  subst h
  refine ⟨not_lt.1 h1, by simpa using h2, ?_⟩
  intro j hj hu
  simp only [List.any_eq_true, List.mem_range, Bool.and_eq_true, decide_eq_true_eq, not_exists, not_and] at h3
  exact h3 j hj hu

/-! ### The interior -/

theorem adjust_mono (P : Prep) (me j : Nat) (b : Int × Int) (nv : Nat × Nat) :
    b.1 ≤ (P.adjust me j b nv).1 ∧ (P.adjust me j b nv).2 ≤ b.2 := by
  unfold Prep.adjust
  simp only
  split_ifs <;> simp

theorem foldl_adjust_mono (P : Prep) (me j : Nat) (L : List (Nat × Nat)) (b : Int × Int) :
    b.1 ≤ (L.foldl (P.adjust me j) b).1 ∧ (L.foldl (P.adjust me j) b).2 ≤ b.2 := by
  induction L generalizing b with
  | nil => exact ⟨le_refl _, le_refl _⟩
  | cons y L ih =>
    have h1 := ih (P.adjust me j b y)
    have h2 := adjust_mono P me j b y
    rw [List.foldl_cons]
    exact ⟨h2.1.trans h1.1, h1.2.trans h2.2⟩

theorem foldl_adjust_mem (P : Prep) (me j : Nat) (L : List (Nat × Nat)) (b : Int × Int) (nv : Nat × Nat) (h : nv ∈ L) :
    ∃ b', (P.adjust me j b' nv).1 ≤ (L.foldl (P.adjust me j) b).1 ∧ (L.foldl (P.adjust me j) b).2 ≤ (P.adjust me j b' nv).2 := by
  induction L generalizing b with
  | nil => simp at h
  | cons y L ih =>
    rw [List.foldl_cons]
    rcases List.mem_cons.1 h with rfl | h
    · exact ⟨b, foldl_adjust_mono P me j L _⟩
    · exact ih _ h

section
variable {G : RunCfg} {P : Prep} {opts : List ROpts} {minSize : Nat → Nat → Nat} {shape : Nat → VarShape}

theorem Prepared.lists (h : Prepared G P opts minSize shape) : Placed P.fi P.fold P.nd (fun _ _ => none) opts P.ranks :=
  (size_facts h.placed h.some_rank).1

/-- The neighbours of a rank are the ranks next to it. -/
theorem prep_nbrs (h : Prepared G P opts minSize shape) {me : Nat} (hme : me < P.n) (nb : Nat) :
    nb ∈ P.nbrs me ↔ nb < P.n ∧ Spec.Near P.nd (fun j => P.ranks.idx nb j - P.ranks.idx me j) ∧
      ∃ j < P.nd, P.ranks.idx nb j ≠ P.ranks.idx me j := by
  have hs := placed_setup h.placed
  have hm : me < opts.length := h.n ▸ hme
  unfold Prep.nbrs
  simp only [List.mem_filterMap, List.mem_filter, List.mem_range, decide_eq_true_eq]
  constructor
  · rintro ⟨i, ⟨hi, hi0⟩, hnb⟩
    obtain ⟨d, hd, rfl⟩ := (C28_unambiguous_partial P.fi P.fold P.nd opts P.ranks hs me hm).2.1 i nb hnb
    obtain ⟨h1, h2⟩ := (C28_neighbor_iff_partial P.fi P.fold P.nd opts P.ranks hs me hm d hd nb).1 hnb
    refine ⟨h.n ▸ h1, ?_, ?_⟩
    · intro j hj
      have := h2 j hj
      have := hd j hj
      simp only
      omega
    · by_contra hc
      push Not at hc
      apply hi0
      unfold nbrSlot
      congr 1
      apply List.map_congr_left
      intro j hj
      rw [List.mem_range] at hj
      have e1 := h2 j hj
      have e2 := hc j hj
      have e3 : d j = 0 := by omega
      rw [e3]
  · rintro ⟨h1, h2, j, hj, hne⟩
    refine ⟨nbrSlot P.fi P.nd (fun j => P.ranks.idx nb j - P.ranks.idx me j), ⟨nbrSlot_lt h2, ?_⟩, ?_⟩
    · intro e
      have := nbrSlot_inj h2 (fun j _ => by simp) e j hj
      omega
    · exact (C28_neighbor_iff_partial P.fi P.fold P.nd opts P.ranks hs me hm _ h2 nb).2 ⟨h.n ▸ h1, fun j _ => by omega⟩

theorem prep_ext (h : Prepared G P opts minSize shape) {k j : Nat} (hk : k < P.n) (hj : j < G.nd)
    (hnum : 1 < P.ranks.num.getD j 0) : (P.cfg k).wfShiftPts j = P.ext j := by
  have h0 : 0 < P.n := by omega
  obtain ⟨a1, a2, _, _, a5, _⟩ := h.dims k hk j hj
  obtain ⟨b1, b2, _, _, b5, _⟩ := h.dims 0 h0 j hj
  unfold Prep.ext
  rw [if_pos hnum]
  unfold wfShiftPts wfAngle numWfShifts
  rw [h.steps k hk, h.steps 0 h0, h.nst k hk, h.nst 0 h0]
  simp only
  rw [if_pos (Or.inr (by rw [a5]; exact hnum)), if_pos (Or.inr (by rw [b5]; exact hnum)), a1, a2, b1, b2]

theorem prep_num (h : Prepared G P opts minSize shape) {k nb j : Nat} (hk : k < P.n) (hnb : nb < P.n) (hj : j < P.nd)
    (hne : P.ranks.idx nb j ≠ P.ranks.idx k j) : 1 < P.ranks.num.getD j 0 := by
  have g1 := h.lists.grid.lt k (h.n ▸ hk) j hj
  have g2 := h.lists.grid.lt nb (h.n ▸ hnb) j hj
  omega

theorem prep_leftExt (h : Prepared G P opts minSize shape) {k j : Nat} (hk : k < P.n) (hj : j < G.nd) :
    (P.cfg k).leftExt j = (if P.ranks.idx k j = 0 then 0 else P.ext j) := by
  have g1 := h.lists.grid.lt k (h.n ▸ hk) j (h.nd ▸ hj)
  obtain ⟨_, _, _, _, _, a6, _⟩ := h.dims k hk j hj
  unfold leftExt
  rw [a6]
  simp only [decide_eq_true_eq]
  split_ifs
  · rfl
  · exact prep_ext h hk hj (by omega)

theorem prep_rightExt (h : Prepared G P opts minSize shape) {k j : Nat} (hk : k < P.n) (hj : j < G.nd) :
    (P.cfg k).rightExt j = (if P.ranks.idx k j = P.ranks.num.getD j 0 - 1 then 0 else P.ext j) := by
  have g1 := h.lists.grid.lt k (h.n ▸ hk) j (h.nd ▸ hj)
  obtain ⟨_, _, _, _, _, _, a7⟩ := h.dims k hk j hj
  unfold rightExt
  rw [a7]
  simp only [decide_eq_true_eq]
  split_ifs
  · rfl
  · exact prep_ext h hk hj (by omega)

/-- The buffers of a rank do not depend on what it knows alone. -/
theorem prep_buf (h : Prepared G P opts minSize shape) {me nb : Nat} (hme : me < P.n) (hnb : nb < P.n) (v : Nat) (send : Bool) :
    P.buf me nb v send = rankBuf P.nd P.fold P.ranks (P.var v).rank P.forceScalar (decide (G.wfSteps > 0)) (P.var v).maxDist
      P.ext me nb send := by
  unfold Prep.buf rankBuf
  rw [h.steps me hme]
  apply mkBuf_congr
  intro j hj hd
  exact prep_ext h hme (h.nd ▸ hj) (prep_num h hme hnb hj (by omega))

/-- What one rank sends is what the other one receives. -/
theorem prep_match (h : Prepared G P opts minSize shape) {me nb : Nat} (hme : me < P.n) (hnb : nb ∈ P.nbrs me) {v : Nat}
    (hv : v < P.nvars) : P.buf nb me v true = P.buf me nb v false := by
  obtain ⟨h1, h2, _⟩ := (prep_nbrs h hme nb).1 hnb
  rw [prep_buf h h1 hme, prep_buf h hme h1]
  have hon := h.vars v hv
  rw [h.n] at hon hme h1
  refine C29_match h.some_rank h.placed hon P.forceScalar _ _ nb me h1 hme ?_
  intro j hj
  have := h2 j hj
  simp only at this ⊢
  omega

theorem prep_symm (h : Prepared G P opts minSize shape) {me nb : Nat} (hme : me < P.n) (hnb : nb ∈ P.nbrs me) : me ∈ P.nbrs nb := by
  obtain ⟨h1, h2, j, hj, h3⟩ := (prep_nbrs h hme nb).1 hnb
  refine (prep_nbrs h h1 me).2 ⟨hme, fun j hj => ?_, j, hj, fun e => h3 e.symm⟩
  have := h2 j hj
  simp only at this ⊢
  omega

theorem prep_edge (h : Prepared G P opts minSize shape) {k j : Nat} (hk : k < P.n) (hj : j < P.nd) :
    0 ≤ P.ranks.ofs k j ∧ (P.ranks.idx k j = 0 → P.ranks.ofs k j = 0) ∧
    (P.ranks.idx k j = P.ranks.num.getD j 0 - 1 → P.ranks.ofs k j + P.ranks.lsz k j = P.ranks.gsz 0 j) := by
  have hp := h.lists
  have hk' : k < opts.length := h.n ▸ hk
  obtain ⟨S, hS⟩ := exists_sizes hp.grid hp.aligned
  have e1 := rankOffset_eq hp.grid hk' hj (fun q hq => hS q hq j hj)
  rw [← hp.ofs] at e1
  have h0 : 0 < opts.length := List.length_pos_iff.2 h.some_rank
  have e2 := hp.gsz 0 h0 j hj
  rw [lineSum_eq hp.grid h0 hj (fun q hq => hS q hq j hj)] at e2
  have g := hp.grid.lt k hk' j hj
  have hpos : ∀ q < P.n, 0 < P.ranks.lsz q j := by
    intro q hq
    obtain ⟨_, _, _, a4, _⟩ := h.dims q hq j (h.nd ▸ hj)
    have := (h.ok q hq).rank_pos j (by show j < (P.cfg q).nd; rw [h.cfg_nd q hq, ← h.nd]; exact hj)
    have e : ((P.full q).dim j).rankSize = ((P.cfg q).dim j).rankSize := rfl
    rw [e, a4] at this
    exact this
  have hSpos : ∀ c : Nat, (c : Int) < P.ranks.num.getD j 0 → 0 < S j c := by
    intro c hc
    obtain ⟨q, hq, e⟩ := hp.grid.surj (fun i => if i = j then (c : Int) else P.ranks.idx k i) (by
      intro i hi
      split_ifs with e
      · subst e; exact ⟨by omega, hc⟩
      · exact hp.grid.lt k hk' i hi)
    have := e j hj
    simp only [if_pos] at this
    rw [← this, ← hS q hq j hj]
    exact hpos q (h.n ▸ hq)
  refine ⟨?_, ?_, ?_⟩
  · rw [e1]
    apply Finset.sum_nonneg
    intro c hc
    rw [Finset.mem_range] at hc
    exact le_of_lt (hSpos c (by omega))
  · intro e; rw [e1, e]; simp
  · intro e
    rw [e1, e2, hS k hk' j hj]
    have e3 : (P.ranks.num.getD j 0).toNat = (P.ranks.idx k j).toNat + 1 := by omega
    have e4 : (((P.ranks.idx k j).toNat : Nat) : Int) = P.ranks.idx k j := by omega
    rw [e3, Finset.sum_range_succ, e4]

/-- The ranks divide the overall domain. -/
theorem prep_divided (h : Prepared G P opts minSize shape) (outs : Nat → Int → Slot → Bool) : Divided G (P.net outs) where
  ok := h.ok
  rem := h.rem
  nd := h.cfg_nd
  nst := h.nst
  nparts := h.nparts
  stepOk := h.stepOk
  steps := h.steps
  halo := fun r hr j hj => (h.dims r hr j hj).2.1
  ranks := by
    intro r hr j hj hfl
    obtain ⟨_, _, _, _, a5, a6, a7⟩ := h.dims r hr j hj
    have hfl : ((P.cfg r).dim j).firstRank = false ∨ ((P.cfg r).dim j).lastRank = false := hfl
    show 1 < ((P.cfg r).dim j).nranks
    rw [a5]
    rw [a6, a7] at hfl
    have g := h.lists.grid.lt r (h.n ▸ hr) j (h.nd ▸ hj)
    simp only [decide_eq_false_iff_not] at hfl g
    omega
  first := by
    intro r hr j hj hfl
    obtain ⟨_, _, a3, _, _, a6, _⟩ := h.dims r hr j hj
    have hfl : ((P.cfg r).dim j).firstRank = true := hfl
    show ((P.cfg r).dim j).rankBeg = _
    rw [a6, decide_eq_true_eq] at hfl
    rw [a3, (prep_edge h hr (h.nd ▸ hj)).2.1 hfl, (h.whole j hj).1]
  last := by
    intro r hr j hj hfl
    obtain ⟨_, _, a3, a4, _, _, a7⟩ := h.dims r hr j hj
    have hfl : ((P.cfg r).dim j).lastRank = true := hfl
    show ((P.cfg r).dim j).rankBeg + ((P.cfg r).dim j).rankSize = _
    rw [a7, decide_eq_true_eq] at hfl
    rw [a3, a4, (prep_edge h hr (h.nd ▸ hj)).2.2 hfl, (h.whole j hj).1, (h.whole j hj).2]
    omega
  inside := h.inside
  dom := h.dom

theorem inBuf_iff {nd : Nat} {used : Nat → Bool} {x : XBuf} {p : List Int} :
    inBuf nd used x p = true ↔ InRegion nd used x.beg x.fin (fun j => p.getD j 0) := by
  unfold inBuf InRegion
  simp only [List.all_eq_true, List.mem_range, Bool.or_eq_true, Bool.not_eq_true', Bool.and_eq_true, decide_eq_true_eq]
  constructor
  · intro h j hj hu
    rcases h j hj with h | h
    · rw [hu] at h; cases h
    · exact h
  · intro h j hj
    cases hu : used j with
    | false => exact Or.inl rfl
    | true => exact Or.inr (h j hj hu)

/-- What a rank receives, in terms of buffers. -/
theorem prep_gets (h : Prepared G P opts minSize shape) {outs : Nat → Int → Slot → Bool} {me : Nat} (hme : me < P.n) (nb : Nat) (β : Slot)
    (x : List Int) : Gets (P.net outs) me nb β x ↔ nb ∈ P.nbrs me ∧ β.1 < P.nvars ∧ β.2 < (P.var β.1).slots ∧
      ∃ y, P.buf me nb β.1 false = some y ∧ InRegion P.nd (shape β.1).used y.beg y.fin (fun j => x.getD j 0) := by
  unfold Gets
  have e : (P.net outs).box me nb β.1 x = match P.buf me nb β.1 false with
    | some y => inBuf P.nd ((P.var β.1).rank me).used y x
    | none => false := rfl
  constructor
  · rintro ⟨h1, h2, h3, h4⟩
    refine ⟨h1, h3, h4, ?_⟩
    rw [e] at h2
    cases hb : P.buf me nb β.1 false with
    | none => rw [hb] at h2; cases h2
    | some y =>
      rw [hb] at h2
      simp only at h2
      rw [inBuf_iff, (h.vars β.1 h3).used_eq me hme] at h2
      exact ⟨y, rfl, h2⟩
  · rintro ⟨h1, h3, h4, y, h5, h6⟩
    refine ⟨h1, ?_, h3, h4⟩
    rw [e, h5]
    simp only
    rw [inBuf_iff, (h.vars β.1 h3).used_eq me hme]
    exact h6

theorem prep_lsz (h : Prepared G P opts minSize shape) {k j : Nat} (hk : k < P.n) (hj : j < P.nd) : 0 < P.ranks.lsz k j := by
  obtain ⟨_, _, _, a4, _⟩ := h.dims k hk j (h.nd ▸ hj)
  have := (h.ok k hk).rank_pos j (by show j < (P.cfg k).nd; rw [h.cfg_nd k hk, ← h.nd]; exact hj)
  have e : ((P.full k).dim j).rankSize = ((P.cfg k).dim j).rankSize := rfl
  rw [e, a4] at this
  exact this

/-! ### Which vars have buffers -/

/-- Rank `b` is next to rank `a` in dim `j`. -/
theorem prep_single (h : Prepared G P opts minSize shape) {a b j : Nat} {s : Int} (ha : a < P.n) (hb : b < P.n) (hj : j < P.nd)
    (hs : s = -1 ∨ s = 1) (hab : ∀ i < P.nd, P.ranks.idx b i = P.ranks.idx a i + if i = j then s else 0) {v : Nat} (hv : v < P.nvars)
    (hu : (shape v).used j = true) (hw : G.wfSteps > 0 ∨ 1 ≤ (P.var v).maxDist)
    (hpos : 0 < if s = -1 then (shape v).lh j + P.ext j else (shape v).rh j + P.ext j) :
    b ∈ P.nbrs a ∧ (P.buf a b v false).isSome = true := by
  have hne : P.ranks.idx b j ≠ P.ranks.idx a j := by have := hab j hj; rw [if_pos rfl] at this; omega
  have hnear : Spec.Near P.nd (fun j => P.ranks.idx b j - P.ranks.idx a j) := by
    intro i hi
    have := hab i hi
    simp only
    split_ifs at this <;> omega
  refine ⟨(prep_nbrs h ha b).2 ⟨hb, hnear, j, hj, hne⟩, ?_⟩
  rw [prep_buf h ha hb]
  have hon := h.vars v hv
  have ha' := ha; have hb' := hb
  rw [h.n] at hon ha' hb'
  obtain ⟨y, hy, _⟩ := C29_covered h.some_rank h.placed hon P.forceScalar (decide (G.wfSteps > 0)) (P.var v).maxDist a b ha' hb' hnear
    ⟨j, hj, hu, hne⟩ (by
      rcases hw with hw | hw
      · exact Or.inl (by simpa using hw)
      · refine Or.inr (le_trans (le_of_eq ?_) hw)
        rw [Finset.sum_eq_single j]
        · rw [hab j hj, if_pos rfl]
          rcases hs with rfl | rfl <;> simp
        · intro i hi hij
          rw [hab i (Finset.mem_range.1 hi), if_neg hij]; simp
        · intro hc; exact absurd (Finset.mem_range.2 hj) hc)
    (fun i => if i = j then (if s = -1 then P.ranks.ofs a j - 1 else P.ranks.ofs a j + P.ranks.lsz a j) else P.ranks.ofs a i) (by
      intro i hi _
      have hl := prep_lsz h ha hi
      have := hab i hi
      simp only
      by_cases hij : i = j
      · subst hij
        simp only [if_true] at this ⊢
        rcases hs with rfl | rfl
        · simp only [if_true] at hpos ⊢
          exact ⟨fun _ => ⟨by omega, by omega⟩, fun _ => by omega, fun _ => by omega⟩
        · rw [if_neg (by decide)] at hpos
          rw [if_neg (by decide)]
          exact ⟨fun _ => by omega, fun _ => ⟨by omega, by omega⟩, fun _ => by omega⟩
      · rw [if_neg hij] at this
        simp only [if_neg hij]
        exact ⟨fun _ => by omega, fun _ => by omega, fun _ => ⟨Or.inl (le_refl _), Or.inl (by omega)⟩⟩)
  rw [hy]; rfl

/-- Either all ranks have buffers for a var, or none. -/
theorem prep_hasBuf (h : Prepared G P opts minSize shape) (outs : Nat → Int → Slot → Bool) {me : Nat} (hme : me < P.n) {v : Nat}
    (hv : v < P.nvars) : (P.net outs).hasBuf me v = true ↔ ∃ j < P.nd, (shape v).used j = true ∧ 1 < P.ranks.num.getD j 0 ∧
      (0 < (shape v).lh j + P.ext j ∨ 0 < (shape v).rh j + P.ext j) ∧ (G.wfSteps > 0 ∨ 1 ≤ (P.var v).maxDist) := by
  have e : (P.net outs).hasBuf me v = (P.nbrs me).any fun nb => (P.buf me nb v true).isSome || (P.buf me nb v false).isSome := rfl
  rw [e, List.any_eq_true]
  have hon := h.vars v hv
  have hon' := hon
  have hme' := hme
  rw [h.n] at hon' hme'
  constructor
  · rintro ⟨nb, hnb, hsome⟩
    obtain ⟨h1, h2, _⟩ := (prep_nbrs h hme nb).1 hnb
    obtain ⟨send, y, hy⟩ : ∃ send y, P.buf me nb v send = some y := by
      rw [Bool.or_eq_true] at hsome
      rcases hsome with hs | hs
      · exact ⟨true, Option.isSome_iff_exists.1 hs⟩
      · exact ⟨false, Option.isSome_iff_exists.1 hs⟩
    rw [prep_buf h hme h1] at hy
    obtain ⟨f1, f2, f3⟩ := mkBuf_facts hy
    obtain ⟨⟨j, hj, hu, hd⟩, m2, _⟩ := mkBuf_some hy
    have hd' : P.ranks.idx nb j ≠ P.ranks.idx me j := fun hc => hd (by omega)
    have m2 := m2 j hj hu
    have f3 := f3 j hj hu
    rw [hon.used_eq me hme] at hu
    have hnr := h2 j hj
    refine ⟨j, hj, hu, prep_num h hme h1 hj hd', ?_, ?_⟩
    · obtain ⟨hh, fo, lo, e, k1, _⟩ := range_eq hon' hme' hj hu
        ((P.var v).rank me |>.varVecOk P.nd (!P.forceScalar && hasMults P.nd P.fold P.ranks me && hasMults P.nd P.fold P.ranks nb))
        send (fun j => P.ranks.idx nb j - P.ranks.idx me j) hnr
      rw [e, Prod.mk.injEq] at m2
      have k1 := k1 hd
      simp only at k1 hnr hd
      obtain ⟨c1, c2, c3, c4⟩ := k1
      have hh0 : hh ≠ 0 := by
        rw [m2.1, m2.2] at f3
        rintro rfl
        apply f3
        have : P.ranks.idx nb j - P.ranks.idx me j = -1 ∨ P.ranks.idx nb j - P.ranks.idx me j = 1 := by omega
        rcases this with e' | e' <;> rw [e'] <;> cases send <;> simp
      have f := hon.facts hme hj hu
      have hvp := f.vl_pos
      have g1 := f.lh0
      have g2 := f.rh0
      have g3 := hon.ext_nonneg j hj
      have hpos : 0 < if (P.ranks.idx nb j - P.ranks.idx me j = -1) = (send = true) then (shape v).rh j + P.ext j
          else (shape v).lh j + P.ext j := by
        by_contra hc
        have h00 : (if (P.ranks.idx nb j - P.ranks.idx me j = -1) = (send = true) then (shape v).rh j + P.ext j
          else (shape v).lh j + P.ext j) = 0 := by
          refine le_antisymm (not_lt.1 hc) ?_
          split_ifs <;> omega
        rw [h00] at c1 c2 c3
        cases hvec : (P.var v).rank me |>.varVecOk P.nd (!P.forceScalar && hasMults P.nd P.fold P.ranks me && hasMults P.nd P.fold P.ranks nb) with
        | false => exact hh0 (c1 hvec)
        | true =>
          have := Int.eq_zero_of_dvd_of_nonneg_of_lt c2 (by omega) (c4 hvec)
          exact hh0 this
      split_ifs at hpos
      · exact Or.inr hpos
      · exact Or.inl hpos
    · by_cases hw : G.wfSteps > 0
      · exact Or.inl hw
      · right
        rw [if_neg (by simpa using hw), foldl_abs_sum] at f1
        refine le_trans ?_ f1
        refine le_trans ?_ (Finset.single_le_sum (fun i _ => abs_nonneg _) (Finset.mem_range.2 hj))
        exact Int.one_le_abs hd
  · rintro ⟨j, hj, hu, hnum, hpos, hw⟩
    have g := h.lists.grid.lt me hme' j hj
    -- a neighbour in this dim
    obtain ⟨s, hs, nb, hnb, hab⟩ : ∃ s : Int, (s = -1 ∨ s = 1) ∧ ∃ nb < P.n, ∀ i < P.nd, P.ranks.idx nb i =
        P.ranks.idx me i + if i = j then s else 0 := by
      have key : ∀ s : Int, 0 ≤ P.ranks.idx me j + s → P.ranks.idx me j + s < P.ranks.num.getD j 0 → ∃ nb < P.n, ∀ i < P.nd,
          P.ranks.idx nb i = P.ranks.idx me i + if i = j then s else 0 := by
        intro s h1 h2
        obtain ⟨nb, hnb, e⟩ := h.lists.grid.surj (fun i => P.ranks.idx me i + if i = j then s else 0) (by
          intro i hi
          have := h.lists.grid.lt me hme' i hi
          split_ifs with hij
          · subst hij; exact ⟨h1, h2⟩
          · omega)
        exact ⟨nb, h.n ▸ hnb, e⟩
      by_cases h0 : P.ranks.idx me j = 0
      · exact ⟨1, Or.inr rfl, key 1 (by omega) (by omega)⟩
      · exact ⟨-1, Or.inl rfl, key (-1) (by omega) (by omega)⟩
    have hba : ∀ i < P.nd, P.ranks.idx me i = P.ranks.idx nb i + if i = j then -s else 0 := by
      intro i hi
      have := hab i hi
      split_ifs at this ⊢ <;> omega
    have hnbr : nb ∈ P.nbrs me := by
      refine (prep_nbrs h hme nb).2 ⟨hnb, fun i hi => ?_, j, hj, ?_⟩
      · have := hab i hi
        simp only
        split_ifs at this <;> omega
      · have := hab j hj
        rw [if_pos rfl] at this
        omega
    refine ⟨nb, hnbr, ?_⟩
    have hm2 := prep_match h hnb (prep_symm h hme hnbr) hv
    rw [Bool.or_eq_true]
    by_cases hside : 0 < if s = -1 then (shape v).lh j + P.ext j else (shape v).rh j + P.ext j
    · exact Or.inr (prep_single h hme hnb hj hs hab hv hu hw hside).2
    · left
      rw [hm2]
      refine (prep_single h hnb hme hj (by omega) hba hv hu hw ?_).2
      rcases hs with rfl | rfl
      · rw [if_pos rfl] at hside
        rw [if_neg (by decide)]
        omega
      · rw [if_neg (by decide)] at hside
        rw [if_pos rfl]
        omega

/-! ### The regions fit the stencil -/

/-- What a rank sends is outside its interior. -/
theorem prep_outer (h : Prepared G P opts minSize shape) {me nb : Nat} (hme : me < P.n) (hnb : nb ∈ P.nbrs me) {v : Nat} (hv : v < P.nvars)
    {y : XBuf} (hy : P.buf me nb v true = some y) (p : Nat → Int) (hp : InRegion P.nd (shape v).used y.beg y.fin p) :
    ∃ j < P.nd, p j < (P.interior me j).1 ∨ (P.interior me j).2 ≤ p j := by
  obtain ⟨h1, h2, _⟩ := (prep_nbrs h hme nb).1 hnb
  have hy' := hy
  rw [prep_buf h hme h1] at hy'
  have hon := h.vars v hv
  have hon' := hon
  have hme' := hme
  have h1' := h1
  rw [h.n] at hon' hme' h1'
  have hb : ∃ j < P.nd, (shape v).used j = true ∧ P.ranks.idx nb j - P.ranks.idx me j ≠ 0 := by
    obtain ⟨⟨j, hj, hu, hd⟩, _, _⟩ := mkBuf_some hy'
    rw [hon.used_eq me hme] at hu
    exact ⟨j, hj, hu, hd⟩
  obtain ⟨j, hj, hu, hd⟩ := hb
  have hnr := h2 j hj
  simp only at hnr
  have hu' : ((P.var v).rank me).used j = true := by rw [hon.used_eq me hme]; exact hu
  have hm' := (mkBuf_some hy').2.1 j hj hu'
  rw [varVecOk_eq hon' hme'] at hm'
  generalize hvec : (!P.forceScalar && hasMults P.nd P.fold P.ranks me && hasMults P.nd P.fold P.ranks nb) = vec at hm'
  obtain ⟨hh, fo, lo, e, k1, _⟩ := range_eq hon' hme' hj hu vec true (fun j => P.ranks.idx nb j - P.ranks.idx me j) hnr
  have k1 := k1 hd
  have f := hon.facts hme hj hu
  have hvp := f.vl_pos
  have hlsz := prep_lsz h hme hj
  obtain ⟨o1, _, _⟩ := prep_edge h hme hj
  have hfold := hon.fold_pos j hj
  -- the interior
  have hunf := hy
  unfold Prep.buf rankBuf at hunf
  obtain ⟨f1, f2, _⟩ := mkBuf_facts hunf
  have hm := (mkBuf_some hunf).2.1 j hj hu'
  rw [varVecOk_eq hon' hme', hvec] at hm
  have hmem : (nb, v) ∈ (P.nbrs me).flatMap fun nb => (List.range P.nvars).map fun v => (nb, v) := by
    rw [List.mem_flatMap]
    exact ⟨nb, hnb, List.mem_map.2 ⟨v, List.mem_range.2 hv, rfl⟩⟩
  obtain ⟨b', i1, i2⟩ := foldl_adjust_mem P me j _ ((P.cfg me).extBeg j, (P.cfg me).extEnd j) (nb, v) hmem
  have hadj : P.adjust me j b' (nb, v) =
      let h := ((P.var v).rank me).halo vec false ((P.cfg me).wfShiftPts j) (P.ranks.idx nb j - P.ranks.idx me j) j
      if P.ranks.idx nb j - P.ranks.idx me j = -1 then
        (max b'.1 (roundUp (((P.var v).rank me).firstInner j + max P.minExt h) (P.fold j)), b'.2)
      else if P.ranks.idx nb j - P.ranks.idx me j = 1 then
        (b'.1, min b'.2 (roundDown (((P.var v).rank me).lastInner j + 1 - max P.minExt h) (P.fold j)))
      else b' := by
    unfold Prep.adjust
    simp only
    rw [if_neg, if_neg, if_neg, varVecOk_eq hon' hme', hvec]
    · rw [hu']; simp
    · rw [f2]; simp
    · simp only [decide_eq_true_eq] at f1
      exact not_lt.2 f1
  rw [hadj] at i1 i2
  simp only at i1 i2
  have hpj := hp j hj hu
  refine ⟨j, hj, ?_⟩
  unfold Prep.interior
  have c : P.ranks.idx nb j - P.ranks.idx me j = -1 ∨ P.ranks.idx nb j - P.ranks.idx me j = 1 := by omega
  unfold XRank.range at hm
  simp only [if_true, Bool.not_true] at hm
  unfold XRank.firstInner XRank.lastInner at hm i1 i2
  rw [f.ro] at hm i1 i2
  rw [f.dom] at hm i2
  generalize hhalo : ((P.var v).rank me).halo vec false ((P.cfg me).wfShiftPts j) (P.ranks.idx nb j - P.ranks.idx me j) j = hl at hm i1 i2
  rcases c with c | c
  · left
    rw [if_pos c] at hm i1
    rw [Prod.mk.injEq] at hm
    have h0 : 0 < hl := by omega
    have := (roundUp_spec (a := P.ranks.ofs me j + max P.minExt hl) (b := P.fold j) (by omega) hfold).1
    refine lt_of_lt_of_le ?_ i1
    simp only
    omega
  · right
    have hn1 : P.ranks.idx nb j - P.ranks.idx me j ≠ -1 := by omega
    rw [if_neg hn1, if_pos c] at hm i2
    rw [Prod.mk.injEq] at hm
    -- the width is at most the size of the rank
    have hle : hl ≤ P.ranks.lsz me j := by
      simp only at e
      rw [e] at hm'
      rw [if_neg hn1, if_pos c] at hm'
      rw [Prod.mk.injEq] at hm'
      have hhl : hh = hl := by
        have := hm'.1
        have := hm.1
        simp only [if_true] at *
        omega
      simp only at k1
      obtain ⟨c1, c2, c3, c4⟩ := k1
      obtain ⟨n1, n2, n3⟩ := (near_facts h.some_rank h.placed hon' hme' h1' hj hu).2 c
      have h00 : (if (P.ranks.idx nb j - P.ranks.idx me j = -1) = (true = true) then (shape v).rh j + P.ext j
          else (shape v).lh j + P.ext j) ≤ P.ranks.lsz me j := by split_ifs <;> assumption
      cases vec with
      | false =>
        have := c1 rfl
        omega
      | true =>
        have d1 := c4 rfl
        have hmul : hasMults P.nd P.fold P.ranks me = true := by
          simp only [Bool.and_eq_true] at hvec
          exact hvec.1.2
        have d2 : (shape v).vl j ∣ P.ranks.lsz me j := by
          refine Int.dvd_trans ?_ (hasMults_iff.1 hmul j hj)
          rcases hon.vl_eq j hj with e | e <;> rw [e]
          exact Int.one_dvd _
        obtain ⟨q1, d1⟩ := d1
        obtain ⟨q2, d2⟩ := d2
        by_contra hc
        have : q2 + 1 ≤ q1 := by
          by_contra hc2
          have : q1 ≤ q2 := by omega
          have := mul_le_mul_of_nonneg_left this (le_of_lt hvp)
          omega
        have := mul_le_mul_of_nonneg_left this (le_of_lt hvp)
        rw [mul_add, mul_one] at this
        omega
    refine le_trans i2 ?_
    refine le_trans (min_le_right _ _) ?_
    have hmax : hl ≤ max P.minExt hl := le_max_right _ _
    by_cases hneg : 0 ≤ P.ranks.ofs me j + P.ranks.lsz me j - 1 + 1 - max P.minExt hl
    · have := (roundDown_spec hneg hfold).1
      omega
    · have hr : roundDown (P.ranks.ofs me j + P.ranks.lsz me j - 1 + 1 - max P.minExt hl) (P.fold j) ≤ 0 := by
        unfold roundDown
        apply mul_nonpos_of_nonpos_of_nonneg _ (le_of_lt hfold)
        have := Int.neg_tdiv (P.ranks.ofs me j + P.ranks.lsz me j - 1 + 1 - max P.minExt hl) (P.fold j)
        have h2 := Int.tdiv_nonneg (a := -(P.ranks.ofs me j + P.ranks.lsz me j - 1 + 1 - max P.minExt hl)) (b := P.fold j) (by omega) (le_of_lt hfold)
        omega
      omega

theorem filter_length_eq_sum (m : Nat) (q : Nat → Prop) [DecidablePred q] :
    (((List.range m).filter fun j => decide (q j)).length : Int) = ∑ j ∈ Finset.range m, if q j then (1 : Int) else 0 := by
  induction m with
  | zero => rfl
  | succ m ih =>
    rw [List.range_succ, List.filter_append, List.length_append, Finset.sum_range_succ, ← ih]
    by_cases hq : q m <;> simp [hq]

/-- What a rank reads is its own or is received. -/
theorem prep_reads (h : Prepared G P opts minSize shape) (outs : Nat → Int → Slot → Bool) {Val : Type*} {S : Stencil G Slot Val} (hf : FitsVars S P shape outs)
    {me : Nat} (hme : me < P.n) {a : Task} {γ : Slot} {x : List Int} (hext : RankExtHas G (P.net outs) me a.pt) (hr : S.reads a γ x) :
    OwnPoint P shape me γ.1 x ∨ ∃ nb, Gets (P.net outs) me nb γ x := by
  obtain ⟨r1, r2, r3, r4⟩ := hf.reads a γ x hr
  have hon := h.vars γ.1 r1
  have hon' := hon
  have hme' := hme
  rw [h.n] at hon' hme'
  have hgrid := h.lists.grid
  let d : Nat → Int := fun j => if (shape γ.1).used j = true ∧ x.getD j 0 < P.ranks.ofs me j ∧ P.ranks.idx me j ≠ 0 then -1
    else if (shape γ.1).used j = true ∧ P.ranks.ofs me j + P.ranks.lsz me j ≤ x.getD j 0 ∧
      P.ranks.idx me j ≠ P.ranks.num.getD j 0 - 1 then 1 else 0
  have hdc : ∀ j, d j = if (shape γ.1).used j = true ∧ x.getD j 0 < P.ranks.ofs me j ∧ P.ranks.idx me j ≠ 0 then -1
    else if (shape γ.1).used j = true ∧ P.ranks.ofs me j + P.ranks.lsz me j ≤ x.getD j 0 ∧
      P.ranks.idx me j ≠ P.ranks.num.getD j 0 - 1 then 1 else 0 := fun _ => rfl
  have hdr : ∀ j, (d j = -1 ∨ d j = 0 ∨ d j = 1) := by
    intro j; rw [hdc]; split_ifs <;> simp
  have hdm : ∀ j, d j = -1 → (shape γ.1).used j = true ∧ x.getD j 0 < P.ranks.ofs me j ∧ P.ranks.idx me j ≠ 0 := by
    intro j e
    by_contra hc
    rw [hdc, if_neg hc] at e
    split_ifs at e <;> omega
  have hdp : ∀ j, d j = 1 → (shape γ.1).used j = true ∧ P.ranks.ofs me j + P.ranks.lsz me j ≤ x.getD j 0 ∧
      P.ranks.idx me j ≠ P.ranks.num.getD j 0 - 1 := by
    intro j e
    by_contra hc
    rw [hdc, if_neg hc] at e
    split_ifs at e <;> omega
  have hdz : ∀ j, d j = 0 → (shape γ.1).used j = true → (P.ranks.ofs me j ≤ x.getD j 0 ∨ P.ranks.idx me j = 0) ∧
      (x.getD j 0 < P.ranks.ofs me j + P.ranks.lsz me j ∨ P.ranks.idx me j = P.ranks.num.getD j 0 - 1) := by
    intro j e hu
    rw [hdc] at e
    constructor
    · by_contra hc
      push Not at hc
      rw [if_pos ⟨hu, hc⟩] at e
      omega
    · by_contra hc
      push Not at hc
      rw [if_pos (show (shape γ.1).used j = true ∧ P.ranks.ofs me j + P.ranks.lsz me j ≤ x.getD j 0 ∧
        P.ranks.idx me j ≠ P.ranks.num.getD j 0 - 1 from ⟨hu, hc⟩)] at e
      split_ifs at e <;> omega
  have hdu : ∀ j, d j ≠ 0 → (shape γ.1).used j = true := by
    intro j hne
    rcases hdr j with e | e | e
    · exact (hdm j e).1
    · exact absurd e hne
    · exact (hdp j e).1
  by_cases hz : ∀ j < P.nd, d j = 0
  · left
    intro j hj hu
    exact hdz j (hz j hj) hu
  · right
    push Not at hz
    obtain ⟨j0, hj0, hd0⟩ := hz
    obtain ⟨nb, hnb, hidx⟩ := hgrid.surj (fun j => P.ranks.idx me j + d j) (by
      intro j hj
      have g := hgrid.lt me hme' j hj
      have := hdr j
      rcases this with e | e | e
      · have := (hdm j e).2.2
        omega
      · omega
      · have := (hdp j e).2.2
        omega)
    have hnb' : nb < P.n := h.n ▸ hnb
    have hdi : ∀ j < P.nd, P.ranks.idx nb j - P.ranks.idx me j = d j := by
      intro j hj
      have := hidx j hj
      omega
    have hnear : Spec.Near P.nd (fun j => P.ranks.idx nb j - P.ranks.idx me j) := by
      intro j hj
      have := hdi j hj
      have := hdr j
      simp only
      omega
    have hne0 : P.ranks.idx nb j0 ≠ P.ranks.idx me j0 := by
      have := hdi j0 hj0
      omega
    -- the point of evaluation
    have hpt : ∀ j < P.nd, P.ranks.ofs me j - (if P.ranks.idx me j = 0 then 0 else P.ext j) ≤ a.pt.getD j 0 ∧
        a.pt.getD j 0 < P.ranks.ofs me j + P.ranks.lsz me j + (if P.ranks.idx me j = P.ranks.num.getD j 0 - 1 then 0 else P.ext j) := by
      intro j hj
      have hj' : j < G.nd := h.nd ▸ hj
      have hh := hext j hj'
      obtain ⟨_, _, a3, a4, _⟩ := h.dims me hme j hj'
      have e1 : ((P.net outs).cfg me).extBeg j = (P.cfg me).extBeg j := rfl
      have e2 : ((P.net outs).cfg me).extEnd j = (P.cfg me).extEnd j := rfl
      rw [e1, e2] at hh
      unfold extBeg extEnd rankEnd at hh
      rw [prep_leftExt h hme hj', prep_rightExt h hme hj', a3, a4] at hh
      exact hh
    obtain ⟨y, hy1, hy2⟩ := C29_covered h.some_rank h.placed hon' P.forceScalar (decide (G.wfSteps > 0)) (P.var γ.1).maxDist me nb
      hme' hnb hnear ⟨j0, hj0, hdu j0 hd0, hne0⟩ (by
        by_cases hw : G.wfSteps > 0
        · exact Or.inl (by simpa using hw)
        · right
          refine le_trans ?_ r4
          rw [← h.nd, filter_length_eq_sum]
          apply Finset.sum_le_sum
          intro j hj
          rw [Finset.mem_range] at hj
          rw [hdi j hj]
          -- without wave-fronts there are no extensions
          have hx0 : P.ext j = 0 := by
            have h0 : 0 < P.n := by omega
            unfold Prep.ext
            split_ifs
            · unfold wfShiftPts numWfShifts
              rw [h.steps 0 h0, if_neg hw, mul_zero]
            · rfl
          have hp := hpt j hj
          rw [hx0] at hp
          simp only [ite_self] at hp
          rcases hdr j with e | e | e
          · have := hdm j e
            rw [e, if_pos ⟨this.1, by omega⟩]; decide
          · rw [e]; simp only [abs_zero]; split_ifs <;> simp
          · have := hdp j e
            rw [e, if_pos ⟨this.1, by omega⟩]; decide)
      (fun j => x.getD j 0) (by
        intro j hj hu
        rw [show (fun j => P.ranks.idx nb j - P.ranks.idx me j) j = d j from hdi j hj]
        have hp := hpt j hj
        have hr3 := r3 j (h.nd ▸ hj) hu
        have hx := hon.ext_nonneg j hj
        have hf := hon.facts hme hj hu
        have hl0 := hf.lh0
        have hr0 := hf.rh0
        refine ⟨fun e => ?_, fun e => ?_, fun e => ?_⟩
        · have := hdm j e
          rw [if_neg this.2.2] at hp
          simp only
          exact ⟨by omega, by omega⟩
        · have := hdp j e
          rw [if_neg this.2.2] at hp
          simp only
          exact ⟨by omega, by omega⟩
        · obtain ⟨z1, z2⟩ := hdz j e hu
          simp only
          constructor
          · rcases z1 with z1 | z1
            · exact Or.inl z1
            · right; refine ⟨z1, ?_⟩
              rw [if_pos z1] at hp; omega
          · rcases z2 with z2 | z2
            · exact Or.inl z2
            · right; refine ⟨z2, ?_⟩
              rw [if_pos z2] at hp; omega)
    refine ⟨nb, (prep_gets h hme nb γ x).2 ⟨?_, r1, r2, y, ?_, hy2⟩⟩
    · exact (prep_nbrs h hme nb).2 ⟨hnb', hnear, j0, hj0, hne0⟩
    · rw [prep_buf h hme hnb']; exact hy1

/-- The regions fit the stencil. -/
theorem prep_linked (h : Prepared G P opts minSize shape) (outs : Nat → Int → Slot → Bool) {Val : Type*} {S : Stencil G Slot Val} (hf : FitsVars S P shape outs) :
    Linked S (P.net outs) (OwnPoint P shape) where
  nbr_lt := fun r hr nb hnb => ((prep_nbrs h hr nb).1 hnb).1
  bufs := by
    intro r hr nb hnb v hv
    rw [Bool.eq_iff_iff, prep_hasBuf h outs hr hv, prep_hasBuf h outs ((prep_nbrs h hr nb).1 hnb).1 hv]
  has_buf := by
    intro r hr nb β x hg
    obtain ⟨h1, h2, h3, y, h4, h5⟩ := (prep_gets h hr nb β x).1 hg
    show ((P.nbrs r).any fun nb => (P.buf r nb β.1 true).isSome || (P.buf r nb β.1 false).isSome) = true
    rw [List.any_eq_true]
    exact ⟨nb, h1, by rw [h4]; simp⟩
  gets_own := by
    intro r hr nb β x hg
    obtain ⟨h1, h2, h3, y, h4, h5⟩ := (prep_gets h hr nb β x).1 hg
    obtain ⟨n1, n2, _⟩ := (prep_nbrs h hr nb).1 h1
    have hsend := (prep_match h hr h1 h2).trans h4
    rw [prep_buf h n1 hr] at hsend
    have hon := h.vars β.1 h2
    have hr' : r < P.n := hr
    have n1' := n1
    rw [h.n] at hon hr' n1'
    refine C29_sent_partial h.some_rank h.placed hon P.forceScalar _ _ nb r n1' hr' ?_ (fun j hj hu => h.aligned β.1 h2 nb n1 j hj hu) y hsend _ h5
    intro j hj
    have := n2 j hj
    simp only at this ⊢
    omega
  gets_outer := by
    intro r hr nb β x hg _
    obtain ⟨h1, h2, h3, y, h4, h5⟩ := (prep_gets h hr nb β x).1 hg
    obtain ⟨n1, _, _⟩ := (prep_nbrs h hr nb).1 h1
    obtain ⟨j, hj, ho⟩ := prep_outer h n1 (prep_symm h hr h1) h2 ((prep_match h hr h1 h2).trans h4) _ h5
    exact ⟨j, h.nd ▸ hj, ho⟩
  own_rank := by
    intro r hr a β hw ho hin j hj
    have hr : r < P.n := hr
    obtain ⟨_, _, a3, a4, _⟩ := h.dims r hr j hj
    have hj' : j < P.nd := h.nd ▸ hj
    have hu := (hf.writes a β hw).2.2 j hj
    have ho := ho j hj' hu
    have hin := hin j hj
    obtain ⟨_, e1, e2⟩ := prep_edge h hr hj'
    show ((P.cfg r).dim j).rankBeg ≤ a.pt.getD j 0 ∧ a.pt.getD j 0 < ((P.cfg r).dim j).rankBeg + ((P.cfg r).dim j).rankSize
    rw [a3, a4]
    rw [(h.whole j hj).1, (h.whole j hj).2] at hin
    obtain ⟨i1, i2⟩ := hin
    simp only at i1 i2 ho
    constructor
    · rcases ho.1 with c | c
      · exact c
      · rw [e1 c]; exact i1
    · rcases ho.2 with c | c
      · exact c
      · rw [e2 c]; omega
  reads_held := fun r hr a γ x hext hrd => prep_reads h outs hf hr hext hrd
  outs := fun a β hw => (hf.writes a β hw).2.1

end

end Yask
